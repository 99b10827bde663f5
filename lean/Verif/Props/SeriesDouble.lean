import Verif.Props.Network
import Verif.Props.IntHeadroom

/-! # C103: filters in series, double arithmetic -/

set_option linter.unusedSectionVars false

namespace Iir
open FArith XR Spec Exec

/-! ## Statements -/

/-- A filter set up and run in double arithmetic (from reset, whatever was done with the object before), the ideal filter, the
peak gain of the ideal filter and the relative error of C77, C76 and C82. -/
inductive Spec.DblDevice : ((ℕ → Dbl) → (ℕ → Dbl) → Prop) → ((ℕ → ℝ) → (ℕ → ℝ) → Prop) → ℝ → ℝ → Prop
  | butterworth {S : Type → Type} [StateType S Dbl] [DelayLine Dbl S] {T : Type} [Sample T Dbl] {n o : ℕ} (hn : n < 2 ^ 30)
      (ho : 1 ≤ o) (h16 : o ≤ 16) (hon : o ≤ n) {call : Call Dbl} {f : PoleFilter S Dbl} (h : Reach S T call.design.cls n f)
      (hord : call.order n = o) (hf : doubleRounds.FinCall call) {φ : ℝ}
      (hd : IdealBw (mapCall (fun v => XR.fin v.val) call).normDesign φ) {S0 : Type → Type} [StateType S0 XR]
      [DelayLine XR S0] {T0 : Type} [Sample T0 XR] {P : ℝ}
      (hP : PeakGain (SetupRuns S0 T0 n (mapCall (fun v => XR.fin v.val) call)) P) :
      DblDevice (fun x y => ∃ f', PoleFilter.setup n call f = (.ok (), f') ∧
          Returns (PoleFilter.filter (T := Dbl)) (PoleFilter.reset f').2 x y)
        (SetupRuns S0 T0 n (mapCall (fun v => XR.fin v.val) call)) P (bwAmplifies φ o * (bwSharp φ o + n) / 2 ^ 30)
  | rbj {fs : Dbl} {d : RBJ.Design Dbl} (hfs : fs.Finite) (h0 : fs.val ≠ 0) (hf : doubleRounds.FinArgs d) {σ : ℝ}
      (hs : SharpRBJ σ (overRate fs.val (doubleRounds.valRBJ d))) (hσ : σ ≤ 2 ^ 10) (f : RBJ.Filter Dbl) {P : ℝ}
      (hP : PeakGain (RBJRuns (finRBJ (overRate fs.val (doubleRounds.valRBJ d)))) P) :
      DblDevice (fun x y => ∃ f', RBJ.Filter.setup fs d f = (.ok (), f') ∧
          Returns (RBJ.Filter.filter (T := Dbl)) (RBJ.Filter.reset f').2 x y)
        (RBJRuns (finRBJ (overRate fs.val (doubleRounds.valRBJ d)))) P (σ ^ 4 / 2 ^ 34)
  | shelf {fs : Dbl} {d : RBJ.Design Dbl} (hfs : fs.Finite) (h0 : fs.val ≠ 0) (hf : doubleRounds.FinArgs d) {σ : ℝ}
      (hs : SharpShelf σ (overRate fs.val (doubleRounds.valRBJ d))) (hσ : σ ≤ 2 ^ 10) (f : RBJ.Filter Dbl) {P : ℝ}
      (hP : PeakGain (RBJRuns (finRBJ (overRate fs.val (doubleRounds.valRBJ d)))) P) :
      DblDevice (fun x y => ∃ f', RBJ.Filter.setup fs d f = (.ok (), f') ∧
          Returns (RBJ.Filter.filter (T := Dbl)) (RBJ.Filter.reset f').2 x y)
        (RBJRuns (finRBJ (overRate fs.val (doubleRounds.valRBJ d)))) P
        (shelfGain (overRate fs.val (doubleRounds.valRBJ d)) ^ 5 * σ ^ 4 / 2 ^ 33)

/-- One member of a series. -/
structure Spec.Member where
  run : (ℕ → Dbl) → (ℕ → Dbl) → Prop
  ideal : (ℕ → ℝ) → (ℕ → ℝ) → Prop
  peak : ℝ
  err : ℝ

/-- The level of the signal, which is at most `X` at the start, is within reasonable limits all along the series. -/
def Spec.Levels : ℝ → List Member → Prop
  | _, [] => True
  | X, m :: ms => 1 / 2 ^ 400 ≤ X ∧ X ≤ 2 ^ 400 ∧ Levels ((m.peak + m.err) * X) ms

/-! ## Tools -/

/-- what is used of a device -/
structure Tracks (m : Member) : Prop where
  unique : ∀ x y z, m.run x y → m.run x z → y = z
  linear : ∃ H, Linear m.ideal H
  peak : PeakGain m.ideal m.peak
  close : ∀ X x, (∀ i, (x i).Finite ∧ |(x i).val| ≤ X) → 1 / 2 ^ 400 ≤ X → X ≤ 2 ^ 400 → ∃ y', m.run x y' ∧
    ∃ y, m.ideal (fun i => (x i).val) y ∧ ∀ i, (y' i).Finite ∧ |(y' i).val - y i| ≤ m.err * X

theorem range_400 {X : ℝ} (h1 : 1 / 2 ^ 400 ≤ X) (h2 : X ≤ 2 ^ 400) : (1 / 2) ^ 1000 ≤ X ∧ X ≤ 2 ^ 900 :=
  ⟨le_trans (by
    rw [one_div_pow]
    exact one_div_le_one_div_of_le (by positivity) (pow_le_pow_right₀ (by norm_num) (by norm_num))) h1,
    h2.trans (pow_le_pow_right₀ (by norm_num) (by norm_num))⟩

theorem Spec.DblDevice.tracks {m : Member} (h : DblDevice m.run m.ideal m.peak m.err) : Tracks m := by
  obtain ⟨run, ideal, P, e⟩ := m
  simp only at h
  cases h with
  | @butterworth S _ _ T _ n o hn ho h16 hon call f h hord hf φ hd S0 _ _ T0 _ P hP =>
    obtain ⟨f', e, hc⟩ := C77_double hn ho h16 hon h hord hf hd S0 T0
    refine ⟨?_, ?_, hP, fun X x hx h1 h2 => ?_⟩
    · rintro x y z ⟨f1, e1, r1⟩ ⟨f2, e2, r2⟩
      obtain rfl : f1 = f2 := congrArg Prod.snd (e1.symm.trans e2)
      exact r1.unique r2
    · obtain ⟨dd, hdd⟩ : ∃ dd, (mapCall (fun v => XR.fin v.val) call).normDesign = dd := ⟨_, rfl⟩
      have hv : Valid o dd := by
        rw [hdd] at hd
        cases hd with
        | low a b => exact ⟨lt_of_lt_of_le (by norm_num) a, by linarith⟩
        | high a b => exact ⟨lt_of_lt_of_le (by norm_num) a, by linarith⟩
      obtain ⟨H, hk, -⟩ := known_gain (S := S0) (T := T0) ⟨(mapCall_order _ _ _).trans hord, hdd, ho, hon, hn⟩ hv
      exact ⟨H, hk.linear⟩
    · obtain ⟨y', hr, hy⟩ := hc X x hx h1 h2
      exact ⟨y', ⟨f', e, hr⟩, hy⟩
  | @rbj fs d hfs h0 hf σ hs hσ f P hP =>
    obtain ⟨f', e, hc⟩ := C76_double fs d hfs h0 hf hs hσ f
    obtain ⟨H, hH⟩ := rbj_fun (overRate fs.val (doubleRounds.valRBJ d))
    refine ⟨?_, ⟨H, (known_rbj_design (sharp_valid hs) hH).linear⟩, hP, fun X x hx h1 h2 => ?_⟩
    · rintro x y z ⟨f1, e1, r1⟩ ⟨f2, e2, r2⟩
      obtain rfl : f1 = f2 := congrArg Prod.snd (e1.symm.trans e2)
      exact r1.unique r2
    · obtain ⟨y', hr, hy⟩ := hc X x hx (range_400 h1 h2).1 (range_400 h1 h2).2
      exact ⟨y', ⟨f', e, hr⟩, hy⟩
  | @shelf fs d hfs h0 hf σ hs hσ f P hP =>
    obtain ⟨f', e, hc⟩ := C82_double fs d hfs h0 hf hs hσ f
    obtain ⟨H, hH⟩ := rbj_fun (overRate fs.val (doubleRounds.valRBJ d))
    refine ⟨?_, ⟨H, (known_rbj_design (sharpShelf_valid hs) hH).linear⟩, hP, fun X x hx h1 h2 => ?_⟩
    · rintro x y z ⟨f1, e1, r1⟩ ⟨f2, e2, r2⟩
      obtain rfl : f1 = f2 := congrArg Prod.snd (e1.symm.trans e2)
      exact r1.unique r2
    · obtain ⟨y', hr, hy⟩ := hc X x hx (range_400 h1 h2).1 (range_400 h1 h2).2
      exact ⟨y', ⟨f', e, hr⟩, hy⟩

theorem Linear.sub {run : (ℕ → ℝ) → (ℕ → ℝ) → Prop} {H : ℝ → ℂ} (k : Linear run H) {x y x' y' : ℕ → ℝ} (h : run x y)
    (h' : run x' y') : run (fun n => x n - x' n) fun n => y n - y' n := by
  obtain ⟨g, -, hr, -⟩ := k
  rw [hr] at h h' ⊢
  funext n
  simp only [h, h', convolve, ← Finset.sum_sub_distrib]
  exact Finset.sum_congr rfl fun k _ => by ring

theorem linear_chained {ms : List Member} (h : ∀ m ∈ ms, Tracks m) : ∃ H, Linear (Chained (ms.map Member.ideal)) H := by
  induction ms with
  | nil =>
    obtain ⟨g, hs, hr, hz⟩ := linear_wire
    exact ⟨_, g, hs, fun x y => eq_comm.trans (hr x y), hz⟩
  | cons m ms ih =>
    obtain ⟨H, hH⟩ := ih fun q hq => h q (by simp [hq])
    obtain ⟨G, hG⟩ := (h m (by simp)).linear
    exact ⟨_, hG.series hH⟩

theorem chained_bound {ms : List Member} (h : ∀ m ∈ ms, Tracks m) {x y : ℕ → ℝ} {M : ℝ} (hx : ∀ n, |x n| ≤ M)
    (hr : Chained (ms.map Member.ideal) x y) (n : ℕ) : |y n| ≤ (ms.map Member.peak).prod * M := by
  induction ms generalizing x M with
  | nil => obtain rfl := hr; simpa using hx n
  | cons m ms ih =>
    obtain ⟨u, hu, hz⟩ := hr
    have := ih (fun q hq => h q (by simp [hq])) ((h m (by simp)).peak.bound x u hu M hx) hz
    rw [List.map_cons, List.prod_cons]
    linarith

theorem tracks_series {ms : List Member} (h : ∀ m ∈ ms, Tracks m) {X : ℝ} (hX : Levels X ms) {x : ℕ → Dbl}
    (hx : ∀ i, (x i).Finite ∧ |(x i).val| ≤ X) :
    ∃ y', (∀ z, Chained (ms.map Member.run) x z ↔ z = y') ∧ ∃ y, Chained (ms.map Member.ideal) (fun i => (x i).val) y ∧
      ∀ i, (y' i).Finite ∧ |(y' i).val - y i| ≤
        ((ms.map fun m => m.peak + m.err).prod - (ms.map Member.peak).prod) * X := by
  induction ms generalizing x X with
  | nil => exact ⟨x, fun z => eq_comm, _, rfl, fun i => ⟨(hx i).1, by simp⟩⟩
  | cons m ms ih =>
    obtain ⟨h1, h2, h3⟩ := hX
    have hm := h m (by simp)
    have hms : ∀ q ∈ ms, Tracks q := fun q hq => h q (by simp [hq])
    obtain ⟨u', hu', u, hu, hc⟩ := hm.close X x hx h1 h2
    have hub := hm.peak.bound _ _ hu X fun i => (hx i).2
    have hu'b : ∀ i, (u' i).Finite ∧ |(u' i).val| ≤ (m.peak + m.err) * X := fun i => by
      refine ⟨(hc i).1, ?_⟩
      have := abs_add_le (u i) ((u' i).val - u i)
      rw [add_sub_cancel] at this
      linarith [hub i, (hc i).2]
    obtain ⟨y', hy', y1, hy1, hb⟩ := ih hms h3 hu'b
    obtain ⟨G, hG⟩ := linear_chained hms
    obtain ⟨y, hy⟩ : ∃ y, Chained (ms.map Member.ideal) u y := by
      obtain ⟨g, -, hr, -⟩ := hG
      exact ⟨_, (hr _ _).2 rfl⟩
    refine ⟨y', fun z => ?_, y, ⟨u, hu, hy⟩, fun i => ⟨(hb i).1, ?_⟩⟩
    · constructor
      · rintro ⟨v, hv, hz⟩
        obtain rfl := hm.unique _ _ _ hv hu'
        exact (hy' z).1 hz
      · intro e
        exact ⟨u', hu', (hy' z).2 e⟩
    · have hd := chained_bound hms (fun n => (hc n).2) (hG.sub hy1 hy) i
      have := abs_add_le ((y' i).val - y1 i) (y1 i - y i)
      rw [sub_add_sub_cancel] at this
      rw [List.map_cons, List.map_cons, List.prod_cons, List.prod_cons]
      have e := (hb i).2
      nlinarith [this, hd, e]

/-! ## C103 -/

/-- **C103**: filters in series, set up and run in double arithmetic.  The output is determined, all samples are finite, and it
differs from the output of the ideal filters in series by at most `∏ (Pᵢ + eᵢ) - ∏ Pᵢ` times the level of the input, where
`Pᵢ` are the peak gains and `eᵢ` the errors of the single filters. -/
theorem C103_series {ms : List Member} (h : ∀ m ∈ ms, DblDevice m.run m.ideal m.peak m.err) {X : ℝ} (hX : Levels X ms)
    {x : ℕ → Dbl} (hx : ∀ i, (x i).Finite ∧ |(x i).val| ≤ X) :
    ∃ y', (∀ z, Chained (ms.map Member.run) x z ↔ z = y') ∧ ∃ y, Chained (ms.map Member.ideal) (fun i => (x i).val) y ∧
      ∀ i, (y' i).Finite ∧ |(y' i).val - y i| ≤
        ((ms.map fun m => m.peak + m.err).prod - (ms.map Member.peak).prod) * X :=
  tracks_series (fun m hm => (h m hm).tracks) hX hx

/-! ## A case -/

/-- a Butterworth low pass of order one, 12000 Hz at a sampling rate of 48000 Hz: peak gain 1, error `2⁻²⁹` -/
theorem exFirst_device : DblDevice
    (fun x y => ∃ f', PoleFilter.setup 1 exQuarter (PoleFilter.init DirectFormII .bwLowPass 1) = (.ok (), f') ∧
      Returns (PoleFilter.filter (T := Dbl)) (PoleFilter.reset f').2 x y)
    (SetupRuns DirectFormII XR 1 (mapCall (fun v => XR.fin v.val) exQuarter)) 1 (1 / 2 ^ 29) := by
  obtain ⟨h1, e1⟩ := Dbl.lit2_val (m := 12000) (e := 0) (by norm_num) (by norm_num) (by norm_num)
  obtain ⟨h2, e2⟩ := Dbl.lit2_val (m := 48000) (e := 0) (by norm_num) (by norm_num) (by norm_num)
  have e : (mapCall (fun v => XR.fin v.val) exQuarter).normDesign = .bwLowPass (.fin (1 / 4)) := by
    show Design.bwLowPass (XR.fin (Dbl.val _) / XR.fin (Dbl.val _)) = _
    rw [e1, e2, XR.fin_div _ (by norm_num)]
    norm_num
  have hP := C98_first_order (S := DirectFormII) (T := XR) (n := 1) (call := mapCall (fun v => XR.fin v.val) exQuarter)
    (fc := 1 / 4) ⟨rfl, e, le_rfl, le_rfl, by norm_num⟩ (by norm_num) (by norm_num)
  rw [show Real.pi * (1 / 4) = Real.pi / 4 by ring, Real.tan_pi_div_four, show max (1 : ℝ) (2 * 1 / (1 + 1)) = 1 by norm_num] at hP
  have h := DblDevice.butterworth (S := DirectFormII) (T := Dbl) (n := 1) (o := 1) (call := exQuarter) (by norm_num)
    le_rfl (by norm_num) le_rfl .new rfl ⟨h2, h1⟩ exQuarter_ideal hP
  have d : bwDigital 1 1 0 = 0 := by
    have : bwPole 1 0 = -1 := by
      rw [bwPole, ← Complex.exp_pi_mul_I]; congr 1; push_cast; ring
    rw [bwDigital, this]; norm_num
  have he : bwAmplifies 1 1 * (bwSharp 1 1 + (1 : ℕ)) / 2 ^ 30 = 1 / 2 ^ 29 := by
    rw [bwAmplifies, bwSharp, Finset.prod_range_one, Finset.sum_range_one, d]; norm_num
  rwa [he] at h

/-- eight of them in a row: within `8.1 · 2⁻²⁹` of the ideal -/
example (x : ℕ → Dbl) (hx : ∀ i, (x i).Finite ∧ |(x i).val| ≤ 1) :
    ∃ y', Chained (List.replicate 8 fun x y => ∃ f', PoleFilter.setup 1 exQuarter (PoleFilter.init DirectFormII .bwLowPass 1) =
        (.ok (), f') ∧ Returns (PoleFilter.filter (T := Dbl)) (PoleFilter.reset f').2 x y) x y' ∧
      ∃ y, Chained (List.replicate 8 (SetupRuns DirectFormII XR 1 (mapCall (fun v => XR.fin v.val) exQuarter)))
        (fun i => (x i).val) y ∧ ∀ i, (y' i).Finite ∧ |(y' i).val - y i| ≤ 8.1 / 2 ^ 29 := by
  have hm : ∀ t : ℝ, 1 ≤ t → 1 / 2 ^ 400 ≤ t := fun t ht =>
    (div_le_one_of_le₀ (one_le_pow₀ (by norm_num)) (by positivity)).trans ht
  have hM : ∀ t : ℝ, t ≤ 2 → t ≤ 2 ^ 400 := fun t ht => ht.trans (le_self_pow₀ (by norm_num) (by norm_num))
  obtain ⟨y', h1, y, h2, h3⟩ := C103_series (ms := List.replicate 8 ⟨_, _, _, _⟩)
    (fun m hm => by obtain rfl := List.eq_of_mem_replicate hm; exact exFirst_device) (X := 1) (x := x)
    (by
      simp only [List.replicate, Levels]
      refine ⟨?_, ?_, ?_, ?_, ?_, ?_, ?_, ?_, ?_, ?_, ?_, ?_, ?_, ?_, ?_, ?_, trivial⟩
      all_goals first | exact hm _ (by norm_num) | exact hM _ (by norm_num)) hx
  rw [List.map_replicate] at h2
  simp only [List.map_replicate, List.prod_replicate] at h1 h3
  refine ⟨y', (h1 y').2 rfl, y, h2, fun i => ⟨(h3 i).1, (h3 i).2.trans ?_⟩⟩
  norm_num

end Iir
