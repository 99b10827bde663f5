import Verif.Lemmas.Energy
import Verif.Props.Complement
import Verif.Props.Peaks
import Verif.Spec.Growth

/-! # C59–C61: energy

The energy of the output is limited by the largest gain (C59), that of the impulse response is the mean of the square
of the gain (C60), and all-pass and complementary filters keep the energy (C61). -/

set_option linter.unusedSectionVars false

namespace Iir
open FArith XR Spec Exec

/-! ## Statements -/

/-- Energy of the first `N` samples. -/
noncomputable def Spec.energyTo (N : ℕ) (x : ℕ → ℝ) : ℝ := ∑ i ∈ Finset.range N, x i ^ 2

/-- The energy of all samples is `e`. -/
def Spec.HasEnergy (x : ℕ → ℝ) (e : ℝ) : Prop := HasSum (fun n => x n ^ 2) e

/-- After `reset ()`, for every input, the output up to any time has at most `G` times the energy of the input up to
that time. -/
def Spec.EnergyAtMost {S : Type → Type} [StateType S XR] (G : ℝ) (f : PoleFilter S XR) : Prop :=
  ∀ x, ∃ y, Produces (PoleFilter.filter (T := XR)) (PoleFilter.reset f).2 x y ∧
    ∀ N, energyTo N y ≤ G * energyTo N x

/-- The same for an RBJ filter. -/
def Spec.EnergyAtMostRBJ (G : ℝ) (f : RBJ.Filter XR) : Prop :=
  ∀ x, ∃ y, Produces (RBJ.Filter.filter (T := XR)) (RBJ.Filter.reset f).2 x y ∧
    ∀ N, energyTo N y ≤ G * energyTo N x

/-- After `reset ()` of both filters, for every input of finite energy, the energies of the two outputs add up to that
of the input. -/
def Spec.SplitsEnergy {S : Type → Type} [StateType S XR] (f f' : PoleFilter S XR) : Prop :=
  ∀ x E, HasEnergy x E → ∃ y y' e e', Produces (PoleFilter.filter (T := XR)) (PoleFilter.reset f).2 x y ∧
    Produces (PoleFilter.filter (T := XR)) (PoleFilter.reset f').2 x y' ∧
    HasEnergy y e ∧ HasEnergy y' e' ∧ e + e' = E

/-- The largest square of a gain that a design promises: 1 for passes and stops, for shelves 1 or the square of the
gain. -/
noncomputable def Spec.peak : Design XR → ℝ
  | .bwLowShelf _ (fin g) | .bwHighShelf _ (fin g) | .bwBandShelf _ _ (fin g)
  | .c1LowShelf _ (fin g) _ | .c1HighShelf _ (fin g) _ | .c1BandShelf _ _ (fin g) _
  | .c2LowShelf _ (fin g) _ | .c2HighShelf _ (fin g) _ | .c2BandShelf _ _ (fin g) _ => max 1 (ofDb g ^ 2)
  | _ => 1

section pole

variable {S : Type → Type} [StateType S XR] [DelayLine XR S] {T : Type} [Sample T XR]
  {n n' o : ℕ} {call call' : Call XR}

theorem pole_reset_produces {c : Cls} (hn1 : 1 ≤ n) (hn : n < 2 ^ 30) {f : PoleFilter S XR} (h : Reach S T c n f)
    {ks : List Coeffs} (hks : HasSections f.base.cascade.stages ks) (x : ℕ → ℝ) :
    Produces (PoleFilter.filter (T := XR)) (PoleFilter.reset f).2 x
      (chainOut (ks.map Coeffs.norm) (rest ks.length) x) := by
  obtain ⟨hb, hne⟩ := hasSections_iff.1 hks
  have hs := PoleFilter.sims_reset (f := f) (bs := ks.map Coeffs.norm)
    (by rw [h.wired hn1 hn, hks.length, List.length_map])
  rw [List.length_map] at hs
  exact PoleFilter.produces (f := (PoleFilter.reset f).2) hb hs x

theorem gainSq_prod {c : Cls} (hn1 : 1 ≤ n) (hn : n < 2 ^ 30) {f : PoleFilter S XR} (h : Reach S T c n f)
    {ks : List Coeffs} (hks : HasSections f.base.cascade.stages ks) (hst : ∀ k ∈ ks, k.Stable) {fr v : ℝ}
    (h0 : 0 ≤ fr) (h1 : fr ≤ 1 / 2) (hv : GainSq f fr v) :
    ‖((ks.map Coeffs.norm).map (secH · (circle fr))).prod‖ ^ 2 = v := by
  obtain ⟨H, e, rfl⟩ := hv
  have h2 := h.response_prod hn1 hn hks hst h0 h1
  have h3 : (ofC H : Cx XR) = ofC _ := Res.ok.inj (e.symm.trans h2)
  rw [ofC_inj] at h3
  rw [h3]

/-- **C59** for any reachable stable pole filter. -/
theorem C59_energy {c : Cls} (hn1 : 1 ≤ n) (hn : n < 2 ^ 30) {f : PoleFilter S XR} (h : Reach S T c n f)
    (hst : StableFilter f) {G : ℝ} (hG : ∀ fr, 0 ≤ fr → fr ≤ 1 / 2 → ∃ v, GainSq f fr v ∧ v ≤ G) :
    EnergyAtMost G f := by
  intro x
  obtain ⟨ks, hks, hs⟩ := sections_of_stable hst
  refine ⟨_, pole_reset_produces hn1 hn h hks x, fun N => ?_⟩
  refine chain_energy_le (hasSections_iff.1 hks).2 hs (fun fr h0 h1 => ?_) x N
  obtain ⟨v, hv, hle⟩ := hG fr h0 h1
  rwa [gainSq_prod hn1 hn h hks hs h0 h1 hv]

theorem bound_low {Φ : ℝ → ℝ} {v G fc : ℝ} {l : ℕ} {f : PoleFilter S XR} (h : LowShape Φ v l fc f) (hΦ : ∀ t, Φ t ≤ G)
    (hv : v ≤ G) : StableFilter f ∧ ∀ fr, 0 ≤ fr → fr ≤ 1 / 2 → ∃ v, GainSq f fr v ∧ v ≤ G := by
  refine ⟨h.stable, fun fr a b => ?_⟩
  rcases b.eq_or_lt with rfl | b
  · exact ⟨_, h.nyquist, hv⟩
  · exact ⟨_, h.gain fr a b, hΦ _⟩

theorem bound_high {Φ : ℝ → ℝ} {v G fc : ℝ} {l : ℕ} {f : PoleFilter S XR} (h : HighShape Φ v l fc f)
    (hΦ : ∀ t, Φ t ≤ G) (hv : v ≤ G) :
    StableFilter f ∧ ∀ fr, 0 ≤ fr → fr ≤ 1 / 2 → ∃ v, GainSq f fr v ∧ v ≤ G := by
  refine ⟨h.stable, fun fr a b => ?_⟩
  rcases b.eq_or_lt with rfl | b
  · exact ⟨_, h.nyquist, hΦ _⟩
  rcases a.eq_or_lt with rfl | a
  · exact ⟨_, h.dc, hv⟩
  · exact ⟨_, h.gain fr a b, hΦ _⟩

theorem bound_band {Φ : ℝ → ℝ} {v G f1 f2 : ℝ} {l : ℕ} {f : PoleFilter S XR} (h : BandShape Φ v l f1 f2 f)
    (hΦ : ∀ t, Φ t ≤ G) (hv : v ≤ G) :
    StableFilter f ∧ ∀ fr, 0 ≤ fr → fr ≤ 1 / 2 → ∃ v, GainSq f fr v ∧ v ≤ G := by
  refine ⟨h.stable, fun fr a b => ?_⟩
  rcases b.eq_or_lt with rfl | b
  · exact ⟨_, h.nyquist, hv⟩
  rcases a.eq_or_lt with rfl | a
  · exact ⟨_, h.dc, hv⟩
  · exact ⟨_, h.gain fr a b, hΦ _⟩

theorem bw_le_one (o : ℕ) (t : ℝ) : 1 / (1 + t ^ (2 * o)) ≤ 1 := by
  have : 0 ≤ t ^ (2 * o) := (even_two_mul o).pow_nonneg t
  rw [div_le_one (by linarith)]; linarith

theorem bw_stop_le_one (o : ℕ) (t : ℝ) : t ^ (2 * o) / (1 + t ^ (2 * o)) ≤ 1 := by
  have : 0 ≤ t ^ (2 * o) := (even_two_mul o).pow_nonneg t
  rw [div_le_one (by linarith)]; linarith

theorem cheb1_le_one {r : ℝ} (hr : 0 < r) (t : ℝ) : cheb1 o r t ≤ 1 := by
  have h1 : (1 : ℝ) < 10 ^ (r / 10) := Real.one_lt_rpow (by norm_num) (by positivity)
  have : 0 ≤ ((10 : ℝ) ^ (r / 10) - 1) * chebT o t ^ 2 := mul_nonneg (by linarith) (sq_nonneg _)
  rw [cheb1, div_le_one (by linarith)]; linarith

theorem cheb1_inv_le_one {r : ℝ} (hr : 0 < r) (t : ℝ) : (if t = 0 then 0 else cheb1 o r (1 / t)) ≤ 1 := by
  split_ifs
  · exact zero_le_one
  · exact cheb1_le_one hr _

theorem cheb2_inv_le_one {r : ℝ} (hr : 0 < r) (t : ℝ) : (if t = 0 then 1 else cheb2 o r (1 / t)) ≤ 1 := by
  split_ifs
  · exact le_rfl
  · exact (cheb2_lt_one hr _).le

theorem frac_le_max {a b x : ℝ} (ha : 0 < a) (hb : 0 < b) (hx : 0 ≤ x) : (x + a) / (x + b) ≤ max 1 (a / b) := by
  rw [div_le_iff₀ (by linarith)]
  rcases le_total a b with h | h
  · rw [max_eq_left (by rw [div_le_one hb]; exact h)]; linarith
  · have h1 : 1 ≤ a / b := by rwa [one_le_div hb]
    rw [max_eq_right h1]
    have : a / b * b = a := by field_simp
    nlinarith

theorem bwShelf_le (o : ℕ) (g t : ℝ) : bwShelf o g t ≤ max 1 (ofDb g ^ 2) := by
  have hg := ofDb_pos g
  have h := frac_le_max hg (b := 1 / ofDb g) (by positivity) ((even_two_mul o).pow_nonneg t)
  rwa [show ofDb g / (1 / ofDb g) = ofDb g ^ 2 by field_simp] at h

theorem chebShelf_le {g r : ℝ} (hr : 0 < r) (hG : r < |g|) (t : ℝ) : chebShelf o g r t ≤ max 1 (ofDb g ^ 2) := by
  have hg := ofDb_pos (-g)
  have h := frac_le_max one_pos (b := ofDb (-g) ^ 2) (by positivity)
    (mul_nonneg (shelfEpsSq_pos hr hG).le (sq_nonneg (chebT o t)))
  rwa [add_comm _ (1 : ℝ), add_comm _ (ofDb (-g) ^ 2), ofDb_inv_sq] at h

/-- The square of the gain of a valid design is nowhere larger than its `peak`. -/
theorem peak_bound {d : Design XR} (h : Asks call n o d) (hv : Valid o d) :
    AfterSetup S T n call fun f =>
      StableFilter f ∧ ∀ fr, 0 ≤ fr → fr ≤ 1 / 2 → ∃ v, GainSq f fr v ∧ v ≤ peak d := by
  have ho := h.pos
  unfold Valid at hv
  split at hv
  · exact (C30_lowpass h hv.1 hv.2).mono fun _ h => bound_low h.1 (bw_le_one o) zero_le_one
  · exact (C31_highpass h hv.1 hv.2).mono fun _ h => bound_high h.1 (bw_le_one o) zero_le_one
  · exact (C32_bandpass h hv.1 hv.2.1 hv.2.2.1 fun e => quarter_ne (hv.2.2.2 e)).mono fun _ h =>
      bound_band h.1 (bw_le_one o) zero_le_one
  · exact (C33_bandstop h hv.1 hv.2.1 hv.2.2.1 fun e => quarter_ne (hv.2.2.2 e)).mono fun _ h =>
      bound_band h.1 (bw_stop_le_one o) le_rfl
  · exact (C34_lowshelf h hv.1 hv.2).mono fun _ h => bound_low h.1 (bwShelf_le o _) (le_max_left _ _)
  · exact (C34_highshelf h hv.1 hv.2).mono fun _ h => bound_high h.1 (bwShelf_le o _) (le_max_left _ _)
  · refine (C34_bandshelf h hv.1 hv.2.1 hv.2.2.1 fun e => ?_).mono fun _ h =>
      bound_band h.1 (bwShelf_le o _) (le_max_left _ _)
    have h2 := hv.2.2.2 e
    simp only [List.mem_cons, List.not_mem_nil, or_false, not_or] at h2
    refine ⟨pow_ne (tan_band_pos hv.2.2.1) ho h2.1, ?_⟩
    rw [← ofDb_neg_inv]
    exact pow_ne (tan_band_pos hv.2.2.1) ho (by rw [neg_div]; exact h2.2)
  · exact (C35_lowpass h hv.1.1 hv.1.2 hv.2).mono fun _ h => bound_low h.1 (cheb1_le_one hv.2) zero_le_one
  · exact (C35_highpass h hv.1.1 hv.1.2 hv.2).mono fun _ h => bound_high h.1 (cheb1_le_one hv.2) zero_le_one
  · refine (C35_bandpass h hv.1.1 hv.1.2.1 hv.2 hv.1.2.2.1 fun e => ?_).mono fun _ h =>
      bound_band h.1 (cheb1_le_one hv.2) zero_le_one
    have h2 := hv.1.2.2.2 e
    simp only [List.mem_cons, List.not_mem_nil, or_false] at h2
    exact mul_ne_one h2
  · refine (C35_bandstop h hv.1.1 hv.1.2.1 hv.2 hv.1.2.2.1 fun e => ?_).mono fun _ h =>
      bound_band h.1 (cheb1_inv_le_one hv.2) (cheb1_le_one hv.2 0)
    have h2 := hv.1.2.2.2 e
    simpa only [List.mem_cons, List.not_mem_nil, or_false] using h2
  · exact (C36_lowpass h hv.1.1 hv.1.2 hv.2).mono fun _ h =>
      bound_low h.1 (cheb2_inv_le_one hv.2) (cheb2_lt_one hv.2 0).le
  · exact (C36_highpass h hv.1.1 hv.1.2 hv.2).mono fun _ h =>
      bound_high h.1 (cheb2_inv_le_one hv.2) (cheb2_lt_one hv.2 0).le
  · refine (C36_bandpass h hv.1.1 hv.1.2.1 hv.2 hv.1.2.2.1 fun e => ?_).mono fun _ h =>
      bound_band h.1 (cheb2_inv_le_one hv.2) (cheb2_lt_one hv.2 0).le
    have h2 := hv.1.2.2.2 e
    simpa only [List.mem_cons, List.not_mem_nil, or_false] using h2
  · refine (C36_bandstop h hv.1.1 hv.1.2.1 hv.2 hv.1.2.2.1 fun e => ?_).mono fun _ h =>
      bound_band h.1 (fun t => (cheb2_lt_one hv.2 t).le) le_rfl
    have h2 := hv.1.2.2.2 e
    simp only [List.mem_cons, List.not_mem_nil, or_false] at h2
    exact mul_ne_one h2
  · exact (C37_c1LowShelf h hv.1.1 hv.1.2 hv.2.1 hv.2.2).mono fun _ h =>
      bound_low h.shape (chebShelf_le hv.2.1 hv.2.2) (le_max_left _ _)
  · exact (C37_c1HighShelf h hv.1.1 hv.1.2 hv.2.1 hv.2.2).mono fun _ h =>
      bound_high h.shape (chebShelf_le hv.2.1 hv.2.2) (le_max_left _ _)
  · exact (C37_c2LowShelf h hv.1.1 hv.1.2 hv.2.1 hv.2.2).mono fun _ h =>
      bound_low h.shape (chebShelf_le hv.2.1 hv.2.2) (le_max_left _ _)
  · exact (C37_c2HighShelf h hv.1.1 hv.1.2 hv.2.1 hv.2.2).mono fun _ h =>
      bound_high h.shape (chebShelf_le hv.2.1 hv.2.2) (le_max_left _ _)
  · refine (C37_c1BandShelf h hv.1.1 hv.1.2.1 hv.2.1 hv.2.2 hv.1.2.2.1 fun e => ?_).mono fun _ h =>
      bound_band h.shape (chebShelf_le hv.2.1 hv.2.2) (le_max_left _ _)
    have h2 := hv.1.2.2.2 e
    simp only [List.mem_cons, List.not_mem_nil, or_false, not_or] at h2
    exact ⟨mul_ne_one h2.1, mul_ne_one h2.2⟩
  · refine (C37_c2BandShelf h hv.1.1 hv.1.2.1 hv.2.1 hv.2.2 hv.1.2.2.1 fun e => ?_).mono fun _ h =>
      bound_band h.shape (chebShelf_le hv.2.1 hv.2.2) (le_max_left _ _)
    have h2 := hv.1.2.2.2 e
    simp only [List.mem_cons, List.not_mem_nil, or_false, not_or] at h2
    exact ⟨mul_ne_one h2.1, mul_ne_one h2.2⟩
  · exact hv.elim

/-- **C59** from the parameters, for all 21 classes and valid parameters, whatever was done with the object before:
passes and stops never return more energy than they were given, shelves at most `max 1 gain²` times as much. -/
theorem C59_valid_design {d : Design XR} (h : Asks call n o d) (hv : Valid o d) :
    AfterSetup S T n call (EnergyAtMost (peak d)) := by
  intro f hf
  obtain ⟨f', hset, hs, h1, h2⟩ := peak_bound (S := S) (T := T) h hv f hf
  have hr : Reach S T call.design.cls n f' := .call f f' (.setup call) (.ok ()) hf rfl hset fun u h => by cases h
  exact ⟨f', hset, hs, C59_energy (h.pos.trans h.le) h.small hr h1 h2⟩

/-- a case: a Chebyshev I high pass of order 5 never adds energy -/
example : AfterSetup S T 8 (.setupNReq 5 (.c1HighPass (fin (1 / 8)) (fin 1))) (EnergyAtMost 1) :=
  C59_valid_design (o := 5) (d := .c1HighPass (fin (1 / 8)) (fin 1))
    ⟨rfl, rfl, by norm_num, by norm_num, by norm_num⟩ ⟨⟨by norm_num, by norm_num⟩, by norm_num⟩

/-- **C60**: the energy of the impulse response of a reachable stable pole filter is the mean of the square of the gain
that `response ()` reports. -/
theorem C60_impulse {c : Cls} (hn1 : 1 ≤ n) (hn : n < 2 ^ 30) {f : PoleFilter S XR} (h : Reach S T c n f)
    (hst : StableFilter f) {v : ℝ → ℝ} (hv : ∀ fr, 0 ≤ fr → fr ≤ 1 / 2 → GainSq f fr (v fr)) :
    ∃ y, Produces (PoleFilter.filter (T := XR)) (PoleFilter.reset f).2 impulse y ∧
      HasEnergy y (2 * ∫ fr in (0 : ℝ)..(1 / 2), v fr) := by
  obtain ⟨ks, hks, hs⟩ := sections_of_stable hst
  refine ⟨_, pole_reset_produces hn1 hn h hks _, ?_⟩
  exact chain_impulse (hasSections_iff.1 hks).2 hs fun fr h0 h1 => gainSq_prod hn1 hn h hks hs h0 h1 (hv fr h0 h1)

/-- a case: for a Butterworth low pass the mean of `1 / (1 + (tan πf / tan πfc)^(2o))` -/
example : AfterSetup S T 3 (.setupN (.bwLowPass (fin (1 / 8)))) fun f =>
    ∃ y, Produces (PoleFilter.filter (T := XR)) (PoleFilter.reset f).2 impulse y ∧
      HasEnergy y (2 * ∫ fr in (0 : ℝ)..(1 / 2), if fr = 1 / 2 then 0 else 1 / (1 + lowRatio (1 / 8) fr ^ 6)) := by
  intro f hf
  obtain ⟨f', hset, hs, h1, -⟩ := C30_lowpass (S := S) (T := T) (o := 3) (fc := 1 / 8)
    (call := .setupN (.bwLowPass (fin (1 / 8)))) (n := 3) ⟨rfl, rfl, by norm_num, le_rfl, by norm_num⟩
    (by norm_num) (by norm_num) f hf
  have hr : Reach S T .bwLowPass 3 f' := .call f f' (.setup (.setupN (.bwLowPass (fin (1 / 8))))) (.ok ()) hf rfl hset
    fun u h => by cases h
  refine ⟨f', hset, hs, C60_impulse (by norm_num) (by norm_num) hr h1.stable fun fr a b => ?_⟩
  rcases b.eq_or_lt with rfl | b
  · simpa using h1.nyquist
  · rw [if_neg b.ne]; exact h1.gain fr a b

/-- **C61**: the outputs of two power complementary filters together have the energy of the input. -/
theorem C61_complementary {c c' : Cls} (hn1 : 1 ≤ n) (hn : n < 2 ^ 30) (hn1' : 1 ≤ n') (hn' : n' < 2 ^ 30)
    {f f' : PoleFilter S XR} (h : Reach S T c n f) (h' : Reach S T c' n' f') (hst : StableFilter f)
    (hst' : StableFilter f') (hp : PowerComplementary f f') : SplitsEnergy f f' := by
  intro x E hx
  obtain ⟨ks, hks, hs⟩ := sections_of_stable hst
  obtain ⟨ks', hks', hs'⟩ := sections_of_stable hst'
  obtain ⟨e, e', h1, h2, h3⟩ := chain_complementary (hasSections_iff.1 hks).2 hs (hasSections_iff.1 hks').2 hs'
    (fun fr h0 h1 => by
      obtain ⟨v, v', g1, g2, e⟩ := hp fr h0 h1
      rw [gainSq_prod hn1 hn h hks hs h0 h1 g1, gainSq_prod hn1' hn' h' hks' hs' h0 h1 g2, e]) hx
  exact ⟨_, _, e, e', pole_reset_produces hn1 hn h hks x, pole_reset_produces hn1' hn' h' hks' x, h1, h2, h3⟩

/-- **C61** from the parameters: Butterworth low and high pass of the same order and cutoff. -/
theorem C61_low_high {fc : ℝ} (h : Asks call n o (.bwLowPass (fin fc))) (h' : Asks call' n' o (.bwHighPass (fin fc)))
    (h0 : 0 < fc) (h1 : fc < 1 / 2) : AfterBoth S T n n' call call' SplitsEnergy := by
  intro f f' hf hf'
  obtain ⟨g, g', e, e', hp⟩ := C58_low_high (S := S) (T := T) h h' h0 h1 f f' hf hf'
  obtain ⟨g2, e2, -, hs⟩ := C30_lowpass (S := S) (T := T) h h0 h1 f hf
  obtain ⟨g2', e2', -, hs'⟩ := C31_highpass (S := S) (T := T) h' h0 h1 f' hf'
  obtain rfl : g = g2 := congrArg Prod.snd (e.symm.trans e2)
  obtain rfl : g' = g2' := congrArg Prod.snd (e'.symm.trans e2')
  have hr : Reach S T call.design.cls n g := .call f g (.setup call) (.ok ()) hf rfl e fun u h => by cases h
  have hr' : Reach S T call'.design.cls n' g' := .call f' g' (.setup call') (.ok ()) hf' rfl e' fun u h => by cases h
  exact ⟨g, g', e, e', C61_complementary (h.pos.trans h.le) h.small (h'.pos.trans h'.le) h'.small hr hr' hs.1.stable
    hs'.1.stable hp⟩

/-- **C61** from the parameters: Butterworth band pass and band stop of the same order and band. -/
theorem C61_pass_stop {fc fw : ℝ} (h : Asks call n o (.bwBandPass (fin fc) (fin fw)))
    (h' : Asks call' n' o (.bwBandStop (fin fc) (fin fw))) (hv : ValidBand o fc fw [1]) :
    AfterBoth S T n n' call call' SplitsEnergy := by
  intro f f' hf hf'
  have hq := fun e => quarter_ne (hv.2.2.2 e)
  obtain ⟨g, g', e, e', hp⟩ := C58_pass_stop (S := S) (T := T) h h' hv f f' hf hf'
  obtain ⟨g2, e2, -, hs⟩ := C32_bandpass (S := S) (T := T) h hv.1 hv.2.1 hv.2.2.1 hq f hf
  obtain ⟨g2', e2', -, hs'⟩ := C33_bandstop (S := S) (T := T) h' hv.1 hv.2.1 hv.2.2.1 hq f' hf'
  obtain rfl : g = g2 := congrArg Prod.snd (e.symm.trans e2)
  obtain rfl : g' = g2' := congrArg Prod.snd (e'.symm.trans e2')
  have hr : Reach S T call.design.cls n g := .call f g (.setup call) (.ok ()) hf rfl e fun u h => by cases h
  have hr' : Reach S T call'.design.cls n' g' := .call f' g' (.setup call') (.ok ()) hf' rfl e' fun u h => by cases h
  exact ⟨g, g', e, e', C61_complementary (h.pos.trans h.le) h.small (h'.pos.trans h'.le) h'.small hr hr' hs.1.stable
    hs'.1.stable hp⟩

/-- a case: a crossover of order 4 at a tenth of the sampling rate -/
example : AfterBoth S T 4 4 (.setupN (.bwLowPass (fin (1 / 10)))) (.setupN (.bwHighPass (fin (1 / 10)))) SplitsEnergy :=
  C61_low_high (o := 4) (fc := 1 / 10) (call := .setupN (.bwLowPass (fin (1 / 10))))
    (call' := .setupN (.bwHighPass (fin (1 / 10)))) ⟨rfl, rfl, by norm_num, le_rfl, by norm_num⟩
    ⟨rfl, rfl, by norm_num, le_rfl, by norm_num⟩ (by norm_num) (by norm_num)

/-- a case: a signal with infinitely many samples that are not zero has a finite energy -/
example : HasEnergy (fun n => (1 / 2) ^ n) (4 / 3) := by
  have := hasSum_geometric_of_lt_one (r := 1 / 4) (by norm_num) (by norm_num)
  rw [HasEnergy]
  convert this using 1
  · funext n; rw [← pow_mul, mul_comm, pow_mul]; norm_num
  · norm_num

/-! ## SOS cascades -/

/-- **C59** for SOS cascades with stable sections. -/
theorem C59_sos {f : Custom.SOS S XR} (h : SosReach S T n f) {ks : List Coeffs}
    (hks : HasSections f.stages ks) (hst : ∀ k ∈ ks, k.Stable) {G : ℝ}
    (hG : ∀ fr, 0 ≤ fr → fr ≤ 1 / 2 → ‖(ks.map fun k => k.transfer (circle fr)).prod‖ ^ 2 ≤ G) (x : ℕ → ℝ) :
    ∃ y, Produces (Custom.SOS.filter (T := XR)) (Custom.SOS.reset f).2 x y ∧
      ∀ N, energyTo N y ≤ G * energyTo N x := by
  obtain ⟨hb, hne⟩ := hasSections_iff.1 hks
  have hs := Custom.SOS.sims_reset (f := f) (bs := ks.map Coeffs.norm)
    (by rw [h.wired.2, ← h.wired.1, hks.length, List.length_map])
  rw [List.length_map] at hs
  refine ⟨_, Custom.SOS.produces (f := (Custom.SOS.reset f).2) hb hs x, fun N => ?_⟩
  refine chain_energy_le hne hst (fun fr h0 h1 => ?_) x N
  rw [secH_norms hne]
  exact hG fr h0 h1

/-- a case: a cascade of the section `y[n] = (x[n] + x[n-1] + y[n-1]) / 2` at most doubles the amplitude -/
example : ∃ f : Custom.SOS DirectFormII XR, ∀ x, ∃ y,
    Produces (Custom.SOS.filter (T := XR)) (Custom.SOS.reset f).2 x y ∧ ∀ N, energyTo N y ≤ 4 * energyTo N x := by
  obtain ⟨f, h1, h2, -⟩ := exSos
  refine ⟨f, C59_sos h1 h2 (by simpa using exCoeffs_stable) fun fr _ _ => ?_⟩
  have hc := Real.cos_le_one (2 * Real.pi * fr)
  simp only [List.map_cons, List.map_nil, List.prod_cons, List.prod_nil, mul_one, Coeffs.transfer_normSq, exCoeffs,
    quadSq_cos]
  have e : (-1 + (2 + 0) * Real.cos (2 * Real.pi * fr)) ^ 2 + (2 - 0) ^ 2 * (1 - Real.cos (2 * Real.pi * fr) ^ 2) =
    5 - 4 * Real.cos (2 * Real.pi * fr) := by ring
  rw [e, div_le_iff₀ (by linarith)]
  nlinarith

end pole

/-! ## RBJ filters -/

theorem rbj_reset_produces {f : RBJ.Filter XR} {k : Coeffs} (hk : HasCoeffs f.biquad k) (x : ℕ → ℝ) :
    Produces (RBJ.Filter.filter (T := XR)) (RBJ.Filter.reset f).2 x
      (chainOut ([k].map Coeffs.norm) (rest [k].length) x) := by
  rw [show chainOut ([k].map Coeffs.norm) (rest [k].length) x = secOut k.norm (0, 0) x from chainOut_cons _ _ _ _ _]
  have h := RBJ.Filter.produces (f := (RBJ.Filter.reset f).2) (b := k.norm) (c := (0, 0)) (hasCoeffs_iff.1 hk).1
    (by
      show ExactState.Sim k.norm (StateType.reset f.state) (0, 0)
      rw [LawfulState.reset_eq]; exact ExactState.sim_init _) x
  exact h

theorem gain_prod {b : Biquad XR} {k : Coeffs} (hk : HasCoeffs b k) (hst : k.Stable) {fr g : ℝ} (hg : Gain b fr g) :
    ‖(([k].map Coeffs.norm).map (secH · (circle fr))).prod‖ = g := by
  obtain ⟨H, e, rfl⟩ := hg
  obtain ⟨rfl, hne⟩ := hasCoeffs_iff.1 hk
  have hden : k.norm.denQ (circle fr)⁻¹ ≠ 0 := den_ne_zero_of_stable ((Coeffs.stable_norm hne).2 hst) (norm_circle fr)
  rw [response_toX (b := k.norm) hne, Cx.cdiv_ofC _ hden, ← secH_eq] at e
  have h3 : (ofC _ : Cx XR) = ofC H := Res.ok.inj e
  rw [ofC_inj] at h3
  simp [h3]

/-- **C59** for any stable RBJ filter. -/
theorem C59_rbj {f : RBJ.Filter XR} (hst : StableSection f.biquad) {G : ℝ}
    (hG : ∀ fr, 0 ≤ fr → fr ≤ 1 / 2 → ∃ g, Gain f.biquad fr g ∧ g ^ 2 ≤ G) : EnergyAtMostRBJ G f := by
  intro x
  obtain ⟨k, hk, hs⟩ := hst
  refine ⟨_, rbj_reset_produces hk x, fun N => ?_⟩
  refine chain_energy_le (ks := [k]) (by simpa using (hasCoeffs_iff.1 hk).2) (by simpa using hs) (fun fr h0 h1 => ?_) x N
  obtain ⟨g, hg, hle⟩ := hG fr h0 h1
  rwa [gain_prod hk hs hg]

/-- **C59** for RBJ filters from the parameters. -/
theorem C59_rbj_valid_design {d : RBJ.Design ℝ} (h : ValidRBJ d) (f : RBJ.Filter XR) :
    ∃ f', RBJ.Filter.setupN (finRBJ d) f = (.ok (), f') ∧ EnergyAtMostRBJ (peakRBJ d) f' := by
  obtain ⟨f', e, -, hst⟩ := C42_stable d h f
  obtain ⟨f2, e2, -, hp⟩ := C62_peak d h f
  obtain rfl : f' = f2 := congrArg Prod.snd (e.symm.trans e2)
  refine ⟨f', e, C59_rbj hst fun fr _ _ => ?_⟩
  obtain ⟨g, hg, -, hle⟩ := hp fr
  exact ⟨g, hg, hle⟩

/-- a case: a low pass with `q = 0.7` never adds energy -/
example (f : RBJ.Filter XR) : ∃ f', RBJ.Filter.setupN (.lowPass (fin 0.1) (fin 0.7)) f = (.ok (), f') ∧
    EnergyAtMostRBJ 1 f' := by
  have h : peakRBJ (.lowPass 0.1 0.7) = 1 := by rw [peakRBJ, if_pos (by norm_num)]
  rw [← h]
  exact C59_rbj_valid_design (d := .lowPass 0.1 0.7) (by simp only [ValidRBJ]; norm_num) f

/-- **C60** for RBJ filters. -/
theorem C60_rbj {f : RBJ.Filter XR} (hst : StableSection f.biquad) {g : ℝ → ℝ}
    (hg : ∀ fr, 0 ≤ fr → fr ≤ 1 / 2 → Gain f.biquad fr (g fr)) :
    ∃ y, Produces (RBJ.Filter.filter (T := XR)) (RBJ.Filter.reset f).2 impulse y ∧
      HasEnergy y (2 * ∫ fr in (0 : ℝ)..(1 / 2), g fr ^ 2) := by
  obtain ⟨k, hk, hs⟩ := hst
  refine ⟨_, rbj_reset_produces hk _, ?_⟩
  exact chain_impulse (ks := [k]) (by simpa using (hasCoeffs_iff.1 hk).2) (by simpa using hs) fun fr h0 h1 => by
    rw [gain_prod hk hs (hg fr h0 h1)]

/-- **C61**: an RBJ all-pass keeps the energy: the output has exactly the energy of the input. -/
theorem C61_allPass {f0 q : ℝ} (h0 : 0 < f0) (h1 : f0 < 1 / 2) (hq : 0 < q) (f : RBJ.Filter XR) :
    ∃ f', RBJ.Filter.setupN (.allPass (fin f0) (fin q)) f = (.ok (), f') ∧
      ∀ x E, HasEnergy x E → ∃ y, Produces (RBJ.Filter.filter (T := XR)) (RBJ.Filter.reset f').2 x y ∧ HasEnergy y E := by
  obtain ⟨f', e, -, k, hk, hs⟩ := C42_stable (.allPass f0 q) ⟨h0, h1, hq⟩ f
  obtain ⟨f2, e2, -, hp⟩ := C41_allPass h0 h1 hq f
  obtain rfl : f' = f2 := congrArg Prod.snd (e.symm.trans e2)
  refine ⟨f', e, fun x E hx => ⟨_, rbj_reset_produces hk x, ?_⟩⟩
  refine chain_allPass (ks := [k]) (by simpa using (hasCoeffs_iff.1 hk).2) (by simpa using hs) (fun fr h0 h1 => ?_) hx
  rw [gain_prod hk hs (hp fr), one_pow]

/-- a case: the impulse response of an all-pass has energy 1 (also a case of `C60_rbj`) -/
example (f : RBJ.Filter XR) : ∃ f' y, RBJ.Filter.setupN (.allPass (fin (1 / 4)) (fin 1)) f = (.ok (), f') ∧
    Produces (RBJ.Filter.filter (T := XR)) (RBJ.Filter.reset f').2 impulse y ∧ HasEnergy y 1 := by
  obtain ⟨f', e, -, hs⟩ := C42_stable (.allPass (1 / 4) 1) ⟨by norm_num, by norm_num, one_pos⟩ f
  obtain ⟨f2, e2, -, hp⟩ := C41_allPass (f0 := 1 / 4) (q := 1) (by norm_num) (by norm_num) one_pos f
  obtain rfl : f' = f2 := congrArg Prod.snd (e.symm.trans e2)
  obtain ⟨y, hy, hE⟩ := C60_rbj hs (g := fun _ => 1) fun fr _ _ => hp fr
  refine ⟨f', y, e, hy, ?_⟩
  convert hE using 1
  norm_num

end Iir
