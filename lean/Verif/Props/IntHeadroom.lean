import Verif.Spec.IntHeadroom
import Verif.Props.Headroom
import Verif.Props.ShelfAccuracy

/-! # C99: integer samples and their range

The output of a filter is converted to the type of its samples, and for integer types the conversion is undefined behaviour
if the number is out of range.  Whether that can happen is decided by the peak gain of C98, in double arithmetic and up to
the rounding errors of C76 and C77. -/

set_option linter.unusedSectionVars false

namespace Iir
open Spec XR

theorem Known.unique {run : (ℕ → ℝ) → (ℕ → ℝ) → Prop} {H : ℝ → ℂ} (k : Known run H) {x y y' : ℕ → ℝ} (h : run x y)
    (h' : run x y') : y = y' := by
  obtain ⟨ks, -, -, -, h4⟩ := k
  exact ((h4 _ _).1 h).trans ((h4 _ _).1 h').symm

/-- rounding toward zero makes nothing louder -/
theorem trunc_abs {y : ℝ} {i : ℤ} (h : TruncatesTo y i) : |(i : ℝ)| ≤ |y| := by
  rw [h.unique (truncR_spec y)]
  unfold truncR
  split_ifs with c
  · rw [abs_of_nonneg (by exact_mod_cast Int.floor_nonneg.2 c), abs_of_nonneg c]; exact Int.floor_le y
  · have c := not_le.1 c
    rw [abs_of_nonpos (by exact_mod_cast Int.ceil_nonpos.2 c.le), abs_of_neg c]
    linarith [Int.le_ceil y]

section
variable {lo hi : ℤ} {h0 : lo ≤ 0} {h1 : 0 ≤ hi} {h2 : -2 ^ 53 < lo} {h3 : hi < 2 ^ 53}

/-- numbers delivered by an object with a peak gain -/
theorem intRange_of {run : (ℕ → ℝ) → (ℕ → ℝ) → Prop} {H : ℝ → ℂ} {P d : ℝ} (k : Known run H) (hP : PeakGain run P)
    {σ : Type} {flt : BoundedInt lo hi → Exec σ (BoundedInt lo hi)} {f : σ}
    (hD : ∀ (X : ℝ) (x : ℕ → BoundedInt lo hi), (∀ i, |((x i).1 : ℝ)| ≤ X) → 1 ≤ X → X ≤ 2 ^ 53 →
      ∃ y, run (fun i => ((x i).1 : ℝ)) y ∧ Delivers (intConverts h0 h1 h2 h3) flt f x y (d * X)) :
    IntRange flt f P d where
  safe M x hM hM' hx hs hs' := by
    have hx' : ∀ i, |((x i).1 : ℝ)| ≤ M := fun i => by exact_mod_cast hx i
    obtain ⟨y, hy, hd, -⟩ := hD M x hx' (by exact_mod_cast hM) (by exact_mod_cast hM'.le)
    have hb := hP.bound _ _ hy M hx'
    have key : ∀ n w, |w - y n| ≤ d * M → |w| ≤ (P + d) * M := fun n w hw => by
      have := abs_add_le (y n) (w - y n)
      rw [add_sub_cancel] at this
      linarith [hb n]
    obtain ⟨z, hz, hz'⟩ := hd fun n w hw => by
      have := abs_le.1 (key n w hw)
      exact ⟨by linarith [this.1], by linarith [this.2]⟩
    refine ⟨z, hz, fun i => ?_⟩
    obtain ⟨-, w, hw, j, hj, ht⟩ := hz' i
    have hj : ((z i).1 : ℝ) = j := hj
    rw [hj]
    refine le_trans ?_ (key i w hw)
    exact trunc_abs ht
  overflow M hM hh hl hs hs' := by
    have hM0 : (0 : ℝ) < M := by exact_mod_cast (show (0 : ℤ) < M by omega)
    obtain ⟨B, hB, hB'⟩ : ∃ B < P, max ((hi : ℝ) + 1) (1 - lo) + d * M < B * M := by
      refine ⟨((max ((hi : ℝ) + 1) (1 - lo) + d * M) / M + P) / 2, ?_, ?_⟩
      · have : (max ((hi : ℝ) + 1) (1 - lo) + d * M) / M < P := by
          rw [div_lt_iff₀ hM0]
          have := max_lt hs hs'
          linarith
        linarith
      · have : (max ((hi : ℝ) + 1) (1 - lo) + d * M) / M < P := by
          rw [div_lt_iff₀ hM0]
          have := max_lt hs hs'
          linarith
        rw [← div_lt_iff₀ hM0]
        linarith
    obtain ⟨x, y, n, hx, hr, hn⟩ := hP.sharp B hB M hM0
    choose x' hx' using fun i => show ∃ t : BoundedInt lo hi, (t.1 : ℝ) = x i ∧ (t.1 = M ∨ t.1 = -M) by
      rcases hx i with e | e
      · exact ⟨⟨M, by omega, hh⟩, e.symm, .inl rfl⟩
      · exact ⟨⟨-M, by omega, by omega⟩, by rw [e]; push_cast; rfl, .inr rfl⟩
    refine ⟨x', n + 1, fun i => (hx' i).2, ?_⟩
    obtain ⟨y', hy', -, hd⟩ := hD M x' (fun i => by
      rw [(hx' i).1]
      rcases hx i with e | e <;> simp [e, abs_of_pos hM0]) (by exact_mod_cast hM) (by
        exact_mod_cast hh.trans h3.le)
    rw [show (fun i => ((x' i).1 : ℝ)) = x from funext fun i => (hx' i).1] at hy'
    obtain rfl := k.unique hr hy'
    refine hd n fun w hw hc => ?_
    have a := abs_le.1 hw
    have m1 := le_max_left ((hi : ℝ) + 1) (1 - lo)
    have m2 := le_max_right ((hi : ℝ) + 1) (1 - lo)
    have c1 : (lo : ℝ) - 1 < w := hc.1
    have c2 : w < hi + 1 := hc.2
    rcases lt_abs.1 hn with h | h <;> linarith [a.1, a.2]

/-- **C99**, Butterworth low and high passes set up and run in double arithmetic: the range of the integer samples is decided by
the peak gain of the ideal filter. -/
theorem C99_butterworth {S : Type → Type} [StateType S Dbl] [DelayLine Dbl S] {T' : Type} [Sample T' Dbl]
    {n o : ℕ} (hn : n < 2 ^ 30) (ho : 1 ≤ o) (h16 : o ≤ 16) (hon : o ≤ n) {call : Call Dbl} {f : PoleFilter S Dbl}
    (h : Reach S T' call.design.cls n f) (hord : call.order n = o) (hf : doubleRounds.FinCall call) {φ : ℝ}
    (hd : IdealBw (mapCall (fun v => XR.fin v.val) call).normDesign φ) {S0 : Type → Type} [StateType S0 XR]
    [DelayLine XR S0] {T0 : Type} [Sample T0 XR] (h0 : lo ≤ 0) (h1 : 0 ≤ hi) (h2 : -2 ^ 53 < lo) (h3 : hi < 2 ^ 53) {P : ℝ}
    (hP : PeakGain (SetupRuns S0 T0 n (mapCall (fun v => XR.fin v.val) call)) P) :
    ∃ f', PoleFilter.setup n call f = (.ok (), f') ∧
      IntRange (PoleFilter.filter (T := BoundedInt lo hi)) (PoleFilter.reset f').2 P
        (bwAmplifies φ o * (bwSharp φ o + n) / 2 ^ 30) := by
  obtain ⟨f', e, hD⟩ := C81_butterworth (intConverts h0 h1 h2 h3) hn ho h16 hon h hord hf hd S0 T0
  refine ⟨f', e, ?_⟩
  obtain ⟨dd, hdd⟩ : ∃ dd, (mapCall (fun v => XR.fin v.val) call).normDesign = dd := ⟨_, rfl⟩
  have hv : Valid o dd := by
    rw [hdd] at hd
    cases hd with
    | low a b => exact ⟨lt_of_lt_of_le (by norm_num) a, by linarith⟩
    | high a b => exact ⟨lt_of_lt_of_le (by norm_num) a, by linarith⟩
  obtain ⟨H, hk, -⟩ := known_gain (S := S0) (T := T0) ⟨(mapCall_order _ _ _).trans hord, hdd, ho, hon, hn⟩ hv
  refine intRange_of (h0 := h0) (h1 := h1) (h2 := h2) (h3 := h3) hk hP fun X x hx hX hX' => ?_
  exact hD X x (fun i => ⟨trivial, hx i⟩) (le_trans (by
    rw [div_le_one (by positivity)]; exact one_le_pow₀ (by norm_num)) hX)
    (hX'.trans (pow_le_pow_right₀ (by norm_num) (by norm_num)))

theorem sharp_valid {σ : ℝ} {d : RBJ.Design ℝ} (h : SharpRBJ σ d) : ValidRBJ d := by
  cases d <;> first | exact h.elim | exact ⟨h.1, h.2.1, by linarith [h.2.2.1]⟩

/-- **C99**, RBJ filters but shelves, set up and run in double arithmetic. -/
theorem C99_rbj (fs : Dbl) (d : RBJ.Design Dbl) (hfs : fs.Finite) (hs0 : fs.val ≠ 0)
    (hf : doubleRounds.FinArgs d) {σ : ℝ} (hs : SharpRBJ σ (overRate fs.val (doubleRounds.valRBJ d))) (hσ : σ ≤ 2 ^ 10)
    (f : RBJ.Filter Dbl) (h0 : lo ≤ 0) (h1 : 0 ≤ hi) (h2 : -2 ^ 53 < lo) (h3 : hi < 2 ^ 53) {P : ℝ}
    (hP : PeakGain (RBJRuns (finRBJ (overRate fs.val (doubleRounds.valRBJ d)))) P) :
    ∃ f', RBJ.Filter.setup fs d f = (.ok (), f') ∧
      IntRange (RBJ.Filter.filter (T := BoundedInt lo hi)) (RBJ.Filter.reset f').2 P (σ ^ 4 / 2 ^ 34) := by
  obtain ⟨f', e, hD⟩ := C81_rbj (intConverts h0 h1 h2 h3) fs d hfs hs0 hf hs hσ f
  refine ⟨f', e, ?_⟩
  have hv : ValidRBJ (overRate fs.val (doubleRounds.valRBJ d)) := sharp_valid hs
  obtain ⟨H, hH⟩ := rbj_fun (overRate fs.val (doubleRounds.valRBJ d))
  refine intRange_of (h0 := h0) (h1 := h1) (h2 := h2) (h3 := h3) (known_rbj_design hv hH) hP fun X x hx hX hX' => ?_
  exact hD X x (fun i => ⟨trivial, hx i⟩) (le_trans (pow_le_one₀ (by norm_num) (by norm_num)) hX)
    (hX'.trans (pow_le_pow_right₀ (by norm_num) (by norm_num)))

theorem sharpShelf_valid {σ : ℝ} {d : RBJ.Design ℝ} (h : SharpShelf σ d) : ValidRBJ d := by
  cases d <;> first | exact h.elim | exact ⟨h.1, h.2.1, h.2.2.2.1, h.2.2.2.2.1⟩ | exact ⟨h.1, h.2.1, h.2.2.2.1⟩

/-- **C99**, RBJ shelves set up and run in double arithmetic. -/
theorem C99_shelf (fs : Dbl) (d : RBJ.Design Dbl) (hfs : fs.Finite) (hs0 : fs.val ≠ 0)
    (hf : doubleRounds.FinArgs d) {σ : ℝ} (hs : SharpShelf σ (overRate fs.val (doubleRounds.valRBJ d))) (hσ : σ ≤ 2 ^ 10)
    (f : RBJ.Filter Dbl) (h0 : lo ≤ 0) (h1 : 0 ≤ hi) (h2 : -2 ^ 53 < lo) (h3 : hi < 2 ^ 53) {P : ℝ}
    (hP : PeakGain (RBJRuns (finRBJ (overRate fs.val (doubleRounds.valRBJ d)))) P) :
    ∃ f', RBJ.Filter.setup fs d f = (.ok (), f') ∧
      IntRange (RBJ.Filter.filter (T := BoundedInt lo hi)) (RBJ.Filter.reset f').2 P
        (shelfGain (overRate fs.val (doubleRounds.valRBJ d)) ^ 5 * σ ^ 4 / 2 ^ 33) := by
  obtain ⟨f', e, hD⟩ := C82_samples (intConverts h0 h1 h2 h3) fs d hfs hs0 hf hs hσ f
  refine ⟨f', e, ?_⟩
  obtain ⟨H, hH⟩ := rbj_fun (overRate fs.val (doubleRounds.valRBJ d))
  refine intRange_of (h0 := h0) (h1 := h1) (h2 := h2) (h3 := h3) (known_rbj_design (sharpShelf_valid hs) hH) hP
    fun X x hx hX hX' => ?_
  exact hD X x (fun i => ⟨trivial, hx i⟩) (le_trans (pow_le_one₀ (by norm_num) (by norm_num)) hX)
    (hX'.trans (pow_le_pow_right₀ (by norm_num) (by norm_num)))

end

/-! ## Order 1 -/

theorem first_digital (φ : ℝ) : bwDigital φ 1 0 = (((1 - φ) / (1 + φ) : ℝ) : ℂ) := by
  have : bwPole 1 0 = -1 := bwPole_mid (o := 1) rfl
  rw [bwDigital, this]
  push_cast
  ring_nf

theorem first_small {φ : ℝ} (h0 : 0 < φ) (h1 : φ ≤ 1) :
    bwAmplifies φ 1 = 1 ∧ bwSharp φ 1 = ((1 + φ) / (2 * φ)) ^ 2 := by
  have q0 : 0 ≤ (1 - φ) / (1 + φ) := div_nonneg (by linarith) (by linarith)
  have e : 1 - (1 - φ) / (1 + φ) = 2 * φ / (1 + φ) := by field_simp; ring
  have n1 : ‖bwDigital φ 1 0‖ = (1 - φ) / (1 + φ) := by
    rw [first_digital, Complex.norm_real, Real.norm_eq_abs, abs_of_nonneg q0]
  have n2 : ‖1 - bwDigital φ 1 0‖ = 2 * φ / (1 + φ) := by
    rw [first_digital, ← Complex.ofReal_one, ← Complex.ofReal_sub, Complex.norm_real, Real.norm_eq_abs, e,
      abs_of_pos (by positivity)]
  rw [bwAmplifies, bwSharp, Finset.prod_range_one, Finset.sum_range_one, n1, n2, e]
  refine ⟨by field_simp, ?_⟩
  field_simp

theorem first_large {φ : ℝ} (h1 : 1 ≤ φ) : bwAmplifies φ 1 = φ ∧ bwSharp φ 1 = ((1 + φ) / 2) ^ 2 := by
  have q0 : (1 - φ) / (1 + φ) ≤ 0 := div_nonpos_of_nonpos_of_nonneg (by linarith) (by linarith)
  have e : 1 - (1 - φ) / (1 + φ) = 2 * φ / (1 + φ) := by field_simp; ring
  have e' : 1 - -((1 - φ) / (1 + φ)) = 2 / (1 + φ) := by field_simp; ring
  have n1 : ‖bwDigital φ 1 0‖ = -((1 - φ) / (1 + φ)) := by
    rw [first_digital, Complex.norm_real, Real.norm_eq_abs, abs_of_nonpos q0]
  have n2 : ‖1 - bwDigital φ 1 0‖ = 2 * φ / (1 + φ) := by
    rw [first_digital, ← Complex.ofReal_one, ← Complex.ofReal_sub, Complex.norm_real, Real.norm_eq_abs, e,
      abs_of_pos (by positivity)]
  rw [bwAmplifies, bwSharp, Finset.prod_range_one, Finset.sum_range_one, n1, n2, e']
  refine ⟨by field_simp, ?_⟩
  field_simp

section
variable {S : Type → Type} [StateType S Dbl] [DelayLine Dbl S] {T' : Type} [Sample T' Dbl] {n : ℕ} {call : Call Dbl}
  {f : PoleFilter S Dbl} {fc : ℝ}

/-- the low passes of order 1 in double arithmetic -/
theorem first_range (h1n : 1 ≤ n) (hn : n ≤ 2 ^ 14) (h : Reach S T' call.design.cls n f) (hord : call.order n = 1)
    (hf : doubleRounds.FinCall call) (hd : (mapCall (fun v => XR.fin v.val) call).normDesign = .bwLowPass (.fin fc))
    (h1 : 1 / 2 ^ 9 ≤ fc) (h2 : fc ≤ 1 / 2 - 1 / 2 ^ 9) :
    ∃ f', PoleFilter.setup n call f = (.ok (), f') ∧
      IntRange (PoleFilter.filter (T := Int16T)) (PoleFilter.reset f').2
        (max 1 (2 * Real.tan (Real.pi * fc) / (1 + Real.tan (Real.pi * fc))))
        (bwAmplifies (Real.tan (Real.pi * fc)) 1 * (bwSharp (Real.tan (Real.pi * fc)) 1 + n) / 2 ^ 30) := by
  have n30 : n < 2 ^ 30 := lt_of_le_of_lt hn (by norm_num)
  exact C99_butterworth (S0 := DirectFormII) (T0 := XR) n30 le_rfl (by norm_num) h1n h hord hf (by rw [hd]; exact .low h1 h2)
    (by norm_num) (by norm_num) (by norm_num) (by norm_num)
    (C98_first_order ⟨(mapCall_order _ _ _).trans hord, hd, le_rfl, h1n, n30⟩ (lt_of_lt_of_le (by norm_num) h1) (by linarith))

/-- **C99**, Butterworth low passes of order 1 with cutoffs up to a quarter of the sampling rate: no samples of up to 16 bits lead
to undefined behaviour. -/
theorem C99_first_order_safe {lo hi : ℤ} (h0 : lo ≤ 0) (h3 : 0 ≤ hi) (hlo : -2 ^ 15 ≤ lo) (hhi : hi ≤ 2 ^ 15) (h1n : 1 ≤ n)
    (hn : n ≤ 2 ^ 14) (h : Reach S T' call.design.cls n f) (hord : call.order n = 1)
    (hf : doubleRounds.FinCall call) (hd : (mapCall (fun v => XR.fin v.val) call).normDesign = .bwLowPass (.fin fc))
    (h1 : 1 / 2 ^ 9 ≤ fc) (h2 : fc ≤ 1 / 4) :
    ∃ f', PoleFilter.setup n call f = (.ok (), f') ∧ ∀ x : ℕ → BoundedInt lo hi,
      ∃ z, Replies (PoleFilter.filter (T := BoundedInt lo hi)) (PoleFilter.reset f').2 x z := by
  have n30 : n < 2 ^ 30 := lt_of_le_of_lt hn (by norm_num)
  have c1 : -2 ^ 53 < lo := lt_of_lt_of_le (by norm_num) hlo
  have c2 : hi < 2 ^ 53 := lt_of_le_of_lt hhi (by norm_num)
  obtain ⟨f', e, hr⟩ := C81_butterworth (intConverts h0 h3 c1 c2) n30 le_rfl (by norm_num) h1n h hord hf
    (by rw [hd]; exact .low h1 (by linarith)) DirectFormII XR
  refine ⟨f', e, fun x => ?_⟩
  have hx : ∀ i, |((x i).1 : ℝ)| ≤ 2 ^ 15 := fun i => by
    have : |(x i).1| ≤ 2 ^ 15 := abs_le.2 ⟨hlo.trans (x i).2.1, (x i).2.2.trans hhi⟩
    exact_mod_cast this
  obtain ⟨y, hy, hD⟩ := hr (2 ^ 15) x (fun i => ⟨trivial, hx i⟩) ((div_le_one_of_le₀ (one_le_pow₀ (by norm_num))
    (by positivity)).trans (one_le_pow₀ (by norm_num))) (pow_le_pow_right₀ (by norm_num) (by norm_num))
  have hrange := C98_first_order_range ⟨(mapCall_order _ _ _).trans hord, hd, le_rfl, h1n, n30⟩ (lt_of_lt_of_le (by norm_num) h1) h2
    (a := lo) (b := hi) (by exact_mod_cast h0) (by exact_mod_cast h3) hy
    (fun i => ⟨Int.cast_le.2 (x i).2.1, Int.cast_le.2 (x i).2.2⟩)
  have hpi := Real.pi_gt_three
  have k0 : 3 / 512 ≤ Real.tan (Real.pi * fc) :=
    le_trans (by norm_num at h1; nlinarith) (Real.le_tan (by positivity) (by nlinarith))
  have k1 : Real.tan (Real.pi * fc) ≤ 1 := by
    rw [← Real.tan_pi_div_four]
    rcases h2.eq_or_lt with rfl | h2
    · rw [mul_one_div]
    · have := tanpi_lt (f := fc) (f' := 1 / 4) (by linarith) h2 (by norm_num)
      rw [mul_one_div] at this
      exact this.le
  generalize Real.tan (Real.pi * fc) = K at *
  obtain ⟨a, b⟩ := first_small (φ := K) (by linarith) k1
  rw [a, b, _root_.one_mul] at hD
  have hb : ((1 + K) / (2 * K)) ^ 2 ≤ 86 ^ 2 := by
    refine pow_le_pow_left₀ (by positivity) ?_ 2
    rw [div_le_iff₀ (by linarith)]; linarith
  have hn' : (n : ℝ) ≤ 2 ^ 14 := by exact_mod_cast hn
  have key : (((1 + K) / (2 * K)) ^ 2 + n) / 2 ^ 30 * 2 ^ 15 < 1 := by
    have : (((1 + K) / (2 * K)) ^ 2 + n) / 2 ^ 30 ≤ (86 ^ 2 + 2 ^ 14) / 2 ^ 30 :=
      div_le_div_of_nonneg_right (by linarith) (by positivity)
    norm_num at this ⊢
    linarith
  obtain ⟨z, hz, -⟩ := C81_int hD fun m => ⟨by linarith [(hrange m).1], by linarith [(hrange m).2]⟩
  exact ⟨z, hz⟩

/-- **C99**, Butterworth low passes of order 1 with cutoffs from a third of the sampling rate: some 16 bit samples of full scale lead
to undefined behaviour, although no frequency is amplified. -/
theorem C99_first_order_overflow (h1n : 1 ≤ n) (hn : n ≤ 2 ^ 14) (h : Reach S T' call.design.cls n f) (hord : call.order n = 1)
    (hf : doubleRounds.FinCall call) (hd : (mapCall (fun v => XR.fin v.val) call).normDesign = .bwLowPass (.fin fc))
    (h1 : 1 / 3 ≤ fc) (h2 : fc ≤ 1 / 2 - 1 / 2 ^ 9) :
    ∃ f', PoleFilter.setup n call f = (.ok (), f') ∧ ∃ (x : ℕ → Int16T) (m : ℕ), (∀ i, (x i).1 = 32767 ∨ (x i).1 = -32767) ∧
      (feed (PoleFilter.filter (T := Int16T)) ((List.range m).map x) (PoleFilter.reset f').2).1 = .ub .castOutOfRange := by
  obtain ⟨f', e, hr⟩ := first_range h1n hn h hord hf hd (by linarith) h2
  refine ⟨f', e, ?_⟩
  have hpi := Real.pi_gt_three
  have k0 : 3 / 2 ≤ Real.tan (Real.pi * fc) := by
    have s3 : 3 / 2 ≤ Real.tan (Real.pi * (1 / 3)) := by
      rw [mul_one_div, Real.tan_pi_div_three]
      exact Real.le_sqrt_of_sq_le (by norm_num)
    rcases h1.eq_or_lt with rfl | h1
    · exact s3
    · exact s3.trans (tanpi_lt (by norm_num) h1 (by linarith)).le
  have k1 : Real.tan (Real.pi * fc) ≤ 512 / 3 := by
    have t := Real.le_tan (x := Real.pi / 2 - Real.pi * fc) (by nlinarith) (by nlinarith)
    rw [Real.tan_pi_div_two_sub] at t
    have : 3 / 512 ≤ (Real.tan (Real.pi * fc))⁻¹ := le_trans (by norm_num at h2; nlinarith) t
    rw [le_inv_comm₀ (by norm_num) (by linarith)] at this
    linarith [this, show ((3 : ℝ) / 512)⁻¹ = 512 / 3 by norm_num]
  generalize Real.tan (Real.pi * fc) = K at *
  obtain ⟨a, b⟩ := first_large (φ := K) (by linarith)
  rw [a, b] at hr
  have hb : ((1 + K) / 2) ^ 2 ≤ 86 ^ 2 := pow_le_pow_left₀ (by linarith) (by linarith) 2
  have hn' : (n : ℝ) ≤ 2 ^ 14 := by exact_mod_cast hn
  have hp : (6 / 5 : ℝ) ≤ max 1 (2 * K / (1 + K)) := le_max_of_le_right (by rw [le_div_iff₀ (by linarith)]; linarith)
  have hq : K * (((1 + K) / 2) ^ 2 + n) / 2 ^ 30 ≤ 512 / 3 * (86 ^ 2 + 2 ^ 14) / 2 ^ 30 :=
    div_le_div_of_nonneg_right (mul_le_mul k1 (by linarith) (by positivity) (by norm_num)) (by positivity)
  have key : (32769 : ℝ) < (max 1 (2 * K / (1 + K)) - K * (((1 + K) / 2) ^ 2 + n) / 2 ^ 30) * (32767 : ℤ) := by
    push_cast
    norm_num at hq ⊢
    linarith
  exact hr.overflow 32767 (by norm_num) (by norm_num) (by norm_num) (lt_of_le_of_lt (by norm_num) key)
    (lt_of_le_of_lt (by norm_num) key)

/-! ## Cases -/

/-- 12000 Hz at 48000 Hz, order 1: safe -/
example : ∃ f', PoleFilter.setup 1 exQuarter (PoleFilter.init S .bwLowPass 1) = (.ok (), f') ∧
    ∀ x : ℕ → Int16T, ∃ z, Replies (PoleFilter.filter (T := Int16T)) (PoleFilter.reset f').2 x z := by
  obtain ⟨h1, g1⟩ := Dbl.lit2_val (m := 12000) (e := 0) (by norm_num) (by norm_num) (by norm_num)
  obtain ⟨h2, g2⟩ := Dbl.lit2_val (m := 48000) (e := 0) (by norm_num) (by norm_num) (by norm_num)
  refine C99_first_order_safe (T' := Dbl) (fc := 1 / 4) (by norm_num) (by norm_num) (by norm_num) (by norm_num) le_rfl (by norm_num) .new rfl ⟨h2, h1⟩ ?_ (by norm_num) le_rfl
  show Design.bwLowPass (XR.fin (Dbl.val _) / XR.fin (Dbl.val _)) = _
  rw [g1, g2, XR.fin_div _ (by norm_num)]
  norm_num

/-- 20000 Hz at 48000 Hz, order 1: not safe -/
example : ∃ f', PoleFilter.setup 1 (.setup (Dbl.lit2 48000 0) (.bwLowPass (Dbl.lit2 20000 0))) (PoleFilter.init S .bwLowPass 1) =
      (.ok (), f') ∧ ∃ (x : ℕ → Int16T) (m : ℕ), (∀ i, (x i).1 = 32767 ∨ (x i).1 = -32767) ∧
      (feed (PoleFilter.filter (T := Int16T)) ((List.range m).map x) (PoleFilter.reset f').2).1 = .ub .castOutOfRange := by
  obtain ⟨h1, g1⟩ := Dbl.lit2_val (m := 20000) (e := 0) (by norm_num) (by norm_num) (by norm_num)
  obtain ⟨h2, g2⟩ := Dbl.lit2_val (m := 48000) (e := 0) (by norm_num) (by norm_num) (by norm_num)
  refine C99_first_order_overflow (T' := Dbl) (fc := 5 / 12) le_rfl (by norm_num) .new rfl ⟨h2, h1⟩ ?_ (by norm_num)
    (by norm_num)
  show Design.bwLowPass (XR.fin (Dbl.val _) / XR.fin (Dbl.val _)) = _
  rw [g1, g2, XR.fin_div _ (by norm_num)]
  norm_num

/-- order 2: there is a peak gain, and it decides -/
example : ∃ P, ∃ f', PoleFilter.setup 2 exQuarter (PoleFilter.init S .bwLowPass 2) = (.ok (), f') ∧
    IntRange (PoleFilter.filter (T := Int16T)) (PoleFilter.reset f').2 P (bwAmplifies 1 2 * (bwSharp 1 2 + 2) / 2 ^ 30) := by
  obtain ⟨h1, g1⟩ := Dbl.lit2_val (m := 12000) (e := 0) (by norm_num) (by norm_num) (by norm_num)
  obtain ⟨h2, g2⟩ := Dbl.lit2_val (m := 48000) (e := 0) (by norm_num) (by norm_num) (by norm_num)
  have e : (mapCall (fun v => XR.fin v.val) exQuarter).normDesign = .bwLowPass (.fin (1 / 4)) := by
    show Design.bwLowPass (XR.fin (Dbl.val _) / XR.fin (Dbl.val _)) = _
    rw [g1, g2, XR.fin_div _ (by norm_num)]
    norm_num
  obtain ⟨y, P, -, -, hP, -⟩ := C98_design (S := DirectFormII) (T := XR) (d := .bwLowPass (.fin (1 / 4))) (o := 2) (n := 2)
    (call := mapCall (fun v => XR.fin v.val) exQuarter) ⟨rfl, e, by norm_num, le_rfl, by norm_num⟩ ⟨by norm_num, by norm_num⟩
  exact ⟨P, C99_butterworth (T' := Dbl) (call := exQuarter) (by norm_num) (by norm_num) (by norm_num) le_rfl .new rfl ⟨h2, h1⟩ exQuarter_ideal
    (by norm_num) (by norm_num) (by norm_num) (by norm_num) hP⟩

end

/-- the RBJ low pass of C81 has a peak gain of at least 11/9, too much for 16 bit samples of full scale -/
example (f : RBJ.Filter Dbl) :
    ∃ f', RBJ.Filter.setup (.lit2 48000 0) (.lowPass (.lit2 12000 0) (.lit2 1 0)) f = (.ok (), f') ∧
      ∃ (x : ℕ → Int16T) (m : ℕ), (∀ i, (x i).1 = 32767 ∨ (x i).1 = -32767) ∧
      (feed (RBJ.Filter.filter (T := Int16T)) ((List.range m).map x) (RBJ.Filter.reset f').2).1 = .ub .castOutOfRange := by
  obtain ⟨h1, -⟩ := Dbl.lit2_val (m := 12000) (e := 0) (by norm_num) (by norm_num) (by norm_num)
  obtain ⟨h3, -⟩ := Dbl.lit2_val (m := 1) (e := 0) (by norm_num) (by norm_num) (by norm_num)
  obtain ⟨h5, h6⟩ := Dbl.lit2_val (m := 48000) (e := 0) (by norm_num) (by norm_num) (by norm_num)
  obtain ⟨hs, e⟩ := quarter_sharp
  have hv : ValidRBJ (.lowPass (1 / 4) 1) := ⟨by norm_num, by norm_num, one_pos⟩
  obtain ⟨-, P, -, -, hP, -⟩ := C98_rbj _ hv
  obtain ⟨H, hH⟩ := rbj_fun (.lowPass (1 / 4) 1)
  obtain ⟨ks, -, -, -, hk⟩ := known_rbj_design hv hH
  have hr := (hk (fun _ => 1) _).2 rfl
  have hp := hP.bound _ _ hr 1 (fun _ => by simp) 2
  rw [(quarter_step hr).2.2, _root_.mul_one, _root_.mul_one] at hp
  have hp := (le_abs_self _).trans hp
  obtain ⟨f', g1, g2⟩ := C99_rbj (lo := -2 ^ 15) (hi := 2 ^ 15 - 1) (.lit2 48000 0) (.lowPass (.lit2 12000 0) (.lit2 1 0)) h5
    (by rw [h6]; norm_num) ⟨h1, h3⟩ hs (by norm_num) f (by norm_num) (by norm_num) (by norm_num) (by norm_num) (e ▸ hP)
  refine ⟨f', g1, g2.overflow 32767 (by norm_num) (by norm_num) (by norm_num) ?_ ?_⟩ <;>
  · push_cast
    norm_num
    linarith

/-- a shelf of C82: it has a peak gain, and it decides -/
example (f : RBJ.Filter Dbl) :
    ∃ P d, ∃ f', RBJ.Filter.setup (.lit2 48000 0) (.lowShelf (.lit2 6000 0) (.lit2 6 0) (.lit2 1 0)) f = (.ok (), f') ∧
      IntRange (RBJ.Filter.filter (T := Int16T)) (RBJ.Filter.reset f').2 P d := by
  obtain ⟨h1, -⟩ := Dbl.lit2_val (m := 6000) (e := 0) (by norm_num) (by norm_num) (by norm_num)
  obtain ⟨h2, -⟩ := Dbl.lit2_val (m := 6) (e := 0) (by norm_num) (by norm_num) (by norm_num)
  obtain ⟨h3, -⟩ := Dbl.lit2_val (m := 1) (e := 0) (by norm_num) (by norm_num) (by norm_num)
  obtain ⟨h5, h6⟩ := Dbl.lit2_val (m := 48000) (e := 0) (by norm_num) (by norm_num) (by norm_num)
  obtain ⟨-, P, -, -, hP, -⟩ := C98_rbj _ (sharpShelf_valid exLowShelf_sharp)
  exact ⟨P, _, C99_shelf (lo := -2 ^ 15) (hi := 2 ^ 15 - 1) (.lit2 48000 0) (.lowShelf (.lit2 6000 0) (.lit2 6 0) (.lit2 1 0)) h5 (by rw [h6]; norm_num)
    ⟨h1, h2, h3⟩ exLowShelf_sharp (by norm_num) f (by norm_num)
    (by norm_num) (by norm_num) (by norm_num) hP⟩

end Iir
