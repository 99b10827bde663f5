import Verif.Lemmas.RoundShelf
import Verif.Lemmas.DoubleLibrary
import Verif.Props.RBJ
import Verif.Props.Double

/-! # C71: RBJ filters designed in floating point arithmetic

C42 is about exact arithmetic.  Here the whole of `setupN` (the library functions, the formulas and the division by `a0`)
is computed with rounding errors.  Within practical limits of the parameters the stored section is finite and stable; far
outside them it is not, although the parameters are valid. -/

set_option linter.unusedSectionVars false

namespace Iir
open FArith Spec Exec

variable {R : Type} [FArith R] {u η Ω : ℝ}

/-- **C71**: an RBJ filter set up with practical parameters, in any arithmetic with the precision of doubles and any
mathematical library with errors of at most 256 ulp: `setupN` succeeds, leaves the delay line alone, and stores finite
coefficients of a stable section. -/
theorem C71_stable (r : Rounds R u η Ω) (ha : r.Accurate) (d : RBJ.Design R) (hf : r.FinArgs d)
    (hp : PracticalRBJ (r.valRBJ d)) (f : RBJ.Filter R) :
    ∃ f' k, RBJ.Filter.setupN d f = (.ok (), f') ∧ f'.state = f.state ∧ r.Values f'.biquad k ∧ k.Stable := by
  have key : ∃ b' k, d.setupN f.biquad = (.ok (), b') ∧ r.Values b' k ∧ k.Stable := by
    cases d with
    | lowPass fc q => exact q_filters ha hf.1 hf.2 hp.1 hp.2.1 hp.2.2.1 hp.2.2.2 (by simp) _
    | highPass fc q => exact q_filters ha hf.1 hf.2 hp.1 hp.2.1 hp.2.2.1 hp.2.2.2 (by simp) _
    | bandPass1 fc q => exact q_filters ha hf.1 hf.2 hp.1 hp.2.1 hp.2.2.1 hp.2.2.2 (by simp) _
    | bandPass2 fc q => exact q_filters ha hf.1 hf.2 hp.1 hp.2.1 hp.2.2.1 hp.2.2.2 (by simp) _
    | bandStop fc q => exact q_filters ha hf.1 hf.2 hp.1 hp.2.1 hp.2.2.1 hp.2.2.2 (by simp) _
    | allPass fc q => exact q_filters ha hf.1 hf.2 hp.1 hp.2.1 hp.2.2.1 hp.2.2.2 (by simp) _
    | iirNotch fc q => exact notch_stable ha hf.1 hf.2 hp.1 hp.2.1 hp.2.2.1 hp.2.2.2 _
    | lowShelf fc g s => exact (shelves ha hf.1 hf.2.1 hf.2.2 hp.1 hp.2.1 hp.2.2.1 hp.2.2.2.1 hp.2.2.2.2 _).1
    | highShelf fc g s => exact (shelves ha hf.1 hf.2.1 hf.2.2 hp.1 hp.2.1 hp.2.2.1 hp.2.2.2.1 hp.2.2.2.2 _).2
    | bandShelf fc g w => exact bandShelf_stable ha hf.1 hf.2.1 hf.2.2 hp.1 hp.2.1 hp.2.2.1 hp.2.2.2.1 hp.2.2.2.2 _
  obtain ⟨b', k, h, hv⟩ := key
  refine ⟨{ f with biquad := b' }, k, ?_, rfl, hv⟩
  show ((d.setupN f.biquad).1, { f with biquad := (d.setupN f.biquad).2 }) = _
  rw [h]

/-- **C71** for IEEE doubles. -/
theorem C71_double (d : RBJ.Design Dbl) (hf : doubleRounds.FinArgs d) (hp : PracticalRBJ (doubleRounds.valRBJ d))
    (f : RBJ.Filter Dbl) :
    ∃ f' k, RBJ.Filter.setupN d f = (.ok (), f') ∧ f'.state = f.state ∧ doubleRounds.Values f'.biquad k ∧ k.Stable :=
  C71_stable doubleRounds doubleRounds_accurate d hf hp f

/-- **C71** with a sampling rate: the limits apply to the rounded quotient that `setup` passes on. -/
theorem C71_double_setup (fs : Dbl) (d : RBJ.Design Dbl) (hf : doubleRounds.FinArgs (d.overFs fs))
    (hp : PracticalRBJ (doubleRounds.valRBJ (d.overFs fs))) (f : RBJ.Filter Dbl) :
    ∃ f' k, RBJ.Filter.setup fs d f = (.ok (), f') ∧ f'.state = f.state ∧ doubleRounds.Values f'.biquad k ∧ k.Stable :=
  C71_double (d.overFs fs) hf hp f

/-- Practical parameters are valid ones. -/
theorem C71_practical_valid (d : RBJ.Design ℝ) (h : PracticalRBJ d) : ValidRBJ d := by
  cases d <;> simp only [PracticalRBJ, ValidRBJ] at h ⊢ <;> norm_num at * <;>
    (refine ⟨?_, ?_, ?_⟩ <;> first | linarith | (refine ⟨?_, ?_⟩ <;> linarith))

/-- the double with the value `m * 2 ^ e` -/
noncomputable def Dbl.lit2 (m e : ℤ) : Dbl := .ofReal false (m * 2 ^ e)

theorem Dbl.lit2_val {m e : ℤ} (hm : |m| < 2 ^ 53) (he : -1074 ≤ e) (he' : e ≤ 971) :
    (Dbl.lit2 m e).Finite ∧ (Dbl.lit2 m e).val = m * 2 ^ e :=
  ofReal_isDouble _ ⟨m, e, hm, he, he', rfl⟩

/-- an eighth of the sampling rate, quality 1 -/
example : doubleRounds.FinArgs (.lowPass (.lit2 1 (-3)) (.lit2 1 0)) ∧
    PracticalRBJ (doubleRounds.valRBJ (.lowPass (.lit2 1 (-3)) (.lit2 1 0))) := by
  obtain ⟨h1, h2⟩ := Dbl.lit2_val (m := 1) (e := -3) (by norm_num) (by norm_num) (by norm_num)
  obtain ⟨h3, h4⟩ := Dbl.lit2_val (m := 1) (e := 0) (by norm_num) (by norm_num) (by norm_num)
  refine ⟨⟨h1, h3⟩, ?_⟩
  show _ ≤ Dbl.val _ ∧ Dbl.val _ ≤ _ ∧ _ ≤ Dbl.val _ ∧ Dbl.val _ ≤ _
  rw [h2, h4]
  norm_num

/-- a low shelf of 6 dB -/
example : doubleRounds.FinArgs (.lowShelf (.lit2 1 (-3)) (.lit2 6 0) (.lit2 1 (-1))) ∧
    PracticalRBJ (doubleRounds.valRBJ (.lowShelf (.lit2 1 (-3)) (.lit2 6 0) (.lit2 1 (-1)))) := by
  obtain ⟨h1, h2⟩ := Dbl.lit2_val (m := 1) (e := -3) (by norm_num) (by norm_num) (by norm_num)
  obtain ⟨h3, h4⟩ := Dbl.lit2_val (m := 6) (e := 0) (by norm_num) (by norm_num) (by norm_num)
  obtain ⟨h5, h6⟩ := Dbl.lit2_val (m := 1) (e := -1) (by norm_num) (by norm_num) (by norm_num)
  refine ⟨⟨h1, h3, h5⟩, ?_⟩
  show _ ≤ Dbl.val _ ∧ Dbl.val _ ≤ _ ∧ |Dbl.val _| ≤ _ ∧ _ ≤ Dbl.val _ ∧ Dbl.val _ ≤ _
  rw [h2, h4, h6]
  norm_num

/-! ## Outside the limits -/

namespace Dbl

theorem isDouble_val {a : Dbl} (h : a.Finite) : IsDouble a.val := by
  rcases a with _ | s | ⟨s, x⟩
  · exact h.elim
  · exact h.elim
  · cases s
    · exact x.2.2
    · obtain ⟨m, e, a, b, c, d⟩ := x.2.2
      exact ⟨-m, e, by rwa [abs_neg], b, c, by show -x.1 = _; rw [d]; push_cast; ring⟩

/-- The only double close to 1 is 1. -/
theorem eq_one {x : ℝ} (h : IsDouble x) (h1 : |x - 1| < (1 / 2) ^ 54) : x = 1 := by
  obtain ⟨m, e, hm, he, he', rfl⟩ := h
  obtain ⟨a, b⟩ := abs_lt.1 h1
  have e53 : -53 ≤ e := by
    by_contra hlt
    have h2 : (2 : ℝ) ^ e ≤ 2 ^ (-54 : ℤ) := zpow_le_zpow_right₀ (by norm_num) (by omega)
    have h3 : (m : ℝ) < 2 ^ 53 := by exact_mod_cast (abs_lt.1 hm).2
    have h4 : (0 : ℝ) < 2 ^ e := by positivity
    have h5 : (m : ℝ) * 2 ^ e ≤ 2 ^ 53 * 2 ^ e := mul_le_mul_of_nonneg_right h3.le h4.le
    norm_num at *
    linarith
  obtain ⟨n, rfl⟩ : ∃ n : ℕ, e = n - 53 := ⟨(e + 53).toNat, by omega⟩
  have h2 : (m : ℝ) * 2 ^ ((n : ℤ) - 53) = ((m * 2 ^ n : ℤ) : ℝ) / 2 ^ 53 := by
    rw [zpow_sub₀ (by norm_num)]; push_cast; rw [mul_div_assoc]; norm_num
  rw [h2] at a b ⊢
  have h3 : ((m * 2 ^ n : ℤ) : ℝ) < ((2 ^ 53 + 1 : ℤ) : ℝ) := by push_cast; norm_num at *; linarith
  have h4 : ((2 ^ 53 - 1 : ℤ) : ℝ) < ((m * 2 ^ n : ℤ) : ℝ) := by push_cast; norm_num at *; linarith
  have h5 : m * 2 ^ n = 2 ^ 53 := by
    have := Int.cast_lt.1 h3
    have := Int.cast_lt.1 h4
    omega
  rw [h5]
  norm_num

theorem ofReal_one (s : Bool) {x : ℝ} (h : |x - 1| ≤ (1 / 2) ^ 56) : (ofReal s x).Finite ∧ (ofReal s x).val = 1 := by
  obtain ⟨a, b⟩ := abs_le.1 h
  have hx : 0 < x := by norm_num at *; linarith
  have hlt := roundReal_lt (x := x) (maxDouble_large (by rw [abs_of_pos hx]; norm_num at *; linarith))
  obtain ⟨h1, h2⟩ := ofReal_finite s hlt
  refine ⟨h1, ?_⟩
  rw [if_neg (not_lt.2 hx.le), abs_of_pos hx] at h2
  have h3 := roundReal_nearest x (y := 1) (by simpa using isDouble_int (i := 1) (by norm_num))
  rw [h2]
  rw [abs_of_pos hx] at hlt
  refine eq_one (isDouble_roundReal hx.le hlt).2 ?_
  have h4 := abs_add_le (roundReal x - x) (x - 1)
  rw [sub_add_sub_cancel] at h4
  rw [abs_sub_comm 1 x] at h3
  norm_num at *
  linarith

theorem add_finite {a b : Dbl} (ha : a.Finite) (hb : b.Finite) : ∃ s, a + b = ofReal s (a.val + b.val) := by
  rcases a with _ | s | ⟨s, x⟩ <;> rcases b with _ | t | ⟨t, y⟩ <;> first | exact ha.elim | exact hb.elim | exact ⟨_, rfl⟩

theorem sub_finite {a b : Dbl} (ha : a.Finite) (hb : b.Finite) : ∃ s, a - b = ofReal s (a.val - b.val) := by
  obtain ⟨s, h⟩ := add_finite ha (finite_neg hb)
  exact ⟨s, by rw [sub_eq_add_neg, ← val_neg, ← h]; rfl⟩

theorem mul_finite {a b : Dbl} (ha : a.Finite) (hb : b.Finite) : ∃ s, a * b = ofReal s (a.val * b.val) := by
  rcases a with _ | s | ⟨s, x⟩ <;> rcases b with _ | t | ⟨t, y⟩ <;> first | exact ha.elim | exact hb.elim | exact ⟨_, rfl⟩

theorem div_finite {a b : Dbl} (ha : a.Finite) (hb : b.Finite) (h0 : b.val ≠ 0) : ∃ s, a / b = ofReal s (a.val / b.val) := by
  rcases a with _ | s | ⟨s, x⟩ <;> rcases b with _ | t | ⟨t, y⟩ <;> try first | exact ha.elim | exact hb.elim
  refine ⟨s ^^ t, ?_⟩
  show (if y.1 = 0 then _ else _) = _
  rw [if_neg]
  intro h1
  apply h0
  rw [← abs_eq_zero, abs_val, h1]

/-- integers are exact -/
theorem ofReal_int (s : Bool) {i : ℤ} {x : ℝ} (hi : |i| < 2 ^ 53) (h : x = i) : (ofReal s x).Finite ∧ (ofReal s x).val = i := by
  subst h; exact ofReal_isDouble s (isDouble_int hi)

end Dbl

open Dbl

theorem tiny_core {sn cs q : Dbl} (c2 : cs.Finite) (c3 : cs.val = 1) (s0 : sn.Finite) (s2 : |sn.val| ≤ 1 / 2 ^ 95) (h3 : q.Finite)
    (h4 : q.val = 1) (b : Biquad Dbl) :
    ∃ b', Biquad.setCoefficients (1 + sn / (2 * q)) (-2 * cs) (1 - sn / (2 * q)) ((1 - cs) / 2) (1 - cs) ((1 - cs) / 2) b = (.ok (), b') ∧
      doubleRounds.Values b' ⟨1, -2, 1, 0, 0, 0⟩ := by
  have ha := doubleRounds_accurate
  have i1 := In.one ha
  have v1 : (1 : Dbl).val = 1 := le_antisymm i1.2.2 i1.2.1
  have i2 := In.two ha
  have v2 : (2 : Dbl).val = 2 := le_antisymm i2.2.2 i2.2.1
  have hm2 := In.neg ha i2
  have v2' : (-2 : Dbl).val = -2 := le_antisymm hm2.2.2 hm2.2.1
  obtain ⟨_, e1⟩ := mul_finite i2.1 h3
  obtain ⟨d0, d1⟩ := ofReal_int _ (i := 2) (by norm_num) (show (2 : Dbl).val * q.val = _ by rw [v2, h4]; norm_num)
  rw [← e1] at d0 d1
  obtain ⟨l0, l1⟩ := raw_div ha s0 d0 (by show (2 * q).val ≠ 0; rw [d1]; norm_num) (M := 1 / 2 ^ 95)
    (by show |sn.val / (2 * q).val| ≤ _; rw [d1, abs_div]; norm_num at *; linarith) (by norm_num)
  change |(sn / (2 * q)).val - sn.val / (2 * q).val| ≤ _ at l1
  rw [d1] at l1
  obtain ⟨l1, l2⟩ := abs_le.1 l1
  obtain ⟨s1, s2⟩ := abs_le.1 s2
  have l3 : |(sn / (2 * q)).val| ≤ (1 / 2) ^ 56 := abs_le.2 ⟨by norm_num at *; linarith, by norm_num at *; linarith⟩
  change (sn / (2 * q)).Finite at l0
  generalize sn / (2 * q) = AL at *
  obtain ⟨_, e2⟩ := add_finite i1.1 l0
  obtain ⟨a0, a1⟩ := ofReal_one _ (show |(1 : Dbl).val + AL.val - 1| ≤ _ by rw [v1, add_sub_cancel_left]; exact l3)
  rw [← e2] at a0 a1
  obtain ⟨_, e3⟩ := sub_finite i1.1 l0
  obtain ⟨z0, z1⟩ := ofReal_one _ (show |(1 : Dbl).val - AL.val - 1| ≤ _ by
    rw [v1, show 1 - AL.val - 1 = -AL.val by ring, abs_neg]; exact l3)
  rw [← e3] at z0 z1
  obtain ⟨_, e4⟩ := mul_finite hm2.1 c2
  obtain ⟨y0, y1⟩ := ofReal_int _ (i := -2) (by norm_num) (show (-2 : Dbl).val * cs.val = _ by rw [v2', c3]; norm_num)
  rw [← e4] at y0 y1
  obtain ⟨_, e5⟩ := sub_finite i1.1 c2
  obtain ⟨x0, x1⟩ := ofReal_int _ (i := 0) (by norm_num) (show (1 : Dbl).val - cs.val = _ by rw [v1, c3]; norm_num)
  rw [← e5] at x0 x1
  obtain ⟨_, e6⟩ := div_finite x0 i2.1 (by rw [v2]; norm_num)
  obtain ⟨t0, t1⟩ := ofReal_int _ (i := 0) (by norm_num) (show (1 - cs).val / (2 : Dbl).val = _ by rw [x1, v2]; norm_num)
  rw [← e6] at t0 t1
  have fin : ∀ {v : Dbl} {i : ℤ}, v.Finite → |i| < 2 ^ 53 → v.val = i → (v / (1 + AL)).Finite ∧ (v / (1 + AL)).val = i := by
    intro v i hv hi h
    obtain ⟨_, e⟩ := div_finite hv a0 (by rw [a1]; norm_num)
    rw [e]
    exact ofReal_int _ hi (by rw [h, a1]; ring)
  refine ⟨⟨1 + AL, -2 * cs / (1 + AL), (1 - AL) / (1 + AL), (1 - cs) / (1 + AL), (1 - cs) / 2 / (1 + AL),
    (1 - cs) / 2 / (1 + AL)⟩, ?_, ⟨rfl, ?_, ?_, ?_, ?_, ?_⟩⟩
  rotate_left
  · exact (fin y0 (by norm_num) y1).imp id fun h => h.trans (by norm_num)
  · exact (fin z0 (i := 1) (by norm_num) (z1.trans (by norm_num))).imp id fun h => h.trans (by norm_num)
  · exact (fin t0 (by norm_num) t1).imp id fun h => h.trans (by norm_num)
  · exact (fin x0 (by norm_num) x1).imp id fun h => h.trans (by norm_num)
  · exact (fin t0 (by norm_num) t1).imp id fun h => h.trans (by norm_num)
  · have n := ha.not_nan
    simp [Biquad.setCoefficients, Exec.throwIf, n _ a0, n _ y0, n _ z0, n _ t0, n _ x0]
    rfl

/-- **C71**, the negation for all valid parameters: the low pass with cutoff `2⁻¹⁰⁰` and quality 1 is accepted, and the
stored section has a double pole at `z = 1` and no feed forward coefficients. -/
theorem C71_false_tiny_cutoff : ∃ d : RBJ.Design Dbl, doubleRounds.FinArgs d ∧ ValidRBJ (doubleRounds.valRBJ d) ∧
    ∀ f : RBJ.Filter Dbl, ∃ f' k, RBJ.Filter.setupN d f = (.ok (), f') ∧ doubleRounds.Values f'.biquad k ∧
      k = ⟨1, -2, 1, 0, 0, 0⟩ ∧ ¬ k.Stable := by
  obtain ⟨h1, h2⟩ := lit2_val (m := 1) (e := -100) (by norm_num) (by norm_num) (by norm_num)
  obtain ⟨h3, h4⟩ := lit2_val (m := 1) (e := 0) (by norm_num) (by norm_num) (by norm_num)
  refine ⟨.lowPass (.lit2 1 (-100)) (.lit2 1 0), ⟨h1, h3⟩, ?_, fun f => ?_⟩
  · show 0 < Dbl.val _ ∧ Dbl.val _ < _ ∧ 0 < Dbl.val _
    rw [h2, h4]
    norm_num
  have ha := doubleRounds_accurate
  have hp := Real.pi_gt_d2
  have hp' := Real.pi_lt_d2
  generalize Dbl.lit2 1 (-100) = fc at *
  generalize Dbl.lit2 1 0 = q at *
  have i1 := In.one ha
  have v1 : (1 : Dbl).val = 1 := le_antisymm i1.2.2 i1.2.1
  have i2 := In.two ha
  have v2 : (2 : Dbl).val = 2 := le_antisymm i2.2.2 i2.2.1
  have hm2 := In.neg ha i2
  have v2' : (-2 : Dbl).val = -2 := le_antisymm hm2.2.2 hm2.2.1
  have h2' : fc.val = 1 / 2 ^ 100 := by rw [h2]; norm_num
  have h4' : q.val = 1 := by rw [h4]; norm_num
  clear h2 h4
  have p2 : doubleRounds.In (2 * pi : Dbl) 6 7 :=
    In.mul ha 7 i2 (in_pi ha) (by norm_num) (by norm_num at *; linarith) (by norm_num at *; linarith) (by norm_num)
      (by norm_num at *; linarith) (by norm_num at *; linarith)
  obtain ⟨p0, p1, p2⟩ := p2
  change 6 ≤ (2 * pi : Dbl).val at p1
  change (2 * pi : Dbl).val ≤ 7 at p2
  have m0 := mul_thou ha p0 h1 (lt_of_lt_of_le (by norm_num) p1) (by rw [show doubleRounds.val fc = _ from h2']; positivity)
    (by rw [show doubleRounds.val fc = _ from h2']; show _ ≤ (2 * pi : Dbl).val * _; norm_num; linarith)
    (by rw [show doubleRounds.val fc = _ from h2']; show (2 * pi : Dbl).val * _ ≤ _; norm_num; linarith)
  obtain ⟨w0, w1, w2⟩ := m0
  change _ ≤ (2 * pi * fc).val at w1
  change (2 * pi * fc).val ≤ _ at w2
  rw [show doubleRounds.val fc = _ from h2'] at w1 w2
  change 999 / 1000 * ((2 * pi : Dbl).val * _) ≤ _ at w1
  change _ ≤ 1001 / 1000 * ((2 * pi : Dbl).val * _) at w2
  have w3 : 0 ≤ (2 * pi * fc).val := by linarith
  have w4 : (2 * pi * fc).val ≤ 1 / 2 ^ 96 := by norm_num at *; linarith
  have hc : cos (2 * pi * fc) = ofReal false (Real.cos (2 * pi * fc).val) := by
    show ofXR _ (XR.cos (2 * pi * fc).toXR) = _; rw [toXR_finite w0]; rfl
  have hs : sin (2 * pi * fc) = ofReal (2 * pi * fc).sign (Real.sin (2 * pi * fc).val) := by
    show ofXR _ (XR.sin (2 * pi * fc).toXR) = _; rw [toXR_finite w0]; rfl
  have c1 : |Real.cos (2 * pi * fc).val - 1| ≤ (1 / 2) ^ 56 := by
    have e1 := Real.one_sub_sq_div_two_le_cos (x := (2 * pi * fc).val)
    have e2 := Real.cos_le_one (2 * pi * fc).val
    rw [abs_sub_comm, abs_of_nonneg (by linarith)]
    have : (2 * pi * fc).val ^ 2 ≤ (1 / 2 ^ 96) ^ 2 := pow_le_pow_left₀ w3 w4 2
    norm_num at *
    linarith
  obtain ⟨c2, c3⟩ := ofReal_one false c1
  rw [← hc] at c2 c3
  obtain ⟨s0, s1⟩ := ha.sin _ w0
  change (sin (2 * pi * fc)).Finite at s0
  change |(sin (2 * pi * fc)).val - Real.sin (2 * pi * fc).val| ≤ |Real.sin (2 * pi * fc).val| / 2 ^ 45 + _ at s1
  replace s1 := s1.trans (add_le_add_right ha.η_le _)
  have s2 : |(sin (2 * pi * fc)).val| ≤ 1 / 2 ^ 95 := by
    have e1 := Real.abs_sin_le_abs (x := (2 * pi * fc).val)
    rw [abs_of_nonneg w3] at e1
    have e2 := abs_add_le ((sin (2 * pi * fc)).val - Real.sin (2 * pi * fc).val) (Real.sin (2 * pi * fc).val)
    rw [sub_add_cancel] at e2
    norm_num at *
    linarith
  obtain ⟨b', e, hv⟩ := tiny_core c2 c3 s0 s2 h3 h4' f.biquad
  refine ⟨{ f with biquad := b' }, _, ?_, hv, rfl, ?_⟩
  · show (((RBJ.Design.lowPass fc q).setupN f.biquad).1, { f with biquad := ((RBJ.Design.lowPass fc q).setupN f.biquad).2 }) = _
    have e' : (RBJ.Design.lowPass fc q).setupN f.biquad = (.ok (), b') := e
    rw [e']
  · intro h
    have := h 1 (by norm_num)
    norm_num at this

/-- Too large for a double. -/
theorem Dbl.ofReal_overflow (s : Bool) {x : ℝ} (h : 4 * 2 ^ 1024 ≤ x) : ofReal s x = .inf false := by
  have h0 : (0 : ℝ) < 2 ^ 1024 := by positivity
  have e : (1 / 2 : ℝ) ^ 1075 ≤ 1 := pow_le_one₀ (by norm_num) (by norm_num)
  have h1 : (1 : ℝ) ≤ 2 ^ 1024 := one_le_pow₀ (by norm_num)
  have h2 := roundReal_close x
  have hx : 0 < x := lt_of_lt_of_le (by positivity) h
  have h3 : ¬ roundReal |x| < 2 ^ 1024 := by
    rw [abs_of_pos hx] at h2 ⊢
    obtain ⟨h2, -⟩ := abs_le.1 h2
    have h5 : (1 / 2 : ℝ) ^ 53 * x ≤ 1 / 2 * x := mul_le_mul_of_nonneg_right (by norm_num) hx.le
    rw [not_lt]
    generalize (2 : ℝ) ^ 1024 = M at *
    generalize ((1 / 2 : ℝ) ^ 1075) = δ at *
    generalize ((1 / 2 : ℝ) ^ 53) * x = δ' at *
    linarith
  unfold ofReal ofMag
  rw [dif_neg h3, if_neg hx.ne', decide_eq_false (not_lt.2 hx.le)]

theorem sinh_huge {a : ℝ} (h : 2000 ≤ a) : 4 * 2 ^ 1024 ≤ Real.sinh a := by
  rw [Real.sinh_eq]
  have h1 : Real.exp 2000 ≤ Real.exp a := Real.exp_le_exp.2 h
  have h2 : Real.exp (-a) ≤ 1 := Real.exp_le_one_iff.2 (by linarith)
  have h3 : (2 : ℝ) ^ 2000 ≤ Real.exp 2000 := by
    have : Real.exp 2000 = Real.exp 1 ^ 2000 := by rw [← Real.exp_nat_mul]; norm_num
    rw [this]
    exact pow_le_pow_left₀ (by norm_num) (by have := Real.exp_one_gt_d9; linarith) _
  have h4 : (2 : ℝ) ^ 2000 = 2 ^ 976 * 2 ^ 1024 := by rw [← pow_add]
  have h5 : (16 : ℝ) ≤ 2 ^ 976 :=
    calc (16 : ℝ) = 2 ^ 4 := by norm_num
      _ ≤ 2 ^ 976 := pow_le_pow_right₀ (by norm_num) (by norm_num)
  have h6 : (1 : ℝ) ≤ 2 ^ 1024 := one_le_pow₀ (by norm_num)
  have h7 : 16 * (2 : ℝ) ^ 1024 ≤ 2 ^ 976 * 2 ^ 1024 := mul_le_mul_of_nonneg_right h5 (by positivity)
  rw [h4] at h3
  generalize (2 : ℝ) ^ 1024 = M at *
  generalize (2 : ℝ) ^ 976 * M = N at *
  linarith

/-- **C71**, the negation again: a band shelf of four octaves close to the Nyquist frequency (0 dB) is accepted without
exception although `sinh` overflows; the stored `a2` is NaN. -/
theorem C71_false_band_shelf : ∃ d : RBJ.Design Dbl, doubleRounds.FinArgs d ∧ ValidRBJ (doubleRounds.valRBJ d) ∧
    ∀ f : RBJ.Filter Dbl, ∃ f', RBJ.Filter.setupN d f = (.ok (), f') ∧ isNan f'.biquad.a2 = true := by
  obtain ⟨h1, h2⟩ := lit2_val (m := 2 ^ 19 - 1) (e := -20) (by norm_num) (by norm_num) (by norm_num)
  obtain ⟨h3, h4⟩ := lit2_val (m := 0) (e := 0) (by norm_num) (by norm_num) (by norm_num)
  obtain ⟨h5, h6⟩ := lit2_val (m := 4) (e := 0) (by norm_num) (by norm_num) (by norm_num)
  refine ⟨.bandShelf (.lit2 (2 ^ 19 - 1) (-20)) (.lit2 0 0) (.lit2 4 0), ⟨h1, h3, h5⟩, ?_, fun f => ?_⟩
  · show 0 < Dbl.val _ ∧ Dbl.val _ < _ ∧ 0 < Dbl.val _
    rw [h2, h6]
    norm_num
  have ha := doubleRounds_accurate
  have hp := Real.pi_gt_d2
  have hp' := Real.pi_lt_d2
  generalize Dbl.lit2 (2 ^ 19 - 1) (-20) = fc at *
  generalize Dbl.lit2 0 0 = g at *
  generalize Dbl.lit2 4 0 = W at *
  have h2' : doubleRounds.val fc = 1 / 2 - 1 / 2 ^ 20 := by rw [show doubleRounds.val fc = _ from h2]; norm_num
  have h4' : doubleRounds.val g = 0 := by rw [show doubleRounds.val g = _ from h4]; norm_num
  have h6' : doubleRounds.val W = 4 := by rw [show doubleRounds.val W = _ from h6]; norm_num
  clear h2 h4 h6
  have hA := in_A ha h3 (by rw [h4']; norm_num)
  obtain ⟨hw, hc, hs⟩ := in_trig ha h1 (by rw [h2']; norm_num) h2'.le
  have hw' := in_w0 ha h1 h2'.ge h2'.le (by norm_num) (by norm_num)
  have w1 := hw'.2.1
  have w2 := hw'.2.2
  generalize hww : 2 * pi * fc = w at hw hc hs hw' w1 w2
  have s1 : doubleRounds.val (sin w) ≤ 1 / 2 ^ 16 := by
    obtain ⟨-, s1⟩ := ha.sin _ hw.1
    replace s1 := s1.trans (add_le_add_right ha.η_le _)
    have e1 := Real.abs_sin_le_abs (x := Real.pi - doubleRounds.val w)
    rw [Real.sin_pi_sub, abs_of_nonneg (a := Real.pi - doubleRounds.val w) (by norm_num at *; linarith)] at e1
    obtain ⟨-, s2⟩ := abs_le.1 s1
    have e2 := le_abs_self (Real.sin (doubleRounds.val w))
    norm_num at *
    linarith
  have l2 : doubleRounds.In (ln2 / 2 : Dbl) (344 / 1000) (351 / 1000) :=
    In.div ha (350 / 1000) (in_ln2 ha) (In.two ha) (by norm_num) (by norm_num) (by norm_num) (by norm_num) (by norm_num) (by norm_num) (by norm_num)
  have lb : doubleRounds.In (ln2 / 2 * W : Dbl) 1 2 :=
    In.mul ha 2 l2 ⟨h5, h6'.ge, h6'.le⟩ (by norm_num) (by norm_num) (by norm_num) (by norm_num) (by norm_num) (by norm_num)
  have lw : doubleRounds.In (ln2 / 2 * W * w : Dbl) 2 9 :=
    In.mul ha 8 lb (⟨hw.1, by norm_num at *; linarith, hw.2.2⟩ : doubleRounds.In w (5 / 2) 4) (by norm_num) (by norm_num) (by norm_num) (by norm_num) (by norm_num) (by norm_num)
  have la : doubleRounds.In (ln2 / 2 * W * w / sin w : Dbl) 2000 (2 ^ 30) :=
    In.div ha (2 ^ 29) lw (⟨hs.1, hs.2.1, s1⟩ : doubleRounds.In (sin w) (1 / 2 ^ 20) (1 / 2 ^ 16)) (by norm_num) (by norm_num) (by norm_num) (by norm_num) (by norm_num) (by norm_num) (by norm_num)
  have hsinh : sinh (ln2 / 2 * W * w / sin w) = .inf false := by
    show ofXR _ (XR.sinh (Dbl.toXR _)) = _
    rw [toXR_finite la.1]
    exact ofReal_overflow _ (sinh_huge la.2.1)
  have hAL : sin w * sinh (ln2 / 2 * W * w / sin w) = .inf false := by
    rw [hsinh]
    have h0 : 0 < (sin w).val := lt_of_lt_of_le (by norm_num) hs.2.1
    obtain ⟨h7, -, -⟩ := hs
    generalize sin w = s at *
    rcases s with _ | s | ⟨s, x⟩
    · exact h7.elim
    · exact h7.elim
    · cases s
      · show (if x.1 = 0 then _ else _) = _
        rw [if_neg]
        · rfl
        · intro h; rw [show (num false x).val = x.1 from rfl, h] at h0; exact lt_irrefl _ h0
      · exfalso
        rw [show (num true x).val = -x.1 from rfl] at h0
        linarith [x.2.1]
  have i1 := In.one ha
  have n := ha.not_nan
  have m2 := in_m2c ha hc
  obtain ⟨A0, A1, -⟩ := hA
  change 1 / 32 ≤ (pow 10 (g / 40) : Dbl).val at A1
  change (pow 10 (g / 40) : Dbl).Finite at A0
  have hq : ∃ t, (Dbl.inf false / pow 10 (g / 40) : Dbl) = .inf t ∧ (Dbl.inf false * pow 10 (g / 40) : Dbl) = .inf t := by
    generalize pow 10 (g / 40) = A at *
    rcases A with _ | s | ⟨s, x⟩
    · exact A0.elim
    · exact A0.elim
    · refine ⟨false ^^ s, rfl, ?_⟩
      show (if x.1 = 0 then _ else _) = _
      rw [if_neg]
      intro h
      have : |(num s x).val| = 0 := (abs_val s x).trans h
      rw [abs_eq_zero] at this
      rw [this] at A1
      norm_num at A1
  obtain ⟨t, t1, t2⟩ := hq
  have ninf : ∀ t, isNan (Dbl.inf t) = false := fun t => by
    by_contra h
    rw [Bool.not_eq_false, Dbl.isNan_iff] at h
    cases h
  have addi : ∀ t, (1 : Dbl) + .inf t = .inf t := by
    intro t
    obtain ⟨h7, -, -⟩ := i1
    generalize (1 : Dbl) = o at *
    rcases o with _ | s | ⟨s, x⟩
    · exact h7.elim
    · exact h7.elim
    · rfl
  have subi : ∀ t, (1 : Dbl) - .inf t = .inf !t := fun t => addi (!t)
  have key : (RBJ.Design.bandShelf fc g W).setupN f.biquad =
      (.ok (), ⟨.inf t, -2 * cos w / .inf t, .inf (!t) / .inf t, -2 * cos w / .inf t, .inf (!t) / .inf t, .inf t / .inf t⟩) := by
    simp only [RBJ.Design.setupN, RBJ.bandShelf, hww, hAL, t1, t2, addi, subi]
    simp only [Biquad.setCoefficients, ninf, n _ m2.1]
    rfl
  exact ⟨_, congrArg (fun x : Res Unit × Biquad Dbl => (x.1, ({ f with biquad := x.2 } : RBJ.Filter Dbl))) key,
    (Dbl.isNan_iff _).2 rfl⟩

end Iir
