import Verif.Spec.Library
import Verif.Lemmas.DoubleLaws

/-! # Doubles with correctly rounded library functions are accurate -/

namespace Iir
open FArith Spec Dbl

theorem Dbl.toXR_finite {a : Dbl} (h : a.Finite) : a.toXR = .fin a.val := by
  rcases a with _ | s | ⟨s, x⟩
  · exact h.elim
  · exact h.elim
  · rfl

theorem Dbl.library (s : Bool) {x y : ℝ} (h : |x| ≤ maxDouble) (hy : y = |x|) :
    (ofReal s x).Finite ∧ |(ofReal s x).val - x| ≤ y / 2 ^ 45 + (1 / 2) ^ 1075 := by
  obtain ⟨h1, h2⟩ := ofReal_close s h
  refine ⟨h1, h2.trans ?_⟩
  generalize ((1 / 2) ^ 1075 : ℝ) = e
  rw [hy]
  have := abs_nonneg x
  have : (1 / 2 : ℝ) ^ 53 * |x| ≤ |x| / 2 ^ 45 := by norm_num; linarith
  linarith

theorem maxDouble_ge : (2 : ℝ) ^ 200 ≤ maxDouble := by
  unfold maxDouble
  calc (2 : ℝ) ^ 200 ≤ 1 * 2 ^ 971 := by
        rw [one_mul]; exact pow_le_pow_right₀ (by norm_num) (by norm_num)
    _ ≤ _ := mul_le_mul_of_nonneg_right (by norm_num) (by positivity)

theorem doubleRounds_accurate : doubleRounds.Accurate where
  u_le := by norm_num
  η_le := by
    rw [one_div_pow]
    exact one_div_le_one_div_of_le (by positivity) (pow_le_pow_right₀ (by norm_num) (by norm_num))
  le_Ω := maxDouble_ge
  not_nan x hx := by
    by_contra h
    rw [Bool.not_eq_false, Dbl.isNan_iff] at h
    subst h
    exact hx
  int i hi := by
    exact ofReal_isDouble _ (isDouble_int (lt_of_le_of_lt hi (by norm_num)))
  neg x hx := ⟨finite_neg hx, val_neg x⟩
  div := by
    rintro (_ | s | ⟨s, x⟩) (_ | t | ⟨t, y⟩) hx hy h0 h <;> try first | exact hx.elim | exact hy.elim
    have e : (num s x / num t y : Dbl) = ofReal (s ^^ t) (val (num s x) / val (num t y)) := by
      show (if y.1 = 0 then _ else _) = _
      rw [if_neg]
      intro h1
      apply h0
      show val (num t y) = 0
      rw [← abs_eq_zero, abs_val, h1]
    rw [e]
    exact ofReal_close _ h
  pi := by
    have := Real.pi_pos
    have := Real.pi_le_four
    have h : |Real.pi| ≤ 100 := by rw [abs_of_pos Real.pi_pos]; linarith
    obtain ⟨h1, h2⟩ := ofReal_close false (maxDouble_large h)
    refine ⟨h1, h2.trans ?_⟩
    rw [abs_of_pos Real.pi_pos]
    have h3 : (1 / 2 : ℝ) ^ 1075 ≤ (1 / 2) ^ 60 := pow_le_pow_of_le_one (by norm_num) (by norm_num) (by norm_num)
    generalize ((1 / 2) ^ 1075 : ℝ) = e at *
    norm_num at *
    linarith
  ln2 := by
    have h0 : 0 < Real.log 2 := Real.log_pos (by norm_num)
    have h1 : Real.log 2 ≤ 1 := by have := Real.log_le_sub_one_of_pos (x := 2) (by norm_num); linarith
    have h : |Real.log 2| ≤ 100 := by rw [abs_of_pos h0]; linarith
    obtain ⟨h1, h2⟩ := ofReal_close false (maxDouble_large h)
    refine ⟨h1, h2.trans ?_⟩
    rw [abs_of_pos h0]
    have h3 : (1 / 2 : ℝ) ^ 1075 ≤ (1 / 2) ^ 60 := pow_le_pow_of_le_one (by norm_num) (by norm_num) (by norm_num)
    generalize ((1 / 2) ^ 1075 : ℝ) = e at *
    norm_num at *
    linarith
  sin x hx := by
    have e : sin x = ofReal x.sign (Real.sin x.val) := by show ofXR _ (XR.sin x.toXR) = _; rw [toXR_finite hx]; rfl
    rw [e]
    exact library _ (maxDouble_large ((Real.abs_sin_le_one _).trans (by norm_num))) rfl
  cos x hx := by
    have e : cos x = ofReal false (Real.cos x.val) := by show ofXR _ (XR.cos x.toXR) = _; rw [toXR_finite hx]; rfl
    rw [e]
    exact library _ (maxDouble_large ((Real.abs_cos_le_one _).trans (by norm_num))) rfl
  exp x hx h := by
    have e : exp x = ofReal false (Real.exp x.val) := by show ofXR _ (XR.exp x.toXR) = _; rw [toXR_finite hx]; rfl
    rw [e]
    have := Real.exp_pos x.val
    exact library _ (by rw [abs_of_pos this]; exact h) (abs_of_pos this).symm
  sqrt x hx h := by
    have e : sqrt x = ofReal x.sign (Real.sqrt x.val) := by
      show ofXR _ (XR.sqrt x.toXR) = _
      rw [toXR_finite hx]
      show ofXR _ (if _ then _ else _) = _
      rw [if_neg (show ¬ x.val < 0 from not_lt.2 h)]; rfl
    rw [e]
    have h1 := Real.sqrt_nonneg x.val
    refine library _ ?_ (abs_of_nonneg h1).symm
    rw [abs_of_nonneg h1, Real.sqrt_le_left (by linarith [maxDouble_ge, (by positivity : (0 : ℝ) < 2 ^ 200)])]
    have hm : x.val ≤ maxDouble := by
      rcases x with _ | s | ⟨s, x⟩
      · exact hx.elim
      · exact hx.elim
      · refine (le_abs_self _).trans ?_
        rw [abs_val]
        obtain ⟨m, e, a, b, c, d⟩ := x.2.2
        rw [d]
        unfold maxDouble
        have hm : (m : ℝ) ≤ 2 ^ 53 - 1 := by
          have : m ≤ 2 ^ 53 - 1 := by have := (abs_lt.1 a).2; omega
          exact_mod_cast this
        have he : (2 : ℝ) ^ e ≤ 2 ^ 971 := by
          rw [← zpow_natCast]; exact zpow_le_zpow_right₀ (by norm_num) (by exact_mod_cast c)
        calc (m : ℝ) * 2 ^ e ≤ (2 ^ 53 - 1) * 2 ^ e := mul_le_mul_of_nonneg_right hm (by positivity)
          _ ≤ _ := mul_le_mul_of_nonneg_left he (by norm_num)
    have h1 : (1 : ℝ) ≤ maxDouble := (one_le_pow₀ (by norm_num)).trans maxDouble_ge
    exact hm.trans (by rw [sq]; exact le_mul_of_one_le_left (by linarith) h1)
  sinh x hx h := by
    have e : sinh x = ofReal x.sign (Real.sinh x.val) := by show ofXR _ (XR.sinh x.toXR) = _; rw [toXR_finite hx]; rfl
    rw [e]
    exact library _ h rfl
  pow x y hx hy h h' := by
    have hp : 0 < x.val ^ y.val := Real.rpow_pos_of_pos h _
    have e : pow x y = ofReal false (x.val ^ y.val) := by
      show ofXR _ (XR.pow x.toXR y.toXR) = _
      rw [toXR_finite hx, toXR_finite hy]
      show ofXR _ (if _ then _ else _) = _
      by_cases h0 : y.val = 0
      · rw [if_pos h0, h0, Real.rpow_zero]; rfl
      · rw [if_neg h0]
        show ofXR _ (if _ then _ else _) = _
        rw [if_pos (show 0 < x.val from h)]; rfl
    rw [e]
    exact library _ (by rw [abs_of_pos hp]; exact h') (abs_of_pos hp).symm

end Iir
