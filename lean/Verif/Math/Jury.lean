import Verif.Spec.Signal
import Mathlib.Tactic.Linarith
import Mathlib.Tactic.LinearCombination
import Mathlib.Tactic.Positivity

/-! # Second order sections: gain on the unit circle, stability criterion -/

namespace Iir
open Spec

/-- Jury's criterion for a real quadratic. -/
theorem Spec.Coeffs.stable_of_jury {k : Coeffs} (h0 : 0 < k.a0) (h1 : 0 < k.a0 + k.a1 + k.a2)
    (h2 : 0 < k.a0 - k.a1 + k.a2) (h3 : k.a2 < k.a0) : k.Stable := by
  intro z hz
  rcases z with ⟨x, y⟩
  have hre := congrArg Complex.re hz
  have him := congrArg Complex.im hz
  simp [sq] at hre him
  by_cases hy : y = 0
  · subst hy
    simp only [mul_zero, sub_zero] at hre
    by_contra hn
    have hx : 1 ≤ |x| := by
      rw [← Real.norm_eq_abs, ← Complex.norm_real]; exact not_lt.1 hn
    rcases le_abs.1 hx with h | h
    · nlinarith [mul_nonneg (sub_nonneg.2 h) (by nlinarith : 0 ≤ k.a0 * x - k.a2)]
    · nlinarith [mul_nonneg (sub_nonneg.2 h) (by nlinarith : 0 ≤ k.a0 * (-x) - k.a2)]
  · have hx : 2 * k.a0 * x + k.a1 = 0 := by
      have : y * (2 * k.a0 * x + k.a1) = 0 := by linarith
      exact (mul_eq_zero.1 this).resolve_left hy
    have hn : k.a0 * (x * x + y * y) = k.a2 := by nlinarith
    have hlt : x * x + y * y < 1 := by
      by_contra h
      nlinarith [not_lt.1 h]
    rw [Complex.norm_def, Complex.normSq_mk, Real.sqrt_lt' one_pos]
    simpa using hlt

/-- squared magnitude of `c0 z + c1 + c2 / z` on the unit circle -/
noncomputable def quadSq (c0 c1 c2 f : ℝ) : ℝ :=
  ((c0 + c2) * Real.cos (2 * Real.pi * f) + c1) ^ 2 + ((c0 - c2) * Real.sin (2 * Real.pi * f)) ^ 2

theorem circle_eq (f : ℝ) : circle f =
    ⟨Real.cos (2 * Real.pi * f), Real.sin (2 * Real.pi * f)⟩ := by
  have : (2 * Real.pi * f * Complex.I : ℂ) = ((2 * Real.pi * f : ℝ) : ℂ) * Complex.I := by push_cast; ring
  rw [circle, this]
  apply Complex.ext
  · exact Complex.exp_ofReal_mul_I_re _
  · exact Complex.exp_ofReal_mul_I_im _

theorem circle_inv (f : ℝ) : (circle f)⁻¹ =
    ⟨Real.cos (2 * Real.pi * f), -Real.sin (2 * Real.pi * f)⟩ := by
  have := Real.sin_sq_add_cos_sq (2 * Real.pi * f)
  rw [circle_eq, Complex.inv_def]
  have hn : Complex.normSq ⟨Real.cos (2 * Real.pi * f), Real.sin (2 * Real.pi * f)⟩ = 1 := by
    rw [Complex.normSq_mk]; nlinarith
  rw [hn]
  apply Complex.ext <;> simp

theorem normSq_quad (c0 c1 c2 f : ℝ) :
    Complex.normSq (c0 + c1 * (circle f)⁻¹ + c2 * (circle f)⁻¹ ^ 2) = quadSq c0 c1 c2 f := by
  have h1 : circle f ≠ 0 := Complex.exp_ne_zero _
  have h2 : (c0 : ℂ) + c1 * (circle f)⁻¹ + c2 * (circle f)⁻¹ ^ 2 =
      (circle f)⁻¹ * (c0 * circle f + c1 + c2 * (circle f)⁻¹) := by field_simp
  have h3 := Real.sin_sq_add_cos_sq (2 * Real.pi * f)
  have h4 : Complex.normSq (circle f)⁻¹ = 1 := by
    rw [circle_inv, Complex.normSq_mk]; nlinarith
  rw [h2, Complex.normSq_mul, h4, one_mul, circle_inv, circle_eq, Complex.normSq_apply, quadSq]
  simp
  ring

theorem quadSq_ne_zero_iff (c0 c1 c2 f : ℝ) :
    (c0 : ℂ) + c1 * (circle f)⁻¹ + c2 * (circle f)⁻¹ ^ 2 ≠ 0 ↔ quadSq c0 c1 c2 f ≠ 0 := by
  rw [← normSq_quad, Ne, Ne, Complex.normSq_eq_zero]

/-- Squared gain of a section on the unit circle. -/
theorem Spec.Coeffs.transfer_normSq (k : Coeffs) (f : ℝ) :
    ‖k.transfer (circle f)‖ ^ 2 = quadSq k.b0 k.b1 k.b2 f / quadSq k.a0 k.a1 k.a2 f := by
  rw [Coeffs.transfer, ← Complex.normSq_eq_norm_sq, Complex.normSq_div, normSq_quad, normSq_quad]

theorem quadSq_zero (c0 c1 c2 : ℝ) : quadSq c0 c1 c2 0 = (c0 + c1 + c2) ^ 2 := by
  simp [quadSq]; ring

theorem quadSq_half (c0 c1 c2 : ℝ) : quadSq c0 c1 c2 (1 / 2) = (c0 - c1 + c2) ^ 2 := by
  rw [quadSq, show 2 * Real.pi * (1 / 2) = Real.pi by ring, Real.cos_pi, Real.sin_pi]; ring

end Iir
