import Mathlib.Analysis.SpecialFunctions.Trigonometric.Basic
import Mathlib.Analysis.SpecialFunctions.Trigonometric.Arctan
import Mathlib.Tactic.FieldSimp
import Mathlib.Tactic.LinearCombination

/-! # Half angle formulas -/

namespace Iir

theorem cos_double_tan {x : ℝ} (h : Real.cos x ≠ 0) :
    Real.cos (2 * x) = (1 - Real.tan x ^ 2) / (1 + Real.tan x ^ 2) := by
  have h1 := Real.sin_sq_add_cos_sq x
  rw [Real.cos_two_mul, Real.tan_eq_sin_div_cos]
  field_simp
  rw [show Real.cos x ^ 2 + Real.sin x ^ 2 = 1 by linarith]
  linear_combination h1

theorem sin_double_tan {x : ℝ} (h : Real.cos x ≠ 0) :
    Real.sin (2 * x) = 2 * Real.tan x / (1 + Real.tan x ^ 2) := by
  have h1 := Real.sin_sq_add_cos_sq x
  rw [Real.sin_two_mul, Real.tan_eq_sin_div_cos]
  field_simp
  rw [show Real.cos x ^ 2 + Real.sin x ^ 2 = 1 by linarith]
  ring

/-- `tan (π f)` for `0 < f < 1/2` is positive -/
theorem tan_pi_pos {f : ℝ} (h0 : 0 < f) (h1 : f < 1 / 2) : 0 < Real.tan (Real.pi * f) := by
  have := Real.pi_pos
  exact Real.tan_pos_of_pos_of_lt_pi_div_two (by positivity) (by nlinarith)

theorem cos_pi_pos {f : ℝ} (h0 : 0 ≤ f) (h1 : f < 1 / 2) : 0 < Real.cos (Real.pi * f) := by
  have := Real.pi_pos
  exact Real.cos_pos_of_mem_Ioo ⟨by nlinarith, by nlinarith⟩

theorem tan_pi_nonneg {f : ℝ} (h0 : 0 ≤ f) (h1 : f < 1 / 2) : 0 ≤ Real.tan (Real.pi * f) := by
  rcases h0.eq_or_lt with rfl | h
  · simp
  · exact (tan_pi_pos h h1).le

end Iir
