import Verif.Spec.Rounding
import Mathlib.Tactic.Linarith
import Mathlib.Tactic.FieldSimp
import Mathlib.Tactic.LinearCombination

/-! # Perturbed second order recurrences with explicit bounds -/

namespace Iir
open Spec

/-- `x[n-1]`, zero before time 0 -/
def prevC (v : ℕ → ℂ) (n : ℕ) : ℂ := if 1 ≤ n then v (n - 1) else 0

theorem prevC_zero (v : ℕ → ℂ) : prevC v 0 = 0 := rfl
theorem prevC_succ (v : ℕ → ℂ) (n : ℕ) : prevC v (n + 1) = v n := by simp [prevC]

theorem first_order_bound {p : ℂ} (hp : ‖p‖ < 1) {v : ℕ → ℂ} {M : ℝ} {N : ℕ}
    (h : ∀ m < N, ‖v m - p * prevC v m‖ ≤ M) : ∀ m < N, ‖v m‖ ≤ M / (1 - ‖p‖) := by
  have hp' : 0 < 1 - ‖p‖ := by linarith
  intro m
  induction m with
  | zero =>
    intro h0
    have h1 := h 0 h0
    rw [prevC_zero, mul_zero, sub_zero] at h1
    rw [le_div_iff₀ hp']
    have : ‖v 0‖ * (1 - ‖p‖) ≤ ‖v 0‖ * 1 := mul_le_mul_of_nonneg_left (by linarith [norm_nonneg p]) (norm_nonneg _)
    linarith
  | succ m ih =>
    intro h0
    have h1 := h (m + 1) h0
    rw [prevC_succ] at h1
    have h2 := ih (by omega)
    have h3 : ‖v (m + 1)‖ ≤ ‖v (m + 1) - p * v m‖ + ‖p‖ * ‖v m‖ := by
      rw [← norm_mul]
      calc ‖v (m + 1)‖ = ‖(v (m + 1) - p * v m) + p * v m‖ := by rw [sub_add_cancel]
        _ ≤ _ := norm_add_le _ _
    have h4 : ‖p‖ * ‖v m‖ ≤ ‖p‖ * (M / (1 - ‖p‖)) := mul_le_mul_of_nonneg_left h2 (norm_nonneg _)
    have h5 : M + ‖p‖ * (M / (1 - ‖p‖)) = M / (1 - ‖p‖) := by field_simp; ring
    linarith

/-- A second order recurrence driven by something of magnitude at most `E`. -/
theorem second_order_bound {k : Coeffs} {p q : ℂ} (hk : k.StablePoles p q) {d : ℕ → ℝ} {E : ℝ} {N : ℕ}
    (h : ∀ m < N, |d m + k.a1 * delayed 1 d m + k.a2 * delayed 2 d m| ≤ E) :
    ∀ m < N, |d m| ≤ poleGain p q * E := by
  have hp' : 0 < 1 - ‖p‖ := by linarith [hk.p_lt]
  have hq' : 0 < 1 - ‖q‖ := by linarith [hk.q_lt]
  have h1 : ∀ m < N, ‖(fun m => (d m : ℂ) - p * prevC (fun n => (d n : ℂ)) m) m‖ ≤ E / (1 - ‖q‖) := by
    apply first_order_bound hk.q_lt
    intro m hm
    have h2 := h m hm
    rw [← Real.norm_eq_abs, ← Complex.norm_real] at h2
    convert h2 using 2
    push_cast
    rw [hk.sum, hk.prod]
    match m with
    | 0 => simp [prevC, delayed]
    | 1 => simp [prevC, delayed]; ring
    | m + 2 => simp [prevC, delayed]; ring
  have h2 := first_order_bound hk.p_lt (v := fun n => (d n : ℂ)) h1
  intro m hm
  have h3 := h2 m hm
  simp only [Complex.norm_real, Real.norm_eq_abs] at h3
  refine h3.trans (le_of_eq ?_)
  unfold poleGain
  field_simp

theorem poleGain_pos {p q : ℂ} (hp : ‖p‖ < 1) (hq : ‖q‖ < 1) : 1 ≤ poleGain p q := by
  have h1 : 0 < 1 - ‖p‖ := by linarith
  have h2 : 0 < 1 - ‖q‖ := by linarith
  rw [poleGain, le_div_iff₀ (by positivity), one_mul]
  have h3 : 1 - ‖p‖ ≤ 1 := by linarith [norm_nonneg p]
  have h4 : 1 - ‖q‖ ≤ 1 := by linarith [norm_nonneg q]
  nlinarith

theorem delayed_abs_le {x : ℕ → ℝ} {X : ℝ} (hX : 0 ≤ X) {N : ℕ} (h : ∀ m < N, |x m| ≤ X) (j : ℕ) (hj : 1 ≤ j) :
    |delayed j x N| ≤ X := by
  unfold delayed
  split_ifs with hh
  · exact h _ (by omega)
  · simpa using hX

/-- The feed forward part of a difference equation is bounded by that of its input. -/
theorem forward_le {k : Coeffs} {x : ℕ → ℝ} {X : ℝ} (hX : ∀ n, |x n| ≤ X) (n : ℕ) :
    |k.b0 * x n| + |k.b1 * delayed 1 x n| + |k.b2 * delayed 2 x n| ≤ k.forward * X := by
  have h0 : 0 ≤ X := (abs_nonneg _).trans (hX 0)
  have h1 := delayed_abs_le h0 (fun m (_ : m < n) => hX m) 1 le_rfl
  have h2 := delayed_abs_le h0 (fun m (_ : m < n) => hX m) 2 (by omega)
  rw [abs_mul, abs_mul, abs_mul, Coeffs.forward]
  have := mul_le_mul_of_nonneg_left (hX n) (abs_nonneg k.b0)
  have := mul_le_mul_of_nonneg_left h1 (abs_nonneg k.b1)
  have := mul_le_mul_of_nonneg_left h2 (abs_nonneg k.b2)
  linarith

end Iir
