import Mathlib.Analysis.SpecificLimits.Basic
import Mathlib.Analysis.Complex.Basic
import Mathlib.Tactic.LinearCombination
import Mathlib.Tactic.Linarith
import Mathlib.Tactic.FieldSimp
import Mathlib.Tactic.Ring

/-! # Stable linear recurrences -/

namespace Iir.Recurrence
open Filter Topology

/-- First order: bounded input gives a bounded solution. -/
theorem first_bounded {p : ℂ} (hp : ‖p‖ < 1) {v u : ℕ → ℂ} (h : ∀ n, v (n + 1) = p * v n + u n)
    {M : ℝ} (hu : ∀ n, ‖u n‖ ≤ M) (n : ℕ) : ‖v n‖ ≤ ‖v 0‖ + M / (1 - ‖p‖) := by
  have hp' : 0 < 1 - ‖p‖ := by linarith
  have hM : 0 ≤ M := (norm_nonneg _).trans (hu 0)
  induction n with
  | zero => have := div_nonneg hM hp'.le; linarith
  | succ n ih =>
    rw [h]
    have h1 : ‖p * v n + u n‖ ≤ ‖p‖ * ‖v n‖ + M :=
      (norm_add_le _ _).trans (by rw [norm_mul]; linarith [hu n])
    have h2 : ‖p‖ * ‖v n‖ ≤ ‖p‖ * (‖v 0‖ + M / (1 - ‖p‖)) :=
      mul_le_mul_of_nonneg_left ih (norm_nonneg _)
    have h3 : ‖p‖ * (M / (1 - ‖p‖)) + M = M / (1 - ‖p‖) := by field_simp; ring
    have h4 : ‖p‖ * ‖v 0‖ ≤ ‖v 0‖ := by
      have := mul_le_mul_of_nonneg_right hp.le (norm_nonneg (v 0)); linarith
    linarith

/-- First order: vanishing input gives a vanishing solution. -/
theorem first_tendsto {p : ℂ} (hp : ‖p‖ < 1) {v u : ℕ → ℂ} (h : ∀ n, v (n + 1) = p * v n + u n)
    (hu : Tendsto u atTop (𝓝 0)) : Tendsto v atTop (𝓝 0) := by
  have hp' : 0 < 1 - ‖p‖ := by linarith
  rw [Metric.tendsto_atTop] at hu ⊢
  intro ε hε
  obtain ⟨N, hN⟩ := hu (ε / 2 * (1 - ‖p‖)) (by positivity)
  have key : ∀ k, ‖v (N + k)‖ ≤ ‖p‖ ^ k * ‖v N‖ + ε / 2 := by
    intro k
    induction k with
    | zero => simp; linarith
    | succ k ih =>
      rw [← Nat.add_assoc, h]
      have h0 := hN (N + k) (Nat.le_add_right _ _)
      rw [dist_zero_right] at h0
      have h1 : ‖p * v (N + k) + u (N + k)‖ ≤ ‖p‖ * ‖v (N + k)‖ + ε / 2 * (1 - ‖p‖) :=
        (norm_add_le _ _).trans (by rw [norm_mul]; linarith)
      have h2 := mul_le_mul_of_nonneg_left ih (norm_nonneg p)
      rw [pow_succ]
      linarith
  have hpow : Tendsto (fun k => ‖p‖ ^ k * ‖v N‖) atTop (𝓝 0) := by
    have := (tendsto_pow_atTop_nhds_zero_of_lt_one (norm_nonneg p) hp).mul_const ‖v N‖
    simpa using this
  rw [Metric.tendsto_atTop] at hpow
  obtain ⟨K, hK⟩ := hpow (ε / 2) (by linarith)
  refine ⟨N + K, fun n hn => ?_⟩
  obtain ⟨k, rfl⟩ := Nat.exists_eq_add_of_le (show N ≤ n by omega)
  have hk := hK k (by omega)
  rw [dist_zero_right] at hk ⊢
  have := (le_abs_self _).trans_lt hk
  linarith [key k]

/-- Second order with the two roots given. -/
theorem second_bounded {p q : ℂ} (hp : ‖p‖ < 1) (hq : ‖q‖ < 1) {e d : ℕ → ℂ}
    (h : ∀ n, e (n + 2) - (p + q) * e (n + 1) + p * q * e n = d n)
    {M : ℝ} (hd : ∀ n, ‖d n‖ ≤ M) : ∃ B, ∀ n, ‖e n‖ ≤ B := by
  have h1 := first_bounded (v := fun n => e (n + 1) - p * e n) (u := d) hq
    (fun n => by linear_combination h n) hd
  exact ⟨_, first_bounded (v := e) (u := fun n => e (n + 1) - p * e n) hp (fun n => by ring) h1⟩

theorem second_tendsto {p q : ℂ} (hp : ‖p‖ < 1) (hq : ‖q‖ < 1) {e d : ℕ → ℂ}
    (h : ∀ n, e (n + 2) - (p + q) * e (n + 1) + p * q * e n = d n)
    (hd : Tendsto d atTop (𝓝 0)) : Tendsto e atTop (𝓝 0) := by
  have h1 := first_tendsto (v := fun n => e (n + 1) - p * e n) (u := d) hq
    (fun n => by linear_combination h n) hd
  exact first_tendsto (v := e) (u := fun n => e (n + 1) - p * e n) hp (fun n => by ring) h1

end Iir.Recurrence
