import Mathlib.Analysis.SpecialFunctions.Trigonometric.Chebyshev.RootsExtrema
import Mathlib.RingTheory.RootsOfUnity.Complex
import Mathlib.RingTheory.Polynomial.Cyclotomic.Basic
import Mathlib.FieldTheory.KummerExtension
import Mathlib.Tactic.FieldSimp
import Mathlib.Tactic.LinearCombination

/-! # Products over the poles of the Butterworth and Chebyshev prototypes -/

namespace Iir
open Complex Finset

/-- `e ^ (2 π i k / N)` -/
theorem prod_roots {N : ℕ} (hN : 0 < N) (x y : ℂ) :
    ∏ k ∈ range N, (x - exp (2 * Real.pi * I / N) ^ k * y) = x ^ N - y ^ N := by
  have h := (isPrimitiveRoot_exp N hN.ne')
  have := congrArg (Polynomial.eval x) (X_pow_sub_C_eq_prod h hN (rfl : y ^ N = y ^ N))
  simp only [Polynomial.eval_sub, Polynomial.eval_pow, Polynomial.eval_X, Polynomial.eval_C,
    Polynomial.eval_prod] at this
  exact this.symm

/-- A product over `n` points symmetric under `k ↦ n - 1 - k`. -/
theorem prod_range_pairs {M : Type} [CommMonoid M] (n : ℕ) (g : ℕ → M) :
    ∏ k ∈ range n, g k = (∏ k ∈ range (n / 2), g k * g (n - 1 - k)) *
      (if n % 2 = 1 then g (n / 2) else 1) := by
  rw [prod_mul_distrib]
  have h1 : ∏ k ∈ range (n / 2), g (n - 1 - k) = ∏ k ∈ range (n / 2), g (n - n / 2 + k) := by
    rw [← prod_range_reflect]
    refine prod_congr rfl fun k hk => ?_
    rw [mem_range] at hk
    congr 1; omega
  rw [h1]
  split_ifs with h
  · obtain ⟨m, rfl⟩ : ∃ m, n = m + 1 + m := ⟨n / 2, by omega⟩
    have e : (m + 1 + m) / 2 = m := by omega
    rw [prod_range_add, prod_range_succ, e, show m + 1 + m - m = m + 1 by omega]
    rw [mul_assoc, mul_assoc, mul_comm (g m)]
  · obtain ⟨m, rfl⟩ : ∃ m, n = m + m := ⟨n / 2, by omega⟩
    have e : (m + m) / 2 = m := by omega
    rw [prod_range_add, e, show m + m - m = m by omega, mul_one]

/-- Angle of the `k`-th of `n` poles, seen from the imaginary axis. -/
noncomputable def angle (n k : ℕ) : ℝ := (2 * k + 1) * Real.pi / (2 * n)

theorem angle_reflect {n k : ℕ} (h : k < n) : angle n (n - 1 - k) = Real.pi - angle n k := by
  have hn : (n : ℝ) ≠ 0 := by exact_mod_cast (by omega : n ≠ 0)
  have e : ((n - 1 - k : ℕ) : ℝ) = n - 1 - k := by
    rw [Nat.sub_sub, Nat.cast_sub (by omega)]; push_cast; ring
  rw [angle, angle, e]; field_simp; ring

theorem angle_mid {n : ℕ} (h : n % 2 = 1) : angle n (n / 2) = Real.pi / 2 := by
  obtain ⟨m, rfl⟩ : ∃ m, n = 2 * m + 1 := ⟨n / 2, by omega⟩
  have : (2 * m + 1) / 2 = m := by omega
  rw [angle, this]; push_cast
  have : (2 * (m : ℝ) + 1) ≠ 0 := by positivity
  field_simp

theorem angle_pos {n k : ℕ} (h : k < n) : 0 < angle n k := by
  have hn : (0 : ℝ) < n := by exact_mod_cast (by omega : 0 < n)
  have := Real.pi_pos
  unfold angle; positivity

theorem angle_lt_pi {n k : ℕ} (h : k < n) : angle n k < Real.pi := by
  have := angle_pos (show n - 1 - k < n by omega)
  rw [angle_reflect h] at this; linarith

theorem sin_angle_pos {n k : ℕ} (h : k < n) : 0 < Real.sin (angle n k) :=
  Real.sin_pos_of_pos_of_lt_pi (angle_pos h) (angle_lt_pi h)

theorem angle_lt_half {n k : ℕ} (h : k < n / 2) : angle n k < Real.pi / 2 := by
  have hn : (0 : ℝ) < n := by exact_mod_cast (by omega : 0 < n)
  have hk : (2 * k + 1 : ℝ) < n := by exact_mod_cast (by omega : 2 * k + 1 < n)
  have := Real.pi_pos
  rw [angle, div_lt_div_iff₀ (by positivity) (by norm_num)]
  nlinarith

theorem cos_angle_pos {n k : ℕ} (h : k < n / 2) : 0 < Real.cos (angle n k) :=
  Real.cos_pos_of_mem_Ioo ⟨by have := angle_pos (show k < n by omega); linarith [Real.pi_pos],
    angle_lt_half h⟩

theorem angle_step {n : ℕ} (hn : 0 < n) (w : ℂ) (k : ℕ) :
    exp ((angle n k + w) * I) = exp (2 * Real.pi * I / (2 * n : ℕ)) ^ k * exp ((angle n 0 + w) * I) := by
  have hn' : (n : ℂ) ≠ 0 := by exact_mod_cast hn.ne'
  rw [← exp_nat_mul, ← exp_add]
  congr 1
  simp only [angle]; push_cast; field_simp; ring

theorem exp_angle_pow {n : ℕ} (hn : 0 < n) (w : ℂ) :
    exp ((angle n 0 + w) * I) ^ (2 * n) = -exp (2 * n * w * I) := by
  have hn' : (n : ℂ) ≠ 0 := by exact_mod_cast hn.ne'
  rw [← exp_nat_mul]
  have : ((2 * n : ℕ) : ℂ) * ((angle n 0 + w) * I) = Real.pi * I + 2 * n * w * I := by
    simp only [angle]; push_cast; field_simp; ring
  rw [this, exp_add, exp_pi_mul_I]; ring

theorem angle_neg_symm {n k : ℕ} (hn : 0 < n) (h : k < 2 * n) :
    exp (((angle n (2 * n - 1 - k) : ℝ) : ℂ) * I) = exp (-(angle n k : ℂ) * I) := by
  have hn' : (n : ℂ) ≠ 0 := by exact_mod_cast hn.ne'
  have e : ((2 * n - 1 - k : ℕ) : ℂ) = 2 * n - 1 - k := by
    rw [Nat.sub_sub, Nat.cast_sub (by omega)]; push_cast; ring
  rw [exp_eq_exp_iff_exists_int]
  refine ⟨1, ?_⟩
  simp only [angle]; push_cast; rw [e]; field_simp; ring

/-- Products of squared distances from the `n` points at angles `angle n k` on the circle of
radius `r`. -/
theorem prod_circle {n : ℕ} (hn : 0 < n) (x r : ℝ) :
    ∏ k ∈ range n, normSq (x - exp (angle n k * I) * r) = x ^ (2 * n) + r ^ (2 * n) := by
  have h := prod_roots (N := 2 * n) (by omega) x (exp ((angle n 0 + 0) * I) * r)
  have h2 : ∏ k ∈ range (2 * n), ((x : ℂ) - exp (angle n k * I) * r) = x ^ (2 * n) + r ^ (2 * n) := by
    rw [mul_pow, exp_angle_pow hn] at h
    simp only [mul_zero, zero_mul, exp_zero] at h
    rw [show (x : ℂ) ^ (2 * n) + r ^ (2 * n) = x ^ (2 * n) - -1 * r ^ (2 * n) by ring, ← h]
    refine prod_congr rfl fun k _ => ?_
    rw [← mul_assoc, ← angle_step hn, add_zero]
  have h3 : (∏ k ∈ range n, normSq (x - exp (angle n k * I) * r) : ℝ) =
      ((x ^ (2 * n) + r ^ (2 * n) : ℝ) : ℂ) := by
    push_cast
    rw [← h2, prod_range_pairs (2 * n), if_neg (by omega), mul_one, show 2 * n / 2 = n by omega]
    refine prod_congr rfl fun k hk => ?_
    rw [mem_range] at hk
    rw [angle_neg_symm hn (by omega), ← mul_conj]
    congr 1
    rw [map_sub, map_mul, ← exp_conj, conj_ofReal, conj_ofReal, map_mul, conj_I, conj_ofReal]
    ring_nf
  exact_mod_cast h3

/-- `T_N (x) - cos (N w)` as a product. -/
theorem prod_cos {N : ℕ} (hN : 0 < N) (x w : ℂ) :
    2 ^ (N - 1) * ∏ k ∈ range N, (x - cos (w + 2 * Real.pi * k / N)) =
      (Polynomial.Chebyshev.T ℂ N).eval x - cos (N * w) := by
  obtain ⟨θ, rfl⟩ := cos_surjective x
  rw [Polynomial.Chebyshev.T_complex_cos]
  set ξ := exp (2 * Real.pi * I / N) with hξ
  have hN' : (N : ℂ) ≠ 0 := by exact_mod_cast hN.ne'
  have hz : exp (θ * I) ≠ 0 := exp_ne_zero _
  have hfac : ∀ k ∈ range N, cos θ - cos (w + 2 * Real.pi * k / N) =
      (2 * exp (θ * I))⁻¹ * ((exp (θ * I) - ξ ^ k * exp (w * I)) *
        (exp (θ * I) - (ξ ^ k * exp (w * I))⁻¹)) := by
    intro k _
    have e : ξ ^ k * exp (w * I) = exp ((w + 2 * Real.pi * k / N) * I) := by
      rw [hξ, ← exp_nat_mul, ← exp_add]; congr 1; field_simp; ring
    rw [e]
    set a := w + 2 * Real.pi * k / N
    have ha : exp (a * I) ≠ 0 := exp_ne_zero _
    rw [cos, cos, show -θ * I = -(θ * I) by ring, show -a * I = -(a * I) by ring, exp_neg, exp_neg]
    field_simp; ring
  rw [prod_congr rfl hfac, prod_mul_distrib, prod_mul_distrib, prod_roots hN, prod_const, card_range]
  have hinv : ∏ k ∈ range N, (exp (θ * I) - (ξ ^ k * exp (w * I))⁻¹) =
      exp (θ * I) ^ N - (exp (w * I))⁻¹ ^ N := by
    have hinv2 := (isPrimitiveRoot_exp N hN.ne').inv
    have := congrArg (Polynomial.eval (exp (θ * I)))
      (X_pow_sub_C_eq_prod hinv2 hN (rfl : (exp (w * I))⁻¹ ^ N = (exp (w * I))⁻¹ ^ N))
    simp only [Polynomial.eval_sub, Polynomial.eval_pow, Polynomial.eval_X, Polynomial.eval_C,
      Polynomial.eval_prod] at this
    rw [this]
    refine prod_congr rfl fun k _ => ?_
    rw [mul_inv, inv_pow]
  rw [hinv]
  have e1 : exp (θ * I) ^ N = exp (N * θ * I) := by rw [← exp_nat_mul, mul_assoc]
  have e2 : exp (w * I) ^ N = exp (N * w * I) := by rw [← exp_nat_mul, mul_assoc]
  rw [cos, cos, inv_pow, inv_pow, mul_pow, e1, e2]
  have h1 : exp (N * w * I) ≠ 0 := exp_ne_zero _
  have h2 : exp (N * θ * I) ≠ 0 := exp_ne_zero _
  rw [show ((N : ℤ) : ℂ) = N by simp, show -(N * θ) * I = -(N * θ * I) by ring,
    show -(N * w) * I = -(N * w * I) by ring, exp_neg, exp_neg,
    show (2 : ℂ) ^ N = 2 * 2 ^ (N - 1) by rw [← pow_succ', Nat.sub_add_cancel hN]]
  field_simp; ring

open Polynomial.Chebyshev in
/-- Products of squared distances from the points `cos (angle n k - i u)`. -/
theorem prod_ellipse {n : ℕ} (hn : 0 < n) (x u : ℝ) :
    2 ^ (2 * n - 2) * ∏ k ∈ range n, normSq (x - cos (angle n k - u * I)) =
      (T ℝ n).eval x ^ 2 + Real.sinh (n * u) ^ 2 := by
  have hn' : (n : ℂ) ≠ 0 := by exact_mod_cast hn.ne'
  have h := prod_cos (N := 2 * n) (by omega) x (angle n 0 - u * I)
  have hfac : ∏ k ∈ range (2 * n), ((x : ℂ) - cos (angle n 0 - u * I + 2 * Real.pi * k / (2 * n : ℕ))) =
      ((∏ k ∈ range n, normSq (x - cos (angle n k - u * I)) : ℝ) : ℂ) := by
    rw [prod_range_pairs (2 * n), if_neg (by omega), mul_one, show 2 * n / 2 = n by omega, ofReal_prod]
    refine prod_congr rfl fun k hk => ?_
    rw [mem_range] at hk
    rw [← mul_conj, map_sub, conj_ofReal, ← cos_conj, map_sub, map_mul, conj_I, conj_ofReal, conj_ofReal]
    have e : ((2 * n - 1 - k : ℕ) : ℂ) = 2 * n - 1 - k := by
      rw [Nat.sub_sub, Nat.cast_sub (by omega)]; push_cast; ring
    have e1 : (angle n 0 - u * I + 2 * Real.pi * k / (2 * n : ℕ) : ℂ) = angle n k - u * I := by
      simp only [angle]; push_cast; field_simp; ring
    have e2 : (angle n 0 - u * I + 2 * Real.pi * (2 * n - 1 - k : ℕ) / (2 * n : ℕ) : ℂ) =
        -(angle n k - u * -I) + 2 * Real.pi := by
      rw [e]; simp only [angle]; push_cast; field_simp; ring
    rw [e1, e2, cos_add_two_pi, cos_neg]
  rw [hfac] at h
  have e3 : cos ((2 * n : ℕ) * (angle n 0 - u * I)) = ((-Real.cosh (2 * (n * u)) : ℝ) : ℂ) := by
    have : ((2 * n : ℕ) : ℂ) * (angle n 0 - u * I) = Real.pi - (2 * (n * u) : ℝ) * I := by
      simp only [angle]; push_cast; field_simp; ring
    rw [this, cos_pi_sub, cos_mul_I]; push_cast; ring
  have e4 : (T ℂ (2 * n : ℕ)).eval (x : ℂ) = ((2 * (T ℝ n).eval x ^ 2 - 1 : ℝ) : ℂ) := by
    obtain ⟨θ, hθ⟩ := cos_surjective (x : ℂ)
    push_cast
    rw [← hθ, T_complex_cos, T_complex_cos, ← cos_two_mul]
    congr 1; push_cast; ring
  rw [e3, e4] at h
  have h' : 2 ^ (2 * n - 1) * ∏ k ∈ range n, normSq (x - cos (angle n k - u * I)) =
      2 * (T ℝ n).eval x ^ 2 - 1 - -Real.cosh (2 * (n * u)) := by exact_mod_cast h
  rw [Real.cosh_two_mul, show 2 * n - 1 = 2 * n - 2 + 1 by omega, pow_succ] at h'
  have := Real.cosh_sq (n * u)
  rw [this] at h'
  linarith

open Polynomial.Chebyshev in
theorem prod_cheb_roots {n : ℕ} (hn : 0 < n) (x : ℝ) :
    2 ^ (2 * n - 2) * ∏ k ∈ range n, (x - Real.cos (angle n k)) ^ 2 = (T ℝ n).eval x ^ 2 := by
  have h := prod_ellipse hn x 0
  simp only [mul_zero, Real.sinh_zero, ne_eq, OfNat.ofNat_ne_zero, not_false_eq_true, zero_pow, add_zero] at h
  rw [← h]
  congr 1
  refine prod_congr rfl fun k _ => ?_
  rw [ofReal_zero, zero_mul, sub_zero, ← ofReal_cos, ← ofReal_sub, normSq_ofReal, sq]

end Iir
