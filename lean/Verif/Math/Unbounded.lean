import Verif.Spec.Growth
import Mathlib.RingTheory.PowerSeries.Basic
import Mathlib.RingTheory.PowerSeries.NoZeroDivisors
import Mathlib.Analysis.SpecificLimits.Normed
import Mathlib.Analysis.Normed.Operator.BanachSteinhaus
import Mathlib.Topology.ContinuousMap.Bounded.Normed
import Mathlib.Tactic.Ring
import Mathlib.Tactic.LinearCombination

/-! # Impulse responses of unstable chains are unbounded

Generating functions: the sections give a formal power series identity `∏ den · Y = ∏ num`; if `y` is bounded both sides
converge inside the unit circle. -/

namespace Iir
open Spec

noncomputable section

/-- generating function of a signal -/
def gen (y : ℕ → ℝ) : PowerSeries ℂ := PowerSeries.mk fun n => (y n : ℂ)

/-- `c0 + c1 X + c2 X²` -/
def quadPoly (c0 c1 c2 : ℝ) : Polynomial ℂ :=
  Polynomial.C (c0 : ℂ) + Polynomial.C (c1 : ℂ) * Polynomial.X + Polynomial.C (c2 : ℂ) * Polynomial.X ^ 2

theorem quadPoly_eval (c0 c1 c2 : ℝ) (q : ℂ) : (quadPoly c0 c1 c2).eval q = c0 + c1 * q + c2 * q ^ 2 := by
  simp [quadPoly]

theorem coeff_quad (c0 c1 c2 : ℝ) (y : ℕ → ℝ) (n : ℕ) :
    PowerSeries.coeff n ((quadPoly c0 c1 c2 : PowerSeries ℂ) * gen y) =
      ((c0 * y n + c1 * delayed 1 y n + c2 * delayed 2 y n : ℝ) : ℂ) := by
  have h1 : (quadPoly c0 c1 c2 : PowerSeries ℂ) * gen y =
      PowerSeries.C (c0 : ℂ) * gen y + PowerSeries.C (c1 : ℂ) * (PowerSeries.X * gen y) +
        PowerSeries.C (c2 : ℂ) * (PowerSeries.X * (PowerSeries.X * gen y)) := by
    simp only [quadPoly, Polynomial.coe_add, Polynomial.coe_mul, Polynomial.coe_C, Polynomial.coe_X, Polynomial.coe_pow]
    ring
  rw [h1]
  simp only [map_add, PowerSeries.coeff_C_mul]
  match n with
  | 0 => simp [gen, delayed, PowerSeries.coeff_zero_X_mul]
  | 1 => simp [gen, delayed, PowerSeries.coeff_succ_X_mul]
  | n + 2 => simp [gen, delayed, PowerSeries.coeff_succ_X_mul]

/-- A section in terms of generating functions. -/
theorem gen_section {k : Coeffs} (h0 : k.a0 ≠ 0) {x y : ℕ → ℝ} (h : k.DiffEq x y) :
    (quadPoly k.a0 k.a1 k.a2 : PowerSeries ℂ) * gen y = (quadPoly k.b0 k.b1 k.b2 : PowerSeries ℂ) * gen x := by
  ext n
  rw [coeff_quad, coeff_quad]
  congr 1
  have := h n
  rw [eq_div_iff h0] at this
  linear_combination this

/-- product of the denominators / numerators of a chain -/
def denPoly (ks : List Coeffs) : Polynomial ℂ := (ks.map fun k => quadPoly k.a0 k.a1 k.a2).prod
def numPoly (ks : List Coeffs) : Polynomial ℂ := (ks.map fun k => quadPoly k.b0 k.b1 k.b2).prod

theorem gen_chain {ks : List Coeffs} (h0 : ∀ k ∈ ks, k.a0 ≠ 0) {x y : ℕ → ℝ} (h : DiffChain ks x y) :
    (denPoly ks : PowerSeries ℂ) * gen y = (numPoly ks : PowerSeries ℂ) * gen x := by
  induction h with
  | nil => simp [denPoly, numPoly]
  | @cons k ks x y z h1 _ ih =>
    have e1 := gen_section (h0 k List.mem_cons_self) h1
    have e2 := ih fun k hk => h0 k (List.mem_cons_of_mem _ hk)
    have d : (denPoly (k :: ks) : PowerSeries ℂ) = (quadPoly k.a0 k.a1 k.a2 : PowerSeries ℂ) * denPoly ks := by
      simp [denPoly]
    have m : (numPoly (k :: ks) : PowerSeries ℂ) = (quadPoly k.b0 k.b1 k.b2 : PowerSeries ℂ) * numPoly ks := by
      simp [numPoly]
    rw [d, m]
    linear_combination (quadPoly k.a0 k.a1 k.a2 : PowerSeries ℂ) * e2 + (numPoly ks : PowerSeries ℂ) * e1

theorem hasSum_congr' {f g : ℕ → ℂ} {s : ℂ} (h : HasSum f s) (e : ∀ n, g n = f n) : HasSum g s := by
  rwa [show g = f from funext e]

/-- A polynomial multiple of a convergent series. -/
theorem hasSum_poly (P : Polynomial ℂ) {F : PowerSeries ℂ} {q s : ℂ}
    (h : HasSum (fun n => PowerSeries.coeff n F * q ^ n) s) :
    HasSum (fun n => PowerSeries.coeff n ((P : PowerSeries ℂ) * F) * q ^ n) (P.eval q * s) := by
  have hX : ∀ {G : PowerSeries ℂ} {t : ℂ}, HasSum (fun n => PowerSeries.coeff n G * q ^ n) t →
      HasSum (fun n => PowerSeries.coeff n (PowerSeries.X * G) * q ^ n) (q * t) := by
    intro G t h
    rw [← hasSum_nat_add_iff' 1]
    simp only [PowerSeries.coeff_succ_X_mul, Finset.sum_range_one, PowerSeries.coeff_zero_X_mul, zero_mul, sub_zero]
    refine hasSum_congr' (h.mul_left q) fun n => ?_
    ring
  induction P using Polynomial.induction_on' with
  | add P Q hP hQ =>
    simp only [Polynomial.coe_add, add_mul, map_add, Polynomial.eval_add]
    exact hP.add hQ
  | monomial k c =>
    have : ∀ k, HasSum (fun n => PowerSeries.coeff n (PowerSeries.X ^ k * F) * q ^ n) (q ^ k * s) := by
      intro k
      induction k with
      | zero => simpa using h
      | succ k ih =>
        have := hX ih
        rw [show (PowerSeries.X : PowerSeries ℂ) ^ (k + 1) * F = PowerSeries.X * (PowerSeries.X ^ k * F) by ring,
          show q ^ (k + 1) * s = q * (q ^ k * s) by ring]
        exact this
    have e : ((Polynomial.monomial k c : Polynomial ℂ) : PowerSeries ℂ) * F =
        PowerSeries.C c * (PowerSeries.X ^ k * F) := by
      rw [← Polynomial.C_mul_X_pow_eq_monomial]
      simp only [Polynomial.coe_mul, Polynomial.coe_C, Polynomial.coe_pow, Polynomial.coe_X]
      ring
    simp only [e, PowerSeries.coeff_C_mul, Polynomial.eval_monomial]
    rw [mul_assoc c]
    refine hasSum_congr' ((this k).mul_left c) fun n => ?_
    ring

theorem gen_impulse : gen impulse = 1 := by
  ext n
  by_cases hn : n = 0 <;> simp [gen, impulse, PowerSeries.coeff_one, hn]

/-- The impulse response of a chain does not converge at a pole that no zero cancels. -/
theorem chain_not_summable {ks : List Coeffs} (h0 : ∀ k ∈ ks, k.a0 ≠ 0) {y : ℕ → ℝ} (h : DiffChain ks impulse y) {p : ℂ}
    (hp0 : p ≠ 0) (hpole : UncancelledPole ks p) : ¬ Summable fun n => (y n : ℂ) * p⁻¹ ^ n := by
  obtain ⟨hden, hnum⟩ := hpole
  intro hs
  have hsum : Summable fun n => PowerSeries.coeff n (gen y) * p⁻¹ ^ n := by simpa [gen] using hs
  have h1 := hasSum_poly (denPoly ks) hsum.hasSum
  rw [gen_chain h0 h, gen_impulse] at h1
  have h2 : HasSum (fun n => PowerSeries.coeff n (1 : PowerSeries ℂ) * p⁻¹ ^ n) 1 := by
    refine hasSum_congr' (hasSum_ite_eq (0 : ℕ) (1 : ℂ)) fun n => ?_
    by_cases hn : n = 0 <;> simp [PowerSeries.coeff_one, hn]
  have h3 := h1.unique (hasSum_poly (numPoly ks) h2)
  have key : ∀ c0 c1 c2 : ℝ, (quadPoly c0 c1 c2).eval p⁻¹ = 0 ↔ (c0 : ℂ) * p ^ 2 + c1 * p + c2 = 0 := by
    intro c0 c1 c2
    rw [quadPoly_eval]
    have : (c0 : ℂ) * p ^ 2 + c1 * p + c2 = p ^ 2 * (c0 + c1 * p⁻¹ + c2 * p⁻¹ ^ 2) := by field_simp
    rw [this]
    simp [hp0]
  have hd : (denPoly ks).eval p⁻¹ = 0 := by
    obtain ⟨k, hk, hk0⟩ := hden
    rw [denPoly, Polynomial.eval_list_prod, List.prod_eq_zero_iff, List.map_map, List.mem_map]
    exact ⟨k, hk, (key _ _ _).2 hk0⟩
  have hn : (numPoly ks).eval p⁻¹ ≠ 0 := by
    rw [numPoly, Polynomial.eval_list_prod, Ne, List.prod_eq_zero_iff, List.map_map, List.mem_map]
    rintro ⟨k, hk, hk0⟩
    exact hnum k hk ((key _ _ _).1 hk0)
  rw [hd, zero_mul, mul_one] at h3
  exact hn h3.symm

/-- A chain with a pole outside the unit circle that no zero cancels has an unbounded impulse response. -/
theorem chain_unbounded {ks : List Coeffs} (h0 : ∀ k ∈ ks, k.a0 ≠ 0) {y : ℕ → ℝ} (h : DiffChain ks impulse y) {p : ℂ}
    (hp : 1 < ‖p‖) (hpole : UncancelledPole ks p) : Unbounded y := by
  intro B
  by_contra hB
  push Not at hB
  have hp0 : p ≠ 0 := fun e => by rw [e, norm_zero] at hp; linarith
  have hq : ‖p⁻¹‖ < 1 := by rw [norm_inv]; exact inv_lt_one_of_one_lt₀ hp
  refine chain_not_summable h0 h hp0 hpole (Summable.of_norm_bounded (g := fun n => B * ‖p⁻¹‖ ^ n)
    ((summable_geometric_of_lt_one (norm_nonneg _) hq).mul_left B) fun n => ?_)
  rw [norm_mul, norm_pow]
  refine mul_le_mul_of_nonneg_right ?_ (by positivity)
  simpa using hB n

/-! ### Bounded inputs -/

/-- The output is the convolution of the input with the impulse response. -/
theorem chain_conv {ks : List Coeffs} (h0 : ∀ k ∈ ks, k.a0 ≠ 0) {h x y : ℕ → ℝ} (hh : DiffChain ks impulse h)
    (hy : DiffChain ks x y) (n : ℕ) : y n = ∑ k ∈ Finset.range (n + 1), h k * x (n - k) := by
  have hd : (denPoly ks : PowerSeries ℂ) ≠ 0 := by
    intro e
    have e1 := congrArg (PowerSeries.coeff 0) e
    rw [Polynomial.coeff_coe, map_zero, Polynomial.coeff_zero_eq_eval_zero, denPoly, Polynomial.eval_list_prod,
      List.prod_eq_zero_iff, List.map_map, List.mem_map] at e1
    obtain ⟨k, hk, e2⟩ := e1
    simp [quadPoly_eval, h0 k hk] at e2
  have e1 := gen_chain h0 hy
  have e2 := gen_chain h0 hh
  rw [gen_impulse, mul_one] at e2
  have e3 : gen y = gen h * gen x := by
    apply mul_left_cancel₀ hd
    rw [e1, ← e2, mul_assoc]
  have e4 := congrArg (PowerSeries.coeff n) e3
  rw [PowerSeries.coeff_mul, Finset.Nat.sum_antidiagonal_eq_sum_range_succ_mk] at e4
  simp only [gen, PowerSeries.coeff_mk] at e4
  exact_mod_cast e4

/-- convolution with `h` up to time `n`, on bounded signals -/
def convCLM (h : ℕ → ℝ) (n : ℕ) : BoundedContinuousFunction ℕ ℝ →L[ℝ] ℝ :=
  ∑ k ∈ Finset.range (n + 1), h k • BoundedContinuousFunction.evalCLM ℝ (n - k)

theorem convCLM_apply (h : ℕ → ℝ) (n : ℕ) (x : BoundedContinuousFunction ℕ ℝ) :
    convCLM h n x = ∑ k ∈ Finset.range (n + 1), h k * x (n - k) := by
  simp [convCLM]

theorem convCLM_norm (h : ℕ → ℝ) (n : ℕ) : ∑ k ∈ Finset.range (n + 1), |h k| ≤ ‖convCLM h n‖ := by
  have hb : ∀ j, ‖(fun j : ℕ => ((SignType.sign (h (n - j)) : SignType) : ℝ)) j‖ ≤ 1 := by
    intro j
    rcases lt_trichotomy (h (n - j)) 0 with e | e | e <;> simp [e]
  let x : BoundedContinuousFunction ℕ ℝ := BoundedContinuousFunction.ofNormedAddCommGroupDiscrete
    (fun j : ℕ => ((SignType.sign (h (n - j)) : SignType) : ℝ)) 1 hb
  have h1 : ‖x‖ ≤ 1 := BoundedContinuousFunction.norm_le zero_le_one |>.2 hb
  have h2 : convCLM h n x = ∑ k ∈ Finset.range (n + 1), |h k| := by
    rw [convCLM_apply]
    refine Finset.sum_congr rfl fun k hk => ?_
    have : n - (n - k) = k := by have := Finset.mem_range.1 hk; omega
    show h k * ((SignType.sign (h (n - (n - k))) : SignType) : ℝ) = _
    rw [this, mul_comm, sign_mul_self]
  calc _ = convCLM h n x := h2.symm
    _ ≤ ‖convCLM h n x‖ := le_abs_self _
    _ ≤ ‖convCLM h n‖ * ‖x‖ := (convCLM h n).le_opNorm x
    _ ≤ ‖convCLM h n‖ * 1 := by gcongr
    _ = _ := mul_one _

/-- If an impulse response is not absolutely summable, some bounded input makes the output unbounded. -/
theorem exists_resonance {h : ℕ → ℝ} (hs : ¬ Summable fun n => |h n|) :
    ∃ x : ℕ → ℝ, (∀ n, |x n| ≤ 1) ∧ Unbounded fun n => ∑ k ∈ Finset.range (n + 1), h k * x (n - k) := by
  by_contra hcon
  push Not at hcon
  have hpt : ∀ x : BoundedContinuousFunction ℕ ℝ, ∃ C, ∀ n, ‖convCLM h n x‖ ≤ C := by
    intro x
    have h1 := hcon (fun n => x n / (‖x‖ + 1)) fun n => by
      have := x.norm_coe_le_norm n
      rw [Real.norm_eq_abs] at this
      rw [abs_div, abs_of_pos (by positivity : 0 < ‖x‖ + 1), div_le_one (by positivity)]
      linarith
    unfold Unbounded at h1
    push Not at h1
    obtain ⟨B, hB⟩ := h1
    refine ⟨B * (‖x‖ + 1), fun n => ?_⟩
    have h2 : convCLM h n x = (∑ k ∈ Finset.range (n + 1), h k * (x (n - k) / (‖x‖ + 1))) * (‖x‖ + 1) := by
      rw [convCLM_apply, Finset.sum_mul]
      refine Finset.sum_congr rfl fun k _ => ?_
      have : ‖x‖ + 1 ≠ 0 := by positivity
      field_simp
    rw [h2, Real.norm_eq_abs, abs_mul, abs_of_pos (by positivity : 0 < ‖x‖ + 1)]
    exact mul_le_mul_of_nonneg_right (hB n) (by positivity)
  obtain ⟨C, hC⟩ := banach_steinhaus hpt
  refine hs (summable_of_sum_range_le (c := C) (fun n => abs_nonneg _) fun n => ?_)
  refine le_trans ?_ ((convCLM_norm h n).trans (hC n))
  exact Finset.sum_le_sum_of_subset_of_nonneg (Finset.range_mono (Nat.le_succ n)) fun _ _ _ => abs_nonneg _

/-- A chain with an uncancelled pole on or outside the unit circle: some bounded input makes the output unbounded. -/
theorem chain_resonance {ks : List Coeffs} (h0 : ∀ k ∈ ks, k.a0 ≠ 0) {h : ℕ → ℝ} (hh : DiffChain ks impulse h) {p : ℂ}
    (hp : 1 ≤ ‖p‖) (hpole : UncancelledPole ks p) :
    ∃ x : ℕ → ℝ, (∀ n, |x n| ≤ 1) ∧ ∀ y, DiffChain ks x y → Unbounded y := by
  have hp0 : p ≠ 0 := fun e => by rw [e, norm_zero] at hp; linarith
  have hq : ‖p⁻¹‖ ≤ 1 := by rw [norm_inv]; exact inv_le_one_of_one_le₀ hp
  have hs : ¬ Summable fun n => |h n| := by
    intro hs
    refine chain_not_summable h0 hh hp0 hpole (Summable.of_norm_bounded hs fun n => ?_)
    rw [norm_mul, norm_pow, Complex.norm_real, Real.norm_eq_abs]
    exact mul_le_of_le_one_right (abs_nonneg _) (pow_le_one₀ (norm_nonneg _) hq)
  obtain ⟨x, h1, h2⟩ := exists_resonance hs
  refine ⟨x, h1, fun y hy => ?_⟩
  rw [show y = _ from funext fun n => chain_conv h0 hh hy n]
  exact h2

end
end Iir
