import Verif.Spec.Signal

/-! # Arithmetic with rounding errors

The textbook model of floating point arithmetic: sums, differences and products of finite numbers are correct up to a
relative error `u` and an absolute error `η` (for results near zero), as long as they do not exceed the largest number
`Ω`.  IEEE double with rounding to nearest: `u = 2⁻⁵³`, `η = 2⁻¹⁰⁷⁵`, `Ω` the largest double. -/

namespace Iir.Spec
open Iir FArith

/-- `R` computes sums, differences and products with relative error `u` and absolute error `η` up to magnitude `Ω`. -/
structure Rounds (R : Type) [FArith R] (u η Ω : ℝ) where
  /-- the number is finite -/
  Fin : R → Prop
  /-- the real number it stands for -/
  val : R → ℝ
  u_nonneg : 0 ≤ u
  η_nonneg : 0 ≤ η
  zero : Fin (0 : R) ∧ val (0 : R) = 0
  add : ∀ x y, Fin x → Fin y → |val x + val y| ≤ Ω →
    Fin (x + y) ∧ |val (x + y) - (val x + val y)| ≤ u * |val x + val y| + η
  sub : ∀ x y, Fin x → Fin y → |val x - val y| ≤ Ω →
    Fin (x - y) ∧ |val (x - y) - (val x - val y)| ≤ u * |val x - val y| + η
  mul : ∀ x y, Fin x → Fin y → |val x * val y| ≤ Ω →
    Fin (x * y) ∧ |val (x * y) - val x * val y| ≤ u * |val x * val y| + η

variable {R : Type} [FArith R] {u η Ω : ℝ}

/-- The five coefficients `filter` uses are finite; their values are those of `k` (with `a0 = 1`: the stored coefficients
are normalised). -/
structure Rounds.Values (r : Rounds R u η Ω) (b : Biquad R) (k : Coeffs) : Prop where
  a0 : k.a0 = 1
  a1 : r.Fin b.a1 ∧ r.val b.a1 = k.a1
  a2 : r.Fin b.a2 ∧ r.val b.a2 = k.a2
  b0 : r.Fin b.b0 ∧ r.val b.b0 = k.b0
  b1 : r.Fin b.b1 ∧ r.val b.b1 = k.b1
  b2 : r.Fin b.b2 ∧ r.val b.b2 = k.b2

/-- The input consists of finite numbers of magnitude at most `X`. -/
def Rounds.Input (r : Rounds R u η Ω) (X : ℝ) (x : ℕ → R) : Prop := ∀ n, r.Fin (x n) ∧ |r.val (x n)| ≤ X

/-- The output is finite and within `D` of the signal `y`, at all times. -/
def Rounds.Within (r : Rounds R u η Ω) (D : ℝ) (y' : ℕ → R) (y : ℕ → ℝ) : Prop :=
  ∀ n, r.Fin (y' n) ∧ |r.val (y' n) - y n| ≤ D

/-- Feeding `x 0, x 1, …` to an object in state `f` returns `y 0, y 1, …`. -/
def Returns {σ : Type} (flt : R → Exec σ R) (f : σ) (x y : ℕ → R) : Prop :=
  ∀ N, (feed flt ((List.range N).map x) f).1 = .ok ((List.range N).map y)

/-- `p` and `q` are the poles of the section and lie inside the unit circle. -/
structure Coeffs.StablePoles (k : Coeffs) (p q : ℂ) : Prop where
  sum : (k.a1 : ℂ) = -(p + q)
  prod : (k.a2 : ℂ) = p * q
  p_lt : ‖p‖ < 1
  q_lt : ‖q‖ < 1

/-- What a section amplifies an error by at most: `1 / ((1 - |p|) (1 - |q|))`. -/
noncomputable def poleGain (p q : ℂ) : ℝ := 1 / ((1 - ‖p‖) * (1 - ‖q‖))

/-- Sum of the magnitudes of the feed forward coefficients. -/
def Coeffs.forward (k : Coeffs) : ℝ := |k.b0| + |k.b1| + |k.b2|

/-- Sum of the magnitudes of the feed back coefficients. -/
def Coeffs.back (k : Coeffs) : ℝ := |k.a1| + |k.a2|

/-- Relative errors of `u` are small enough for the section: `18 u (1 + (A + B) / ((1 - |p|) (1 - |q|))) ≤ 1`. -/
def Coeffs.Precise (u : ℝ) (k : Coeffs) : Prop :=
  ∀ p q, k.StablePoles p q → 18 * u * (1 + (k.back + k.forward) * poleGain p q) ≤ 1

end Iir.Spec
