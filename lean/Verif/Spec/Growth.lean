import Verif.Spec.Signal

/-! # Unbounded outputs -/

namespace Iir.Spec

/-- The unit impulse `1, 0, 0, …`. -/
def impulse (n : ℕ) : ℝ := if n = 0 then 1 else 0

/-- Every other sample with the opposite sign: `x 0, -x 1, x 2, -x 3, …`. -/
def alternate (x : ℕ → ℝ) (n : ℕ) : ℝ := (-1) ^ n * x n

/-- No bound holds for all samples. -/
def Unbounded (y : ℕ → ℝ) : Prop := ∀ B, ∃ n, B < |y n|

/-- `p` is a root of the denominator of a section of the chain and not a root of any of the numerators. -/
structure UncancelledPole (ks : List Coeffs) (p : ℂ) : Prop where
  pole : ∃ k ∈ ks, (k.a0 : ℂ) * p ^ 2 + k.a1 * p + k.a2 = 0
  zero : ∀ k ∈ ks, (k.b0 : ℂ) * p ^ 2 + k.b1 * p + k.b2 ≠ 0

end Iir.Spec
