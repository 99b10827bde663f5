import Verif.Spec.Growth

/-! # Specification of C98: how loud the output can get -/

namespace Iir.Spec

/-- A signal of full scale: all samples are `M` or `-M`. -/
def FullScale (M : ℝ) (x : ℕ → ℝ) : Prop := ∀ n, x n = M ∨ x n = -M

/-- Samples of absolute value at most `M` are answered by samples of absolute value at most `P * M`, and no number less
than `P` will do, not even for signals of full scale. -/
structure PeakGain (run : (ℕ → ℝ) → (ℕ → ℝ) → Prop) (P : ℝ) : Prop where
  bound : ∀ x y, run x y → ∀ M, (∀ n, |x n| ≤ M) → ∀ n, |y n| ≤ P * M
  sharp : ∀ B < P, ∀ M > 0, ∃ x y n, FullScale M x ∧ run x y ∧ B * M < |y n|

/-- Whatever the scale, some signal of full scale is answered by a sample beyond `A` times full scale. -/
def Overshoots (A : ℝ) (run : (ℕ → ℝ) → (ℕ → ℝ) → Prop) : Prop :=
  ∀ M > 0, ∃ x y n, FullScale M x ∧ run x y ∧ A * M < |y n|

end Iir.Spec
