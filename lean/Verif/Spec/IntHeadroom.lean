import Verif.Spec.Client
import Verif.Props.SampleAccuracy

/-! # Specification of C99: integer samples and their range -/

namespace Iir.Spec

/-- How loud the integer samples given to an object may be, in terms of a peak gain `P` and a relative error `d`: if `P + d`
times their greatest absolute value is in range, then every answer is defined and no louder than that; if `P - d` times some
`M` is out of range, then some samples `M` and `-M` are answered by undefined behaviour. -/
structure IntRange {lo hi : ℤ} {σ : Type} (flt : BoundedInt lo hi → Exec σ (BoundedInt lo hi)) (f : σ) (P d : ℝ) : Prop where
  safe : ∀ (M : ℤ) (x : ℕ → BoundedInt lo hi), 1 ≤ M → M < 2 ^ 53 → (∀ i, |(x i).1| ≤ M) →
    (P + d) * M < hi + 1 → (P + d) * M < 1 - lo → ∃ z, Replies flt f x z ∧ ∀ i, |((z i).1 : ℝ)| ≤ (P + d) * M
  overflow : ∀ M : ℤ, 1 ≤ M → M ≤ hi → M ≤ -lo → hi + 1 < (P - d) * M → 1 - lo < (P - d) * M →
    ∃ (x : ℕ → BoundedInt lo hi) (n : ℕ), (∀ i, (x i).1 = M ∨ (x i).1 = -M) ∧
      (feed flt ((List.range n).map x) f).1 = .ub .castOutOfRange

end Iir.Spec
