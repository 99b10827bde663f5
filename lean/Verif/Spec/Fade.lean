import Verif.Spec.Rounding

/-! # Signals that settle below a level -/

namespace Iir.Spec

/-- In the long run the signal does not exceed `B`: for every `ε > 0` it is below `B + ε` from some time on. -/
def CalmsTo (z : ℕ → ℝ) (B : ℝ) : Prop := ∀ ε > 0, ∃ N, ∀ n ≥ N, |z n| ≤ B + ε

end Iir.Spec
