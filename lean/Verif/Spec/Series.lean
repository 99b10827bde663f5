import Mathlib.Data.Real.Basic

/-! # Specification of C100: filters in series -/

namespace Iir.Spec

/-- One thing after the other: the samples `x` are fed to the first, its output to the second, and so on; `y` comes out of
the last. -/
def Chained {α : Type} : List ((ℕ → α) → (ℕ → α) → Prop) → (ℕ → α) → (ℕ → α) → Prop
  | [], x, y => x = y
  | r :: rs, x, z => ∃ y, r x y ∧ Chained rs y z

end Iir.Spec
