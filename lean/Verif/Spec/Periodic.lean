import Mathlib.Data.Nat.Notation

/-! # Specification of C101: periodic signals -/

namespace Iir.Spec

/-- Every `q`-th sample is the same, from the first on. -/
def Periodic {α : Type} (q : ℕ) (x : ℕ → α) : Prop := ∀ n, x (n + q) = x n

/-- From some sample on the signal repeats itself exactly, with a multiple of `q` as period. -/
def BecomesPeriodic {α : Type} (q : ℕ) (y : ℕ → α) : Prop := ∃ N p, 0 < p ∧ ∀ n ≥ N, y (n + q * p) = y n

end Iir.Spec
