import Verif.Spec.Retune
import Verif.Spec.Client

/-! # Specification of C96: a pole filter that is set up again before every sample -/

namespace Iir.Spec
open Iir

variable {S : Type → Type} [StateType S XR]

/-- An object with template order `n` whose `setup` is called with the arguments `d k` before the sample `x k` is filtered, for every
`k`, returns the samples `y k`. -/
def RetunedPoleReturns (n : ℕ) (f : PoleFilter S XR) (d : ℕ → Call XR) (x y : ℕ → ℝ) : Prop :=
  ∃ g : ℕ → PoleFilter S XR, g 0 = f ∧ ∀ k,
    (do PoleFilter.setup n (d k); PoleFilter.filter (T := XR) (XR.fin (x k)) : Exec (PoleFilter S XR) XR) (g k) =
      (.ok (XR.fin (y k)), g (k + 1))

/-- All delay lines are as those of a new object. -/
def EmptyLines (f : PoleFilter S XR) : Prop := ∀ s ∈ f.states, s = StateType.init

end Iir.Spec
