import Verif.Spec.Designs
import Verif.Spec.Growth

/-! # Band filters with a negative width -/

namespace Iir.Spec
open Iir

variable {S : Type → Type} [StateType S XR]

/-- The width is negative, the edges `fc ± fw / 2` are in the range to which the code cuts them. -/
structure ReversedBand (fc fw : ℝ) : Prop where
  neg : fw < 0
  lo : 1e-8 / (2 * Real.pi) ≤ fc + fw / 2
  hi : fc - fw / 2 ≤ 1 / 2 - 1e-8 / (2 * Real.pi)

/-- All poles of the section are outside the unit circle. -/
def OutsideSection (b : Biquad XR) : Prop :=
  ∃ k, HasCoeffs b k ∧ ∀ z : ℂ, k.a0 * z ^ 2 + k.a1 * z + k.a2 = 0 → 1 < ‖z‖

/-- The object has stages, and the poles of all of them are outside the unit circle. -/
structure OutsideFilter (f : PoleFilter S XR) : Prop where
  stages : 1 ≤ f.getNumStages
  pole : ∀ b ∈ f.base.cascade.stages.take f.getNumStages, OutsideSection b

/-- After `reset ()` the output for a unit impulse is finite and unbounded. -/
def Diverges (f : PoleFilter S XR) : Prop :=
  ∃ y, Produces (PoleFilter.filter (T := XR)) (PoleFilter.reset f).2 impulse y ∧ Unbounded y

end Iir.Spec
