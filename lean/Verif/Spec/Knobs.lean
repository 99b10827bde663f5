import Verif.Spec.Designs
import Verif.Props.RBJ

/-! # Specification of C97: which way a parameter moves the gain -/

namespace Iir.Spec
open Iir

/-- Two calls, on objects with template orders `n` and `n'`: whatever objects they are made on, afterwards the
squares of the gains at `fr` are `v` and `v'`, and `rel v v'`. -/
def Compare (S : Type → Type) [StateType S XR] (T : Type) [Sample T XR] (rel : ℝ → ℝ → Prop)
    (n : ℕ) (call : Call XR) (n' : ℕ) (call' : Call XR) (fr : ℝ) : Prop :=
  ∃ v v', AfterSetup S T n call (GainSq · fr v) ∧ AfterSetup S T n' call' (GainSq · fr v') ∧ rel v v'

/-- The gain after the second call is greater. -/
def Louder (S : Type → Type) [StateType S XR] (T : Type) [Sample T XR] := Compare S T (· < ·)
/-- The gain after the second call is less. -/
def Quieter (S : Type → Type) [StateType S XR] (T : Type) [Sample T XR] := Compare S T (· > ·)
/-- The gain after the second call is not greater. -/
def NotLouder (S : Type → Type) [StateType S XR] (T : Type) [Sample T XR] := Compare S T (· ≥ ·)

/-- The same for RBJ filters: the gain of `d'` at `fr` is greater than that of `d`. -/
def RBJLouder (d d' : RBJ.Design ℝ) (fr : ℝ) : Prop :=
  ∃ v v', AfterRBJ (finRBJ d) (Gain · fr v) ∧ AfterRBJ (finRBJ d') (Gain · fr v') ∧ v < v'

end Iir.Spec
