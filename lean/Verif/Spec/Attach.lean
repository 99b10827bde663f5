import Verif.Model.Attach

/-! # Specification of C83: who points to whom -/

namespace Iir.Spec
open Iir

variable {R T : Type}

/-- The object holds a pointer into object `p`. -/
def _root_.Iir.Thing.PointsTo (x : Thing R) (p : Nat) : Prop :=
  match x with
  | .pole o => o.stagePtr = p ∨ o.digitalPtr = p ∨ o.analogPtr = p
  | .cascade c => c.ptr = some p
  | _ => False

/-- Pole filters: the objects whose copies point into the original. -/
def _root_.Iir.Thing.IsPole : Thing R → Prop
  | .pole _ => True
  | _ => False

/-- Object `i` points to nothing but itself, and no other object points to it. -/
def Private (m : Mem R) (i : Nat) : Prop :=
  ∀ k x p, m.obj k = some x → x.PointsTo p → (k = i ↔ p = i)

/-- A statement that neither assigns to nor destroys object `i`, copies it only if it is no pole filter, does not attach
it to another object, nor another object to it. -/
def Stmt.Leaves (i : Nat) (pole : Prop) : Stmt T R → Prop
  | .copy k => pole → k ≠ i
  | .assign k _ => k ≠ i
  | .destroy k => k ≠ i
  | .act k (.attach j) => (k = i ↔ j = i)
  | _ => True

/-- The member functions the program calls on object `i`, in order. -/
def callsOn (i : Nat) (p : List (Stmt T R)) : List (Do T R) :=
  p.filterMap fun
    | .act k a => if k = i then some a else none
    | _ => none

/-- The outcomes of these calls, picked out of the outcomes of all statements. -/
def resultsOn (i : Nat) (p : List (Stmt T R)) (outs : List (Res (Obs T R))) : List (Res (Obs T R)) :=
  (p.zip outs).filterMap fun
    | (.act k _, r) => if k = i then some r else none
    | _ => none

end Iir.Spec
