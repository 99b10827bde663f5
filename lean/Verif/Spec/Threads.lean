import Verif.Model.Attach
import Verif.Spec.Attach

/-! # Specification of C88: several threads

The library has no synchronisation and no variables outside objects, so a program with threads is described by the order in
which the calls of the threads happen to be executed: a list of statements, each with the thread it belongs to. -/

namespace Iir.Spec
open Iir

variable {R T : Type}

/-- Member functions that only read: `response`, `getPoleZeros` and `getNumStages` (`const`, iir/Cascade.h:70,89,94,
iir/Biquad.h:61, iir/PoleFilter.h:75) and `operator[]` (not declared `const`, iir/Cascade.h:77). -/
def Do.Reads : Do T R → Prop
  | .response _ => True
  | .poleZeros => True
  | .numStages => True
  | .stage _ => True
  | _ => False

/-- What thread `t` may do when `owner` says which objects belong to which thread (`none`: shared by all): anything except
construction and destruction with its own objects, and member functions that only read on shared objects. -/
def Stmt.Allowed (owner : Nat → Option Nat) (t : Nat) : Stmt T R → Prop
  | .act k (.attach j) => owner k = some t ∧ owner j = some t
  | .act k a => owner k = some t ∨ owner k = none ∧ Do.Reads a
  | .assign k j => owner k = some t ∧ owner j = some t
  | .destroy k => owner k = some t
  | _ => False

/-- No object points into an object of another owner. -/
def Separated (owner : Nat → Option Nat) (m : Mem R) : Prop :=
  ∀ k x p, m.obj k = some x → x.PointsTo p → owner p = owner k

/-- The statements of thread `t`, in order. -/
def threadOf (t : Nat) (p : List (Nat × Stmt T R)) : List (Stmt T R) :=
  p.filterMap fun s => if s.1 = t then some s.2 else none

/-- The outcomes of these statements, picked out of the outcomes of all. -/
def outcomesOf (t : Nat) (p : List (Nat × Stmt T R)) (outs : List (Res (Obs T R))) : List (Res (Obs T R)) :=
  (p.zip outs).filterMap fun s => if s.1.1 = t then some s.2 else none

end Iir.Spec
