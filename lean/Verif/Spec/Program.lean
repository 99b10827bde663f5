import Verif.Model.Heap

/-! # Observing one object of a program -/

namespace Iir.Spec
open Iir

variable {R : Type} [FArith R] {S : Type → Type} [StateType S R] {T : Type} [Sample T R]

/-- The member functions the program calls on object `i`, in order. -/
def actsOn (i : Nat) (cmds : List (Cmd T R)) : List (Act T R) :=
  cmds.filterMap fun
    | .act k a => if k = i then some a else none
    | _ => none

/-- The outcomes of these calls, picked out of the outcomes of all statements. -/
def outcomesOn (i : Nat) (cmds : List (Cmd T R)) (outs : List (Res (Obs T R))) : List (Res (Obs T R)) :=
  (cmds.zip outs).filterMap fun
    | (.act k _, r) => if k = i then some r else none
    | _ => none

/-- Calling member functions on a single object. -/
def alone {X : Type} (exec : X → Act T R → Res (Obs T R) × X) : List (Act T R) → X → List (Res (Obs T R)) × X
  | [], x => ([], x)
  | a :: as, x => ((exec x a).1 :: (alone exec as (exec x a).2).1, (alone exec as (exec x a).2).2)

/-- Object `i` is neither assigned to nor destroyed. -/
def Cmd.keeps (i : Nat) : Cmd T R → Prop
  | .assign k _ => k ≠ i
  | .destroy k => k ≠ i
  | _ => True

/-- `filter` and `reset`. -/
def Act.isProcessing : Act T R → Bool
  | .filter _ => true
  | .reset => true
  | _ => false

/-- Calls that configure an object. -/
def Act.isConfig : Act T R → Bool
  | .setup _ => true
  | .scale _ => true
  | _ => false

/-- The member functions of a single pole filter object (`Filters.lean`). -/
def poleAct (c : Cls) (n : Nat) (f : PoleFilter S R) : Act T R → Res (Obs T R) × PoleFilter S R
  | .setup call =>
    if call.design.cls = c then
      ((PoleFilter.setup n call f).1.map fun _ => .none, (PoleFilter.setup n call f).2)
    else (.ub .noObject, f)
  | .scale k => ((PoleFilter.applyScale k f).1.map fun _ => .none, (PoleFilter.applyScale k f).2)
  | .filter x => ((PoleFilter.filter x f).1.map .sample, (PoleFilter.filter x f).2)
  | .reset => ((PoleFilter.reset f).1.map fun _ => .none, (PoleFilter.reset f).2)
  | .response nf => ((f.response nf).map .response, f)
  | .poleZeros => (f.getPoleZeros.map .poleZeros, f)
  | .numStages => (.ok (.numStages f.getNumStages), f)
  | .stage k => ((f.getStage k).map .stage, f)
  | _ => (.ub .noObject, f)

/-- The member functions of an RBJ filter or a `SOSCascade` as functions of the object's value. -/
def valueAct (x : Obj S R) (a : Act T R) : Res (Obs T R) × Obj S R :=
  match x with
  | .rbj f => ((Heap.actRbj f a).1, .rbj (Heap.actRbj f a).2)
  | .sos f => ((Heap.actSos f a).1, .sos (Heap.actSos f a).2)
  | .pole o => (.ub .noObject, .pole o)

/-- RBJ filters and `SOSCascade`s. -/
def IsValue : Obj S R → Prop
  | .pole _ => False
  | _ => True

end Iir.Spec
