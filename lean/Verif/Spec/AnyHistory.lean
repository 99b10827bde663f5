import Verif.Spec.Client
import Verif.Model.Inherited

/-! # Histories that use every public member of a pole filter (C78) -/

namespace Iir.Spec
variable {R : Type} [FArith R] {S : Type → Type} [StateType S R] {T : Type} [Sample T R]

/-- A call of a public member that changes a pole filter: those of the class itself and those it inherits. -/
inductive Step (T R : Type) where
  /-- `setup`, `setupN`, `filter`, `reset`, `applyScale` -/
  | own (op : Op T R)
  /-- `Cascade::setLayout (l)` -/
  | layout (l : Layout R)
  /-- `CascadeStages::setup (rows)` -/
  | sections (rows : List (CascadeStages.SosRow R))
  /-- `LowPassBase::setup (o, …)` and the corresponding members of the other base classes -/
  | base (o : Int) (d : Design R)

/-- Executing it on an object with template order `n`. -/
def Step.exec (n : Nat) : Step T R → Exec (PoleFilter S R) Unit
  | .own op => op.exec n
  | .layout l => PoleFilter.setLayout l
  | .sections rows => PoleFilter.sosSetup rows
  | .base o d => PoleFilter.baseSetup o d

/-- The call is well typed for class `c` with template order `n` (`sosCoefficients` is a reference to an array with
`MaxStages` rows), and the order given to a base class is not above the template order (what happens above is C74). -/
def Step.fits (c : Cls) (n : Nat) : Step T R → Prop
  | .own op => op.forCls c
  | .layout _ => True
  | .sections rows => rows.length = PoleFilter.numStages c n
  | .base o d => d.cls = c ∧ o ≤ n

/-- The parameters that a call sets, if it is a `setup` that runs the class's own design. -/
def Step.call? : Step T R → Option (Call R)
  | .own (.setup call) => some call
  | .base o d => some (.setupNReq o d)
  | _ => none

/-- `f` is the state of an object of class `c` with template order `n` after the calls `hs`, of which none was
undefined behaviour; exceptions were caught and the object used on. -/
inductive ClientRuns (S : Type → Type) [StateType S R] (T : Type) [Sample T R] (c : Cls) (n : Nat) :
    List (Step T R) → PoleFilter S R → Prop
  | new : ClientRuns S T c n [] (PoleFilter.init S c n)
  | step (hs : List (Step T R)) (f f' : PoleFilter S R) (s : Step T R) (r : Res Unit) : ClientRuns S T c n hs f →
      s.fits c n → s.exec n f = (r, f') → (∀ u, r ≠ .ub u) → ClientRuns S T c n (hs ++ [s]) f'

/-- What is left of a history if all but the setups is deleted. -/
def onlySetups (hs : List (Step T R)) : List (Step T R) :=
  (hs.filterMap Step.call?).map fun call => .own (.setup call)

end Iir.Spec
