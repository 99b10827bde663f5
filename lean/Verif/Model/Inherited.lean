import Verif.Model.Filters
import Verif.Model.RBJ

/-! # Public members that a pole filter inherits besides `setup`, `filter`, `reset` and the queries

`PoleFilter` is a `struct` that derives from its base class and from `CascadeStages` publicly
(iir/PoleFilter.h:117-118), `PoleFilterBase2` derives from `Cascade` publicly (iir/PoleFilter.h:62), and so on: a
client can call `Cascade::setLayout`, the `setup (order, …)` of the `*Base` classes (which the user classes hide, but
do not delete: a qualified call reaches it) and `CascadeStages::setup (sosCoefficients)` on any filter object. -/

namespace Iir

variable {R : Type} [FArith R]

namespace PoleFilter
variable {S : Type → Type} [StateType S R]

/-- `f.setLayout (layout)`: `Cascade::setLayout`, public, iir/Cascade.h:100, iir/Cascade.cpp:100-117. -/
def setLayout (l : Layout R) : Exec (PoleFilter S R) Unit :=
  Exec.zoom PoleFilter.base (fun b f => { f with base := b }) (PFB.onCascade (Cascade.setLayout l))

/-- `f.LowPassBase::setup (order, …)` and the 20 corresponding members, public (e.g. iir/Butterworth.h:87-91,
iir/Butterworth.cpp:107-117); frequencies are normalised.  No check of the order. -/
def baseSetup (order : Int) (d : Design R) : Exec (PoleFilter S R) Unit :=
  Exec.zoom PoleFilter.base (fun b f => { f with base := b }) (d.baseSetup order)

/-- `f.CascadeStages<…>::setup (sosCoefficients)`, public, iir/Cascade.h:138-148: writes `m_stages`, the array that
`Cascade::m_stageArray` points to. -/
def sosSetup (rows : List (CascadeStages.SosRow R)) : Exec (PoleFilter S R) Unit :=
  Exec.zoom (fun f => f.base.cascade.stages)
    (fun bs f => { f with base := { f.base with cascade := { f.base.cascade with stages := bs } } })
    (CascadeStages.setup rows)

end PoleFilter
end Iir
