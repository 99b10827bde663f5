import Verif.Model.Heap

/-! # Programs that attach cascades to other storage, with any mixture of delay lines

`Cascade::setCascadeStorage` and `CascadeStages::getCascadeStorage` are public (iir/Cascade.h:96,169-173), and pole
filters inherit both publicly (iir/PoleFilter.h:62,117-118).  A client can therefore make a plain `Cascade`, or the
`Cascade` part of a pole filter, work on the sections of any pole filter or `SOSCascade`.  As in `Heap.lean` objects have
identities and the pointers are explicit.  New here: those calls, plain `Cascade` objects, the public members of
`Inherited.lean`, and objects with different delay line types in one program. -/

namespace Iir
open FArith

/-- The template argument `StateType` (iir/State.h:55,99,130). -/
inductive Topology
  | df1
  | df2
  | tdf2
deriving DecidableEq

/-- `m_states`, iir/Cascade.h:177: an array of delay lines of one of the three types. -/
inductive Lines (R : Type)
  | df1 (l : List (DirectFormI R))
  | df2 (l : List (DirectFormII R))
  | tdf2 (l : List (TransposedDirectFormII R))

namespace Lines
variable {R : Type} [FArith R]

/-- which of the types -/
def topology : Lines R → Topology
  | .df1 _ => .df1
  | .df2 _ => .df2
  | .tdf2 _ => .tdf2

/-- `m_states` of a new object, iir/Cascade.h:177 -/
def init (n : Nat) : Topology → Lines R
  | .df1 => .df1 (CascadeStages.initStates DirectFormI n)
  | .df2 => .df2 (CascadeStages.initStates DirectFormII n)
  | .tdf2 => .tdf2 (CascadeStages.initStates TransposedDirectFormII n)

/-- `reset`, iir/Cascade.h:126-130 -/
def reset : Lines R → Lines R
  | .df1 l => .df1 (CascadeStages.reset l)
  | .df2 l => .df2 (CascadeStages.reset l)
  | .tdf2 l => .tdf2 (CascadeStages.reset l)

/-- `filter<Sample> (in)`, iir/Cascade.h:156-164 -/
def filter {T : Type} [Sample T R] (stages : List (Biquad R)) (x : T) : Exec (Lines R) T
  | .df1 l => ((CascadeStages.filter stages x l).1, .df1 (CascadeStages.filter stages x l).2)
  | .df2 l => ((CascadeStages.filter stages x l).1, .df2 (CascadeStages.filter stages x l).2)
  | .tdf2 l => ((CascadeStages.filter stages x l).1, .tdf2 (CascadeStages.filter stages x l).2)

end Lines

/-- A pole filter object in memory, as `PoleObj` (`Heap.lean`): `own` holds the scalar members of the base classes, and in
its three array fields the arrays contained in this object. -/
structure PoleThing (R : Type) where
  /-- the class template -/
  cls : Cls
  /-- its argument `FilterOrder` -/
  order : Nat
  own : PFB R
  /-- `m_states`, iir/Cascade.h:177 -/
  lines : Lines R
  /-- object whose `m_stages` is `m_stageArray` -/
  stagePtr : Nat
  /-- object whose `m_digitalStorage.m_pairs` is `m_digitalProto.m_pair` -/
  digitalPtr : Nat
  /-- object whose `m_analogStorage.m_pairs` is `m_analogProto.m_pair` -/
  analogPtr : Nat

/-- A plain `Cascade` object: the members iir/Cascade.h:103-105. -/
structure CascadeThing where
  numStages : Nat
  maxStages : Nat
  /-- object whose `m_stages` is `m_stageArray`; `none` for `nullptr` -/
  ptr : Option Nat

/-- A `SOSCascade` object (iir/Custom.h:89-123): `m_stages` and `m_states` of `CascadeStages`. -/
structure SosThing (R : Type) where
  stages : List (Biquad R)
  lines : Lines R

/-- An object. -/
inductive Thing (R : Type)
  | pole (o : PoleThing R)
  | cascade (c : CascadeThing)
  | sos (f : SosThing R)
  | rbj (f : RBJ.Filter R)

/-- The objects of a program by identity; `none` once destroyed.  Identities are not reused. -/
abbrev Mem (R : Type) : Type := List (Option (Thing R))

/-- Member functions a client calls on an object. -/
inductive Do (T R : Type)
  /-- `setup`/`setupN` of the pole filter classes -/
  | setup (c : Call R)
  /-- `f.LowPassBase::setup (order, …)` and the others of that kind -/
  | baseSetup (order : Int) (d : Design R)
  /-- `c.setLayout (l)`; the layout `l` belongs to the client -/
  | setLayout (l : Layout R)
  /-- `c.setCascadeStorage (object j.getCascadeStorage ())` -/
  | attach (j : Nat)
  | scale (k : R)
  /-- `setup (sosCoefficients)` -/
  | sosSetup (rows : List (CascadeStages.SosRow R))
  | rbjSetupN (d : RBJ.Design R)
  | rbjSetup (fs : R) (d : RBJ.Design R)
  | filter (x : T)
  | reset
  | response (f : R)
  | poleZeros
  | numStages
  | stage (i : Int)

/-- Statements of a program. -/
inductive Stmt (T R : Type)
  | new (c : Cls) (order : Nat) (s : Topology)
  | newSos (nsos : Nat) (s : Topology)
  | newCascade
  | newRbj
  /-- copy construction from object `i` -/
  | copy (i : Nat)
  /-- `object i = object j` -/
  | assign (i j : Nat)
  | destroy (i : Nat)
  | act (i : Nat) (a : Do T R)

variable {R : Type} [FArith R] {T : Type} [Sample T R]

namespace Thing

/-- write `m_stages` -/
def writeStages (st : List (Biquad R)) : Thing R → Thing R
  | .pole o => .pole { o with own := o.own.withArrays st o.own.digital.pairs o.own.analog.lay.pairs }
  | .sos f => .sos { f with stages := st }
  | x => x

/-- write `m_digitalStorage.m_pairs` -/
def writeDigital (dg : List (PoleZeroPair R)) : Thing R → Thing R
  | .pole o => .pole { o with own := o.own.withArrays o.own.cascade.stages dg o.own.analog.lay.pairs }
  | x => x

/-- write `m_analogStorage.m_pairs` -/
def writeAnalog (an : List (PoleZeroPair R)) : Thing R → Thing R
  | .pole o => .pole { o with own := o.own.withArrays o.own.cascade.stages o.own.digital.pairs an }
  | x => x

/-- write the scalar members of the base classes of a pole filter -/
def writeScalars (b : PFB R) : Thing R → Thing R
  | .pole o => .pole { o with own := b.withArrays o.own.cascade.stages o.own.digital.pairs o.own.analog.lay.pairs }
  | x => x

/-- write the delay lines -/
def writeLines (l : Lines R) : Thing R → Thing R
  | .pole o => .pole { o with lines := l }
  | .sos f => .sos { f with lines := l }
  | x => x

/-- `m_stages` of the object, which `getCascadeStorage` hands out, iir/Cascade.h:169-173 -/
def stages? : Thing R → Option (List (Biquad R))
  | .pole o => some o.own.cascade.stages
  | .sos f => some f.stages
  | _ => none

end Thing

namespace Mem

/-- the object with identity `i` -/
def obj (m : Mem R) (i : Nat) : Option (Thing R) := (m[i]?).join

/-- change object `i` -/
def change (m : Mem R) (i : Nat) (f : Thing R → Thing R) : Mem R := m.modify i (Option.map f)

/-- `m_stages` of object `p`; nothing if it does not exist (any more), so that every access through such a pointer is out
of bounds -/
def stagesAt (m : Mem R) (p : Nat) : List (Biquad R) := ((m.obj p).bind Thing.stages?).getD []

/-- `m_digitalStorage.m_pairs` of object `p` -/
def digitalAt (m : Mem R) (p : Nat) : List (PoleZeroPair R) :=
  match m.obj p with
  | some (.pole o) => o.own.digital.pairs
  | _ => []

/-- `m_analogStorage.m_pairs` of object `p` -/
def analogAt (m : Mem R) (p : Nat) : List (PoleZeroPair R) :=
  match m.obj p with
  | some (.pole o) => o.own.analog.lay.pairs
  | _ => []

/-- What the base class member functions of a pole filter work on. -/
def view (m : Mem R) (o : PoleThing R) : PFB R :=
  o.own.withArrays (m.stagesAt o.stagePtr) (m.digitalAt o.digitalPtr) (m.analogAt o.analogPtr)

/-- Write back what a base class member function of pole filter `i` did: scalars to the object itself, arrays to the
objects pointed to. -/
def store (m : Mem R) (i : Nat) (o : PoleThing R) (b : PFB R) : Mem R :=
  (((m.change i (Thing.writeScalars b)).change o.stagePtr (Thing.writeStages b.cascade.stages)).change o.digitalPtr
    (Thing.writeDigital b.digital.pairs)).change o.analogPtr (Thing.writeAnalog b.analog.lay.pairs)

/-- What the member functions of a plain `Cascade` work on. -/
def viewCascade (m : Mem R) (c : CascadeThing) : Cascade R :=
  { numStages := c.numStages, maxStages := c.maxStages, stages := (c.ptr.map m.stagesAt).getD [] }

/-- Write back what a member function of the plain `Cascade` `i` did. -/
def storeCascade (m : Mem R) (i : Nat) (c : CascadeThing) (b : Cascade R) : Mem R :=
  let m := m.change i fun _ => .cascade { c with numStages := b.numStages, maxStages := b.maxStages }
  match c.ptr with
  | some p => m.change p (Thing.writeStages b.stages)
  | none => m

/-- `setCascadeStorage (object j.getCascadeStorage ())`, iir/Cascade.cpp:45-50, iir/Cascade.h:169-173: what becomes of
an object whose `Cascade` part it is called on.  `MaxStages` is the length of the array. -/
def attached (j : Nat) (st : List (Biquad R)) : Thing R → Thing R
  | .pole o => .pole { o with stagePtr := j, own := { o.own with
      cascade := { numStages := 0, maxStages := st.length, stages := o.own.cascade.stages } } }
  | .cascade _ => .cascade { numStages := 0, maxStages := st.length, ptr := some j }
  | x => x

/-- `setCascadeStorage` on object `i`. -/
def attach (m : Mem R) (i j : Nat) : Res (Obs T R) × Mem R :=
  match (m.obj j).bind Thing.stages? with
  | some st => (.ok .none, m.change i (attached j st))
  | none => (.ub .noObject, m)

/-- A member function on a pole filter.  `filter`, `reset` and `CascadeStages::setup` use the arrays of the object itself
(iir/Cascade.h:126-164); everything else goes through the pointers. -/
def doPole (m : Mem R) (i : Nat) (o : PoleThing R) : Do T R → Res (Obs T R) × Mem R
  | .setup c =>
    if c.design.cls = o.cls then
      let r := c.run o.order (m.view o)
      (r.1.map fun _ => .none, m.store i o r.2)
    else (.ub .noObject, m)
  | .baseSetup order d =>
    if d.cls = o.cls then
      let r := d.baseSetup order (m.view o)
      (r.1.map fun _ => .none, m.store i o r.2)
    else (.ub .noObject, m)
  | .setLayout l =>
    let r := PFB.onCascade (Cascade.setLayout l) (m.view o)
    (r.1.map fun _ => .none, m.store i o r.2)
  | .scale k =>
    let r := PFB.onCascade (Cascade.applyScale k) (m.view o)
    (r.1.map fun _ => .none, m.store i o r.2)
  | .attach j => m.attach i j
  | .sosSetup rows =>
    let r := CascadeStages.setup rows o.own.cascade.stages
    (r.1.map fun _ => .none, m.change i (Thing.writeStages r.2))
  | .filter x =>
    let r := Lines.filter o.own.cascade.stages x o.lines
    (r.1.map .sample, m.change i (Thing.writeLines r.2))
  | .reset => (.ok .none, m.change i (Thing.writeLines o.lines.reset))
  | .response f => (((m.view o).cascade.response f).map .response, m)
  | .poleZeros => ((m.view o).getPoleZeros.map .poleZeros, m)
  | .numStages => (.ok (.numStages (m.view o).cascade.numStages), m)
  | .stage k => (((m.view o).cascade.getStage k).map .stage, m)
  | .rbjSetupN _ => (.ub .noObject, m)
  | .rbjSetup _ _ => (.ub .noObject, m)

/-- A member function on a plain `Cascade` (iir/Cascade.h:50-106); it has no `filter`. -/
def doCascade (m : Mem R) (i : Nat) (c : CascadeThing) : Do T R → Res (Obs T R) × Mem R
  | .setLayout l =>
    let r := Cascade.setLayout l (m.viewCascade c)
    (r.1.map fun _ => .none, m.storeCascade i c r.2)
  | .scale k =>
    let r := Cascade.applyScale k (m.viewCascade c)
    (r.1.map fun _ => .none, m.storeCascade i c r.2)
  | .attach j => m.attach i j
  | .response f => (((m.viewCascade c).response f).map .response, m)
  | .poleZeros => ((m.viewCascade c).getPoleZeros.map .poleZeros, m)
  | .numStages => (.ok (.numStages (m.viewCascade c).numStages), m)
  | .stage k => (((m.viewCascade c).getStage k).map .stage, m)
  | _ => (.ub .noObject, m)

/-- A member function on a `SOSCascade`. -/
def doSos (m : Mem R) (i : Nat) (f : SosThing R) : Do T R → Res (Obs T R) × Mem R
  | .sosSetup rows =>
    let r := CascadeStages.setup rows f.stages
    (r.1.map fun _ => .none, m.change i (Thing.writeStages r.2))
  | .filter x =>
    let r := Lines.filter f.stages x f.lines
    (r.1.map .sample, m.change i (Thing.writeLines r.2))
  | .reset => (.ok .none, m.change i (Thing.writeLines f.lines.reset))
  | _ => (.ub .noObject, m)

/-- A member function on an RBJ filter. -/
def doRbj (m : Mem R) (i : Nat) (f : RBJ.Filter R) : Do T R → Res (Obs T R) × Mem R
  | .rbjSetupN d => ((RBJ.Filter.setupN d f).1.map fun _ => .none, m.change i fun _ => .rbj (RBJ.Filter.setupN d f).2)
  | .rbjSetup fs d => ((RBJ.Filter.setup fs d f).1.map fun _ => .none, m.change i fun _ => .rbj (RBJ.Filter.setup fs d f).2)
  | .filter x => ((RBJ.Filter.filter x f).1.map .sample, m.change i fun _ => .rbj (RBJ.Filter.filter x f).2)
  | .reset => ((RBJ.Filter.reset f).1.map fun _ => .none, m.change i fun _ => .rbj (RBJ.Filter.reset f).2)
  | .response nf => ((f.biquad.response nf).map .response, m)
  | .scale k => ((Biquad.applyScale k f.biquad).1.map fun _ => .none,
      m.change i fun _ => .rbj { f with biquad := (Biquad.applyScale k f.biquad).2 })
  | _ => (.ub .noObject, m)

/-- A member function. -/
def act (m : Mem R) (i : Nat) (a : Do T R) : Res (Obs T R) × Mem R :=
  match m.obj i with
  | some (.pole o) => m.doPole i o a
  | some (.cascade c) => m.doCascade i c a
  | some (.sos f) => m.doSos i f a
  | some (.rbj f) => m.doRbj i f a
  | none => (.ub .noObject, m)

/-- The object `PoleFilter ()` constructs as object number `i`, iir/PoleFilter.h:121-128. -/
def newPole (c : Cls) (n : Nat) (s : Topology) (i : Nat) : PoleThing R :=
  { cls := c, order := n, own := PoleFilter.initBase c n, lines := (Lines.init (PoleFilter.numStages c n) s).reset,
    stagePtr := i, digitalPtr := i, analogPtr := i }

/-- Assignment.  Pole filters: `operator=`, iir/PoleFilter.h:132-137.  The others: implicit, memberwise; for a `Cascade`
this copies the pointer. -/
def assign (m : Mem R) (i j : Nat) : Res (Obs T R) × Mem R :=
  match m.obj i, m.obj j with
  | some (.pole o), some (.pole o') =>
    if o.cls = o'.cls ∧ o.order = o'.order ∧ o.lines.topology = o'.lines.topology then
      (.ok .none, m.change i (Thing.writeLines o.lines.reset))
    else (.ub .noObject, m)
  | some (.cascade _), some (.cascade c) => (.ok .none, m.change i fun _ => .cascade c)
  | some (.sos f), some (.sos g) =>
    if f.stages.length = g.stages.length ∧ f.lines.topology = g.lines.topology then (.ok .none, m.change i fun _ => .sos g)
    else (.ub .noObject, m)
  | some (.rbj _), some (.rbj g) => (.ok .none, m.change i fun _ => .rbj g)
  | _, _ => (.ub .noObject, m)

/-- a new object -/
def add (m : Mem R) (x : Thing R) : Res (Obs T R) × Mem R := (.ok (.object m.length), m ++ [some x])

/-- Execution of a statement. -/
def step (m : Mem R) : Stmt T R → Res (Obs T R) × Mem R
  | .new c n s => m.add (.pole (newPole c n s m.length))
  | .newSos n s => m.add (.sos { stages := CascadeStages.initStages n, lines := .init n s })
  | .newCascade => m.add (.cascade { numStages := 0, maxStages := 0, ptr := none })
  | .newRbj => m.add (.rbj .init)
  | .copy i =>
    match m.obj i with
    | some x => m.add x
    | none => (.ub .noObject, m)
  | .assign i j => m.assign i j
  | .destroy i =>
    match m.obj i with
    | some _ => (.ok .none, m.set i none)
    | none => (.ub .noObject, m)
  | .act i a => m.act i a

/-- Execution of a program: the outcome of every statement, and the final objects.  (Exceptions are caught by the
program.) -/
def run : List (Stmt T R) → Mem R → List (Res (Obs T R)) × Mem R
  | [], m => ([], m)
  | c :: cs, m => ((m.step c).1 :: (run cs (m.step c).2).1, (run cs (m.step c).2).2)

end Mem
end Iir
