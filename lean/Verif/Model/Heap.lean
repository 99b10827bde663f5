import Verif.Model.Filters
import Verif.Model.RBJ

/-! # Programs with several filter objects

A pole filter object holds three raw pointers: `Cascade::m_stageArray` (iir/Cascade.h:105),
`m_digitalProto.m_pair` and `m_analogProto.m_pair` (iir/Layout.h:171).  The constructor
(iir/PoleFilter.h:121-128) makes them point to arrays inside the same object; the defaulted copy
constructor (iir/PoleFilter.h:130) copies the pointers.  The single object model of `Filters.lean`
keeps the pointed-to arrays in place of the pointers; here objects have identities and the pointers
are explicit. -/

namespace Iir
open FArith

/-- A pole filter object in memory.  `own` holds the scalar members of the base classes, and in its
three array fields the arrays *contained in this object*: `m_stages` (iir/Cascade.h:176) in
`own.cascade.stages`, `m_digitalStorage.m_pairs` in `own.digital.pairs`, `m_analogStorage.m_pairs` in
`own.analog.lay.pairs` (iir/PoleFilter.h:140-141, iir/Layout.h:191). -/
structure PoleObj (S : Type → Type) (R : Type) where
  /-- the class template -/
  cls : Cls
  /-- its argument `FilterOrder` -/
  order : Nat
  own : PFB R
  /-- `m_states`, iir/Cascade.h:177 -/
  states : List (S R)
  /-- object whose `m_stages` is `m_stageArray` -/
  stagePtr : Nat
  /-- object whose `m_digitalStorage.m_pairs` is `m_digitalProto.m_pair` -/
  digitalPtr : Nat
  /-- object whose `m_analogStorage.m_pairs` is `m_analogProto.m_pair` -/
  analogPtr : Nat

/-- An object: a pole filter, an RBJ filter (`RBJbase`, iir/RBJ.h:66-84) or a `SOSCascade`
(iir/Custom.h:89-123); the latter two contain no pointers.  (All objects of one heap use the same
delay line type.) -/
inductive Obj (S : Type → Type) (R : Type)
  | pole (o : PoleObj S R)
  | rbj (f : RBJ.Filter R)
  | sos (f : Custom.SOS S R)

/-- The objects of a program by identity; `none` once destroyed.  Identities are not reused. -/
abbrev Heap (S : Type → Type) (R : Type) : Type := List (Option (Obj S R))

/-- Member functions a client calls on an object (for RBJ filters `setup`/`setupN` of one of the ten
classes, for a `SOSCascade` with the coefficient table). -/
inductive Act (T R : Type)
  | setup (c : Call R)
  | rbjSetupN (d : RBJ.Design R)
  | rbjSetup (fs : R) (d : RBJ.Design R)
  | sosSetup (rows : List (CascadeStages.SosRow R))
  | filter (x : T)
  | reset
  | scale (k : R)
  | response (f : R)
  | poleZeros
  | numStages
  | stage (i : Int)

/-- What the client gets back. -/
inductive Obs (T R : Type)
  | none
  | sample (y : T)
  | response (z : Cx R)
  | poleZeros (l : List (PoleZeroPair R))
  | numStages (n : Nat)
  | stage (b : Biquad R)
  /-- identity of a new object -/
  | object (i : Nat)

/-- Statements of a program. -/
inductive Cmd (T R : Type)
  | new (c : Cls) (order : Nat)
  | newRbj
  | newSos (nsos : Nat)
  /-- copy construction from object `i` -/
  | copy (i : Nat)
  /-- `object i = object j` -/
  | assign (i j : Nat)
  | destroy (i : Nat)
  | act (i : Nat) (a : Act T R)

variable {R : Type} [FArith R] {S : Type → Type} [StateType S R] {T : Type} [Sample T R]

/-- wrap a result -/
def Res.map {α β : Type} (f : α → β) : Res α → Res β
  | .ok a => .ok (f a)
  | .throw e => .throw e
  | .ub u => .ub u

namespace Heap

/-- the object with identity `i` -/
def obj (h : Heap S R) (i : Nat) : Option (Obj S R) := (h[i]?).join

/-- `m_stages` of object `p`; nothing if it does not exist (any more), so that every access through
such a pointer is out of bounds -/
def stagesAt (h : Heap S R) (p : Nat) : List (Biquad R) :=
  match h.obj p with
  | some (.pole o) => o.own.cascade.stages
  | _ => []
/-- `m_digitalStorage.m_pairs` of object `p` -/
def digitalAt (h : Heap S R) (p : Nat) : List (PoleZeroPair R) :=
  match h.obj p with
  | some (.pole o) => o.own.digital.pairs
  | _ => []
/-- `m_analogStorage.m_pairs` of object `p` -/
def analogAt (h : Heap S R) (p : Nat) : List (PoleZeroPair R) :=
  match h.obj p with
  | some (.pole o) => o.own.analog.lay.pairs
  | _ => []

end Heap

/-- Replace the three arrays of base class members. -/
def PFB.withArrays (b : PFB R) (st : List (Biquad R)) (dg an : List (PoleZeroPair R)) : PFB R :=
  { cascade := { b.cascade with stages := st }, digital := { b.digital with pairs := dg },
    analog := { b.analog with lay := { b.analog.lay with pairs := an } } }

namespace Heap

/-- The base class members of object `o` with the arrays its pointers point to: what its base class
member functions work on. -/
def view (h : Heap S R) (o : PoleObj S R) : PFB R :=
  o.own.withArrays (h.stagesAt o.stagePtr) (h.digitalAt o.digitalPtr) (h.analogAt o.analogPtr)

/-- change a pole filter object -/
def onPole (h : Heap S R) (p : Nat) (f : PoleObj S R → PoleObj S R) : Heap S R :=
  h.modify p fun
    | some (.pole o) => some (.pole (f o))
    | x => x

/-- Write back what a base class member function of object `i` did: scalars to the object itself,
arrays to the objects pointed to. -/
def store (h : Heap S R) (i : Nat) (o : PoleObj S R) (b : PFB R) : Heap S R :=
  let h := h.onPole i fun o => { o with
    own := b.withArrays o.own.cascade.stages o.own.digital.pairs o.own.analog.lay.pairs }
  let h := h.onPole o.stagePtr fun p => { p with
    own := p.own.withArrays b.cascade.stages p.own.digital.pairs p.own.analog.lay.pairs }
  let h := h.onPole o.digitalPtr fun p => { p with
    own := p.own.withArrays p.own.cascade.stages b.digital.pairs p.own.analog.lay.pairs }
  h.onPole o.analogPtr fun p => { p with
    own := p.own.withArrays p.own.cascade.stages p.own.digital.pairs b.analog.lay.pairs }

/-- A member function on a pole filter object.  `filter` and `reset` are members of `CascadeStages`
and use the arrays of the object itself (iir/Cascade.h:126-164); everything else goes through the
pointers. -/
def actPole (h : Heap S R) (i : Nat) (o : PoleObj S R) : Act T R → Res (Obs T R) × Heap S R
  | .setup c =>
    if c.design.cls = o.cls then
      let r := c.run o.order (h.view o)
      (r.1.map fun _ => .none, h.store i o r.2)
    else (.ub .noObject, h)
  | .scale k =>
    let r := PFB.onCascade (Cascade.applyScale k) (h.view o)
    (r.1.map fun _ => .none, h.store i o r.2)
  | .filter x =>
    let r := CascadeStages.filter o.own.cascade.stages x o.states
    (r.1.map .sample, h.onPole i fun o => { o with states := r.2 })
  | .reset => (.ok .none, h.onPole i fun o => { o with states := CascadeStages.reset o.states })
  | .response f => (((h.view o).cascade.response f).map .response, h)
  | .poleZeros => ((h.view o).getPoleZeros.map .poleZeros, h)
  | .numStages => (.ok (.numStages (h.view o).cascade.numStages), h)
  | .stage k => (((h.view o).cascade.getStage k).map .stage, h)
  | .rbjSetupN _ => (.ub .noObject, h)
  | .rbjSetup _ _ => (.ub .noObject, h)
  | .sosSetup _ => (.ub .noObject, h)

/-- A member function on an RBJ filter (`response` of its `Biquad` base, iir/Biquad.cpp:89-106). -/
def actRbj (f : RBJ.Filter R) : Act T R → Res (Obs T R) × RBJ.Filter R
  | .rbjSetupN d => ((RBJ.Filter.setupN d f).1.map fun _ => .none, (RBJ.Filter.setupN d f).2)
  | .rbjSetup fs d => ((RBJ.Filter.setup fs d f).1.map fun _ => .none, (RBJ.Filter.setup fs d f).2)
  | .filter x => ((RBJ.Filter.filter x f).1.map .sample, (RBJ.Filter.filter x f).2)
  | .reset => ((RBJ.Filter.reset f).1.map fun _ => .none, (RBJ.Filter.reset f).2)
  | .response nf => ((f.biquad.response nf).map .response, f)
  | .scale k => let r := Biquad.applyScale k f.biquad
    (r.1.map fun _ => .none, { f with biquad := r.2 })
  | _ => (.ub .noObject, f)

/-- A member function on a `SOSCascade`. -/
def actSos (f : Custom.SOS S R) : Act T R → Res (Obs T R) × Custom.SOS S R
  | .sosSetup rows => ((Custom.SOS.setup rows f).1.map fun _ => .none, (Custom.SOS.setup rows f).2)
  | .filter x => ((Custom.SOS.filter x f).1.map .sample, (Custom.SOS.filter x f).2)
  | .reset => ((Custom.SOS.reset f).1.map fun _ => .none, (Custom.SOS.reset f).2)
  | _ => (.ub .noObject, f)

/-- The object `PoleFilter ()` constructs as object number `i`, iir/PoleFilter.h:121-128. -/
def newPole (S : Type → Type) [StateType S R] (c : Cls) (n : Nat) (i : Nat) : PoleObj S R :=
  { cls := c, order := n, own := (PoleFilter.init S c n).base,
    states := (PoleFilter.init S c n).states, stagePtr := i, digitalPtr := i, analogPtr := i }

/-- Assignment.  Pole filters: `operator=`, iir/PoleFilter.h:132-137, resets the delay lines of the
left side and does nothing else (the classes of the library declare no other `operator=`, the implicit
ones call it).  RBJ filters and `SOSCascade`: implicit, memberwise. -/
def assign (h : Heap S R) (i j : Nat) : Res (Obs T R) × Heap S R :=
  match h.obj i, h.obj j with
  | some (.pole o), some (.pole o') =>
    if o.cls = o'.cls ∧ o.order = o'.order then
      (.ok .none, h.onPole i fun o => { o with states := CascadeStages.reset o.states })
    else (.ub .noObject, h)
  | some (.rbj _), some (.rbj g) => (.ok .none, h.set i (some (.rbj g)))
  | some (.sos f), some (.sos g) =>
    if f.stages.length = g.stages.length then (.ok .none, h.set i (some (.sos g)))
    else (.ub .noObject, h)
  | _, _ => (.ub .noObject, h)

/-- Execution of a statement. -/
def step (h : Heap S R) : Cmd T R → Res (Obs T R) × Heap S R
  | .new c n => (.ok (.object h.length), h ++ [some (.pole (newPole S c n h.length))])
  | .newRbj => (.ok (.object h.length), h ++ [some (.rbj .init)])
  | .newSos n => (.ok (.object h.length), h ++ [some (.sos (.init S n))])
  | .copy i =>
    match h.obj i with
    | some x => (.ok (.object h.length), h ++ [some x])
    | none => (.ub .noObject, h)
  | .assign i j => h.assign i j
  | .destroy i =>
    match h.obj i with
    | some _ => (.ok .none, h.set i none)
    | none => (.ub .noObject, h)
  | .act i a =>
    match h.obj i with
    | some (.pole o) => h.actPole i o a
    | some (.rbj f) => ((actRbj f a).1, h.set i (some (.rbj (actRbj f a).2)))
    | some (.sos f) => ((actSos f a).1, h.set i (some (.sos (actSos f a).2)))
    | none => (.ub .noObject, h)

/-- Execution of a program: the outcome of every statement, and the final objects.  (Exceptions are
caught by the program.) -/
def run : List (Cmd T R) → Heap S R → List (Res (Obs T R)) × Heap S R
  | [], h => ([], h)
  | c :: cs, h => ((h.step c).1 :: (run cs (h.step c).2).1, (run cs (h.step c).2).2)

end Heap
end Iir
