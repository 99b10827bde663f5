import Verif.Model.Layout
import Verif.Model.State

/-! # Chains of second order sections: `Cascade.h`, `Cascade.cpp` -/

namespace Iir
open FArith Cx

/-- `Cascade`, members iir/Cascade.h:103-105.  `stages` is the array `m_stageArray` points to
(`[]` for a null pointer; sharing between objects is modelled in `Heap.lean`). -/
structure Cascade (R : Type) where
  numStages : Nat
  maxStages : Nat
  stages : List (Biquad R)

variable {R : Type} [FArith R]

namespace Cascade

/-- `Cascade () = default`, iir/Cascade.h:53,103-105. -/
def default : Cascade R := { numStages := 0, maxStages := 0, stages := [] }

/-- `setCascadeStorage`, iir/Cascade.cpp:45-50. -/
def setCascadeStorage (maxStages : Nat) (stageArray : List (Biquad R)) : Exec (Cascade R) Unit :=
  Exec.set { numStages := 0, maxStages := maxStages, stages := stageArray }

/-- `m_stageArray[i]` (read) -/
def stageAt (c : Cascade R) (i : Nat) : Res (Biquad R) :=
  match c.stages[i]? with
  | some b => .ok b
  | none => .ub .outOfBounds

/-- `m_stageArray[i].method ()` -/
def onStage (i : Nat) (m : Exec (Biquad R) Unit) : Exec (Cascade R) Unit := fun c =>
  match c.stages[i]? with
  | some b => ((m b).1, { c with stages := c.stages.set i (m b).2 })
  | none => (.ub .outOfBounds, c)

/-- `operator[]`, iir/Cascade.h:78-83. -/
def getStage (c : Cascade R) (index : Int) : Res (Biquad R) :=
  if index < 0 || index ≥ (c.numStages : Nat) then .throw .stageIndexOutOfBounds
  else c.stageAt index.toNat

/-- The loop of `response`, iir/Cascade.cpp:62-73, over the first `n` stages: `(ch, cbot)`. -/
def respLoop (c : Cascade R) (czn1 czn2 : Cx R) : Nat → Res (Cx R × Cx R)
  | 0 => .ok (ofR 1, ofR 1)
  | n + 1 => do
    let (ch, cbot) ← c.respLoop czn1 czn2 n
    let stage ← c.stageAt n
    return (cmul ch (stage.respTop czn1 czn2), cmul cbot (stage.respBot czn1 czn2))

/-- `Cascade::response`, iir/Cascade.cpp:52-76. -/
def response (c : Cascade R) (normalizedFrequency : R) : Res (Cx R) :=
  if flt 0.5 normalizedFrequency then .throw .maxF
  else if flt normalizedFrequency 0 then .throw .minF
  else do
    let w := 2 * pi * normalizedFrequency
    let czn1 ← polarC (1 : R) (-w)
    let czn2 ← polarC (1 : R) (-2 * w)
    let (ch, cbot) ← c.respLoop czn1 czn2 c.numStages
    return cdiv ch cbot

/-- The loop of `Cascade::getPoleZeros`, iir/Cascade.cpp:78-91, over the first `n` stages. -/
def poleZerosLoop (c : Cascade R) : Nat → Res (List (PoleZeroPair R))
  | 0 => .ok []
  | n + 1 => do
    let vpz ← c.poleZerosLoop n
    let stage ← c.stageAt n
    let bps ← BiquadPoleState.ofBiquad stage
    return vpz ++ [bps.pz]

/-- `Cascade::getPoleZeros`, iir/Cascade.cpp:78-91. -/
def getPoleZeros (c : Cascade R) : Res (List (PoleZeroPair R)) := c.poleZerosLoop c.numStages

/-- `Cascade::applyScale`, iir/Cascade.cpp:93-97. -/
def applyScale (scale : R) : Exec (Cascade R) Unit := do
  let c ← Exec.get
  if c.numStages < 1 then return ()
  else onStage 0 (Biquad.applyScale scale)

/-- `Cascade::setLayout`, iir/Cascade.cpp:100-117. -/
def setLayout (proto : Layout R) : Exec (Cascade R) Unit := do
  let numStages := (proto.numPoles + 1) / 2
  Exec.modify fun c => { c with numStages := numStages }
  let c ← Exec.get
  Exec.throwIf (decide (c.numStages > c.maxStages)) .tooManyStages
  Exec.loop c.maxStages fun i => onStage i Biquad.setIdentity
  Exec.loop numStages fun i => do
    let pr ← Exec.lift (proto.getPair i)
    onStage i (Biquad.setPoleZeroPair pr)
  let c ← Exec.get
  let h ← Exec.lift (c.response (proto.normalW / (2 * pi)))
  applyScale (proto.normalGain / cabs h)

end Cascade

/-! ## `CascadeStages<MaxStages, StateType>`

`m_stages` and `m_states` are two arrays of `MaxStages` elements (iir/Cascade.h:176-177). -/

namespace CascadeStages
variable {S : Type → Type} [StateType S R]

/-- Initial `m_stages`, iir/Cascade.h:176. -/
def initStages (maxStages : Nat) : List (Biquad R) := List.replicate maxStages Biquad.default

/-- Initial `m_states`, iir/Cascade.h:177. -/
def initStates (S : Type → Type) [StateType S R] (maxStages : Nat) : List (S R) :=
  List.replicate maxStages StateType.init

/-- `reset`, iir/Cascade.h:126-130. -/
def reset (states : List (S R)) : List (S R) := states.map StateType.reset

/-- The loop of `filter`, iir/Cascade.h:159-162: walks `m_stages` and `m_states` in step. -/
def filterD : List (Biquad R) → List (S R) → R → R × List (S R)
  | b :: bs, s :: ss, x =>
    let r := StateType.filter x b s
    let r' := filterD bs ss r.1
    (r'.1, r.2 :: r'.2)
  | _, ss, x => (x, ss)

end CascadeStages

/-- A sample type usable with `filter<Sample>`: conversion to double (exact assignment
`double out = in`) and `static_cast<Sample> (double)`. -/
class Sample (T : Type) (R : Type) where
  toR : T → R
  ofR : R → Res T

/-- `Sample = double`. -/
instance Sample.self : Sample R R := ⟨id, .ok⟩

namespace CascadeStages
variable {S : Type → Type} [StateType S R]

/-- `filter<Sample> (in)`, iir/Cascade.h:156-164. -/
def filter {T : Type} [Sample T R] (stages : List (Biquad R)) (x : T) : Exec (List (S R)) T :=
  fun states =>
    let r := filterD stages states (Sample.toR x : R)
    (Sample.ofR r.1, r.2)

/-- One row of `sosCoefficients`: `{b0, b1, b2, a0, a1, a2}`. -/
structure SosRow (R : Type) where
  c0 : R
  c1 : R
  c2 : R
  c3 : R
  c4 : R
  c5 : R

/-- `setup (sosCoefficients)`, iir/Cascade.h:138-148: rows are installed one after the other; the
number of rows equals `MaxStages` by typing (`const double (&)[MaxStages][6]`); a row without a
stage is out of bounds. -/
def setup : List (SosRow R) → Exec (List (Biquad R)) Unit
  | [], stages => (.ok (), stages)
  | _ :: _, [] => (.ub .outOfBounds, [])
  | r :: rs, b :: bs =>
    match Biquad.setCoefficients r.c3 r.c4 r.c5 r.c0 r.c1 r.c2 b with
    | (.ok _, b') => ((setup rs bs).1, b' :: (setup rs bs).2)
    | (.throw e, b') => (.throw e, b' :: bs)
    | (.ub u, b') => (.ub u, b' :: bs)

end CascadeStages
end Iir
