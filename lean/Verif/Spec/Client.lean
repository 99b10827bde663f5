import Verif.Model.Filters
import Verif.Model.RBJ

/-! # Programs using a filter object

How a client drives an object: sequences of samples, and histories of arbitrary calls.  Nothing in
this file refers to the insides of a filter. -/

namespace Iir.Spec
open Iir

/-- Feed samples one after the other and collect the outputs: the client's
`for (auto x : xs) ys.push_back (f.filter (x));`. -/
def feed {σ T : Type} (flt : T → Exec σ T) : List T → Exec σ (List T)
  | [] => Exec.pure []
  | x :: xs => do
    let y ← flt x
    let ys ← feed flt xs
    return y :: ys

variable {R : Type} [FArith R] {S : Type → Type} [StateType S R] {T : Type} [Sample T R]

/-- Calls a client can make on a pole filter (results discarded). -/
inductive Op (T R : Type)
  | setup (c : Call R)
  | filter (x : T)
  | reset
  | scale (k : R)

/-- Executing a call on an object with template order `n`. -/
def Op.exec (n : Nat) : Op T R → Exec (PoleFilter S R) Unit
  | .setup c => PoleFilter.setup n c
  | .filter x => do let _ ← PoleFilter.filter x; return ()
  | .reset => PoleFilter.reset
  | .scale k => PoleFilter.applyScale k

/-- A call is well typed for class `c`: `setup` gets the arguments of that class. -/
def Op.forCls (c : Cls) : Op T R → Prop
  | .setup call => call.design.cls = c
  | _ => True

/-- The calls that do not set parameters. -/
def Op.isProcessing : Op T R → Prop
  | .filter _ => True
  | .reset => True
  | _ => False

/-- The order a call asks for (`FilterOrder` if it has no such argument). -/
def _root_.Iir.Call.order (n : Nat) : Call R → Int
  | .setup _ _ => n
  | .setupReq o _ _ => o
  | .setupN _ => n
  | .setupNReq o _ => o

/-- Apply `h` to the frequency arguments (cutoff, centre, width) and to nothing else. -/
def mapFreq {R : Type} (h : R → R) : Design R → Design R
  | .bwLowPass fc => .bwLowPass (h fc)
  | .bwHighPass fc => .bwHighPass (h fc)
  | .bwBandPass fc fw => .bwBandPass (h fc) (h fw)
  | .bwBandStop fc fw => .bwBandStop (h fc) (h fw)
  | .bwLowShelf fc g => .bwLowShelf (h fc) g
  | .bwHighShelf fc g => .bwHighShelf (h fc) g
  | .bwBandShelf fc fw g => .bwBandShelf (h fc) (h fw) g
  | .c1LowPass fc r => .c1LowPass (h fc) r
  | .c1HighPass fc r => .c1HighPass (h fc) r
  | .c1BandPass fc fw r => .c1BandPass (h fc) (h fw) r
  | .c1BandStop fc fw r => .c1BandStop (h fc) (h fw) r
  | .c1LowShelf fc g r => .c1LowShelf (h fc) g r
  | .c1HighShelf fc g r => .c1HighShelf (h fc) g r
  | .c1BandShelf fc fw g r => .c1BandShelf (h fc) (h fw) g r
  | .c2LowPass fc r => .c2LowPass (h fc) r
  | .c2HighPass fc r => .c2HighPass (h fc) r
  | .c2BandPass fc fw r => .c2BandPass (h fc) (h fw) r
  | .c2BandStop fc fw r => .c2BandStop (h fc) (h fw) r
  | .c2LowShelf fc g r => .c2LowShelf (h fc) g r
  | .c2HighShelf fc g r => .c2HighShelf (h fc) g r
  | .c2BandShelf fc fw g r => .c2BandShelf (h fc) (h fw) g r

/-- Apply `h` to the frequency argument of an RBJ design and to nothing else (widths are in octaves there). -/
def mapFreqRBJ {R : Type} (h : R → R) : RBJ.Design R → RBJ.Design R
  | .lowPass fc q => .lowPass (h fc) q
  | .highPass fc q => .highPass (h fc) q
  | .bandPass1 fc bw => .bandPass1 (h fc) bw
  | .bandPass2 fc bw => .bandPass2 (h fc) bw
  | .bandStop fc bw => .bandStop (h fc) bw
  | .iirNotch fc q => .iirNotch (h fc) q
  | .lowShelf fc g s => .lowShelf (h fc) g s
  | .highShelf fc g s => .highShelf (h fc) g s
  | .bandShelf fc g bw => .bandShelf (h fc) g bw
  | .allPass fc q => .allPass (h fc) q

/-- The design asked for, frequencies over the sampling rate. -/
def _root_.Iir.Call.normDesign : Call R → Design R
  | .setup fs d => mapFreq (· / fs) d
  | .setupReq _ fs d => mapFreq (· / fs) d
  | .setupN d => d
  | .setupNReq _ d => d

/-- The cutoff or centre frequency argument. -/
def _root_.Iir.Design.freq : Design R → R
  | .bwLowPass fc | .bwHighPass fc | .bwBandPass fc _ | .bwBandStop fc _ | .bwLowShelf fc _
  | .bwHighShelf fc _ | .bwBandShelf fc _ _
  | .c1LowPass fc _ | .c1HighPass fc _ | .c1BandPass fc _ _ | .c1BandStop fc _ _
  | .c1LowShelf fc _ _ | .c1HighShelf fc _ _ | .c1BandShelf fc _ _ _
  | .c2LowPass fc _ | .c2HighPass fc _ | .c2BandPass fc _ _ | .c2BandStop fc _ _
  | .c2LowShelf fc _ _ | .c2HighShelf fc _ _ | .c2BandShelf fc _ _ _ => fc

/-- The normalised cutoff or centre frequency of a call: frequency over sampling rate, or the
argument of `setupN`. -/
def _root_.Iir.Call.normFreq : Call R → R
  | .setup fs d => d.freq / fs
  | .setupReq _ fs d => d.freq / fs
  | .setupN d => d.freq
  | .setupNReq _ d => d.freq

/-- States of an object of class `c` with template order `n` reachable by any calls; exceptions are
caught and the object used on, undefined behaviour ends the program. -/
inductive Reach (S : Type → Type) [StateType S R] (T : Type) [Sample T R] (c : Cls) (n : Nat) :
    PoleFilter S R → Prop
  | new : Reach S T c n (PoleFilter.init S c n)
  | call (f f' : PoleFilter S R) (op : Op T R) (r : Res Unit) : Reach S T c n f → op.forCls c →
      op.exec n f = (r, f') → (∀ u, r ≠ .ub u) → Reach S T c n f'

/-- Execute calls one after the other whatever they return. -/
def execAll (n : Nat) : List (Op T R) → PoleFilter S R → PoleFilter S R
  | [], f => f
  | op :: ops, f => execAll n ops (op.exec n f).2

/-- Same configuration: every query of the object gives the same answer. -/
structure SameConfig (f g : PoleFilter S R) : Prop where
  numStages : f.getNumStages = g.getNumStages
  stage : ∀ i, f.getStage i = g.getStage i
  response : ∀ nf, f.response nf = g.response nf
  poleZeros : f.getPoleZeros = g.getPoleZeros
  /-- all sections, including those beyond `getNumStages ()` (they are run by `filter`) -/
  stages : f.base.cascade.stages = g.base.cascade.stages

open FArith in
/-- The moduli `-1/G` and `-G`, with `G = (10^(gainDb/20))^(1/(2 order))`, which the prototype of a Butterworth shelf
passes to `std::polar` (iir/Butterworth.cpp:86-97). -/
def ShelfModulus (order : Int) (g rho : R) : Prop :=
  2 ≤ order ∧ (rho = -1 / pow (pow 10 (g / 20)) (1 / ofInt (order * 2)) ∨
    rho = -pow (pow 10 (g / 20)) (1 / ofInt (order * 2)))

open FArith in
/-- The moduli that a set-up with this design may pass to `std::polar`: 1, and others only for Butterworth shelves of
order 2 and more. -/
def PolarModulus (o : Int) : Design R → R → Prop
  | .bwLowShelf _ g, rho | .bwHighShelf _ g, rho | .bwBandShelf _ _ g, rho => rho = 1 ∨ ShelfModulus o g rho
  | _, rho => rho = 1

end Iir.Spec
