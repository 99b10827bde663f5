import Verif.Model.Proto

/-! # The pole filter classes: `PoleFilter.h`, `Butterworth.{h,cpp}`, `ChebyshevI.{h,cpp}`,
`ChebyshevII.{h,cpp}` -/

namespace Iir
open FArith Cx

/-- `PoleFilterBase<AnalogPrototype>`, iir/PoleFilter.h:62-106: the `Cascade` base, `m_digitalProto`
and `m_analogProto`. -/
structure PFB (R : Type) where
  cascade : Cascade R
  digital : Layout R
  analog : Proto R

variable {R : Type} [FArith R]

namespace PFB

/-- call on the `Cascade` base -/
def onCascade {α : Type} (m : Exec (Cascade R) α) : Exec (PFB R) α :=
  Exec.zoom PFB.cascade (fun c p => { p with cascade := c }) m
/-- call on `m_digitalProto` -/
def onDigital {α : Type} (m : Exec (Layout R) α) : Exec (PFB R) α :=
  Exec.zoom PFB.digital (fun l p => { p with digital := l }) m
/-- call on `m_analogProto` -/
def onAnalog {α : Type} (m : Exec (Proto R) α) : Exec (PFB R) α :=
  Exec.zoom PFB.analog (fun l p => { p with analog := l }) m

/-- The loop of `PoleFilterBase2::getPoleZeros`, iir/PoleFilter.h:79-80, over `n` pairs. -/
def poleZerosLoop (l : Layout R) : Nat → Res (List (PoleZeroPair R))
  | 0 => .ok []
  | n + 1 => do
    let vpz ← poleZerosLoop l n
    let pr ← l.getPair n
    return vpz ++ [pr]

/-- `PoleFilterBase2::getPoleZeros`, iir/PoleFilter.h:75-82. -/
def getPoleZeros (p : PFB R) : Res (List (PoleZeroPair R)) :=
  poleZerosLoop p.digital ((p.digital.numPoles + 1) / 2)

/-- Common shape of the 18 `*Base::setup` bodies that do not touch the normalisation: design the
analog prototype, transform it into `m_digitalProto`, `Cascade::setLayout`. -/
def designWith (design : Exec (Proto R) Unit) (transform : Layout R → Exec (Layout R) Unit) :
    Exec (PFB R) Unit := do
  onAnalog design
  let s ← Exec.get
  onDigital (transform s.analog.lay)
  let s ← Exec.get
  onCascade (Cascade.setLayout s.digital)

/-- Shape of the three `BandShelfBase::setup`: as above, with
`m_digitalProto.setNormal ((centerFrequency < 0.25) ? doublePi : 0, 1)` before `setLayout`. -/
def designBandShelf (design : Exec (Proto R) Unit) (transform : Layout R → Exec (Layout R) Unit)
    (fc : R) : Exec (PFB R) Unit := do
  onAnalog design
  let s ← Exec.get
  onDigital (transform s.analog.lay)
  onDigital (Layout.setNormal (if flt fc 0.25 then pi else 0) 1)
  let s ← Exec.get
  onCascade (Cascade.setLayout s.digital)

end PFB

open PFB

namespace Butterworth
/-- `LowPassBase::setup`, iir/Butterworth.cpp:107-117. -/
def lowPassSetup (order : Int) (fc : R) : Exec (PFB R) Unit :=
  designWith (lowPassDesign order) (lowPassTransform fc)
/-- `HighPassBase::setup`, iir/Butterworth.cpp:119-129. -/
def highPassSetup (order : Int) (fc : R) : Exec (PFB R) Unit :=
  designWith (lowPassDesign order) (highPassTransform fc)
/-- `BandPassBase::setup`, iir/Butterworth.cpp:131-143. -/
def bandPassSetup (order : Int) (fc fw : R) : Exec (PFB R) Unit :=
  designWith (lowPassDesign order) (bandPassTransform fc fw)
/-- `BandStopBase::setup`, iir/Butterworth.cpp:145-157. -/
def bandStopSetup (order : Int) (fc fw : R) : Exec (PFB R) Unit :=
  designWith (lowPassDesign order) (bandStopTransform fc fw)
/-- `LowShelfBase::setup`, iir/Butterworth.cpp:159-170. -/
def lowShelfSetup (order : Int) (fc gainDb : R) : Exec (PFB R) Unit :=
  designWith (lowShelfDesign order gainDb) (lowPassTransform fc)
/-- `HighShelfBase::setup`, iir/Butterworth.cpp:172-183. -/
def highShelfSetup (order : Int) (fc gainDb : R) : Exec (PFB R) Unit :=
  designWith (lowShelfDesign order gainDb) (highPassTransform fc)
/-- `BandShelfBase::setup`, iir/Butterworth.cpp:185-201. -/
def bandShelfSetup (order : Int) (fc fw gainDb : R) : Exec (PFB R) Unit :=
  designBandShelf (lowShelfDesign order gainDb) (bandPassTransform fc fw) fc
end Butterworth

namespace ChebyshevI
/-- `LowPassBase::setup`, iir/ChebyshevI.cpp:159-170. -/
def lowPassSetup (order : Int) (fc rippleDb : R) : Exec (PFB R) Unit :=
  designWith (lowPassDesign order rippleDb) (lowPassTransform fc)
/-- `HighPassBase::setup`, iir/ChebyshevI.cpp:172-183. -/
def highPassSetup (order : Int) (fc rippleDb : R) : Exec (PFB R) Unit :=
  designWith (lowPassDesign order rippleDb) (highPassTransform fc)
/-- `BandPassBase::setup`, iir/ChebyshevI.cpp:185-198. -/
def bandPassSetup (order : Int) (fc fw rippleDb : R) : Exec (PFB R) Unit :=
  designWith (lowPassDesign order rippleDb) (bandPassTransform fc fw)
/-- `BandStopBase::setup`, iir/ChebyshevI.cpp:200-213. -/
def bandStopSetup (order : Int) (fc fw rippleDb : R) : Exec (PFB R) Unit :=
  designWith (lowPassDesign order rippleDb) (bandStopTransform fc fw)
/-- `LowShelfBase::setup`, iir/ChebyshevI.cpp:215-227. -/
def lowShelfSetup (order : Int) (fc gainDb rippleDb : R) : Exec (PFB R) Unit :=
  designWith (lowShelfDesign order gainDb rippleDb) (lowPassTransform fc)
/-- `HighShelfBase::setup`, iir/ChebyshevI.cpp:229-241. -/
def highShelfSetup (order : Int) (fc gainDb rippleDb : R) : Exec (PFB R) Unit :=
  designWith (lowShelfDesign order gainDb rippleDb) (highPassTransform fc)
/-- `BandShelfBase::setup`, iir/ChebyshevI.cpp:243-259. -/
def bandShelfSetup (order : Int) (fc fw gainDb rippleDb : R) : Exec (PFB R) Unit :=
  designBandShelf (lowShelfDesign order gainDb rippleDb) (bandPassTransform fc fw) fc
end ChebyshevI

namespace ChebyshevII
/-- `LowPassBase::setup`, iir/ChebyshevII.cpp:160-171. -/
def lowPassSetup (order : Int) (fc stopBandDb : R) : Exec (PFB R) Unit :=
  designWith (lowPassDesign order stopBandDb) (lowPassTransform fc)
/-- `HighPassBase::setup`, iir/ChebyshevII.cpp:173-184. -/
def highPassSetup (order : Int) (fc stopBandDb : R) : Exec (PFB R) Unit :=
  designWith (lowPassDesign order stopBandDb) (highPassTransform fc)
/-- `BandPassBase::setup`, iir/ChebyshevII.cpp:186-199. -/
def bandPassSetup (order : Int) (fc fw stopBandDb : R) : Exec (PFB R) Unit :=
  designWith (lowPassDesign order stopBandDb) (bandPassTransform fc fw)
/-- `BandStopBase::setup`, iir/ChebyshevII.cpp:201-214. -/
def bandStopSetup (order : Int) (fc fw stopBandDb : R) : Exec (PFB R) Unit :=
  designWith (lowPassDesign order stopBandDb) (bandStopTransform fc fw)
/-- `LowShelfBase::setup`, iir/ChebyshevII.cpp:216-228. -/
def lowShelfSetup (order : Int) (fc gainDb stopBandDb : R) : Exec (PFB R) Unit :=
  designWith (lowShelfDesign order gainDb stopBandDb) (lowPassTransform fc)
/-- `HighShelfBase::setup`, iir/ChebyshevII.cpp:230-242. -/
def highShelfSetup (order : Int) (fc gainDb stopBandDb : R) : Exec (PFB R) Unit :=
  designWith (lowShelfDesign order gainDb stopBandDb) (highPassTransform fc)
/-- `BandShelfBase::setup`, iir/ChebyshevII.cpp:244-260. -/
def bandShelfSetup (order : Int) (fc fw gainDb stopBandDb : R) : Exec (PFB R) Unit :=
  designBandShelf (lowShelfDesign order gainDb stopBandDb) (bandPassTransform fc fw) fc
end ChebyshevII

/-! ## The 21 user classes -/

/-- The 21 filter class templates (names as in the headers). -/
inductive Cls
  | bwLowPass | bwHighPass | bwBandPass | bwBandStop | bwLowShelf | bwHighShelf | bwBandShelf
  | c1LowPass | c1HighPass | c1BandPass | c1BandStop | c1LowShelf | c1HighShelf | c1BandShelf
  | c2LowPass | c2HighPass | c2BandPass | c2BandStop | c2LowShelf | c2HighShelf | c2BandShelf
deriving DecidableEq, Repr

/-- `MaxDigitalPoles` of a class with template argument `FilterOrder = n`: `n`, or `n*2` for band
filters (iir/Butterworth.h:147,203,258,328,399,472,543; iir/ChebyshevI.h:155,224,293,374,456,537,620;
iir/ChebyshevII.h:159,231,302,384,466,550,635). -/
def Cls.maxDigital (n : Nat) : Cls → Nat
  | .bwBandPass | .bwBandStop | .bwBandShelf
  | .c1BandPass | .c1BandStop | .c1BandShelf
  | .c2BandPass | .c2BandStop | .c2BandShelf => n * 2
  | _ => n

/-- The default constructed `m_analogProto` of a class. -/
def Cls.protoInit : Cls → Proto R
  | .bwLowPass | .bwHighPass | .bwBandPass | .bwBandStop => Butterworth.lowPassInit
  | .bwLowShelf | .bwHighShelf | .bwBandShelf => Butterworth.lowShelfInit
  | .c1LowPass | .c1HighPass | .c1BandPass | .c1BandStop => ChebyshevI.lowPassInit
  | .c1LowShelf | .c1HighShelf | .c1BandShelf => ChebyshevI.lowShelfInit
  | .c2LowPass | .c2HighPass | .c2BandPass | .c2BandStop => ChebyshevII.lowPassInit
  | .c2LowShelf | .c2HighShelf | .c2BandShelf => ChebyshevII.lowShelfInit

/-- Arguments of `setup`/`setupN` after sample rate and order, for each class. -/
inductive Design (R : Type)
  | bwLowPass (fc : R) | bwHighPass (fc : R) | bwBandPass (fc fw : R) | bwBandStop (fc fw : R)
  | bwLowShelf (fc gainDb : R) | bwHighShelf (fc gainDb : R) | bwBandShelf (fc fw gainDb : R)
  | c1LowPass (fc rippleDb : R) | c1HighPass (fc rippleDb : R) | c1BandPass (fc fw rippleDb : R)
  | c1BandStop (fc fw rippleDb : R)
  | c1LowShelf (fc gainDb rippleDb : R) | c1HighShelf (fc gainDb rippleDb : R)
  | c1BandShelf (fc fw gainDb rippleDb : R)
  | c2LowPass (fc stopBandDb : R) | c2HighPass (fc stopBandDb : R) | c2BandPass (fc fw stopBandDb : R)
  | c2BandStop (fc fw stopBandDb : R)
  | c2LowShelf (fc gainDb stopBandDb : R) | c2HighShelf (fc gainDb stopBandDb : R)
  | c2BandShelf (fc fw gainDb stopBandDb : R)

namespace Design

/-- The class a `Design` belongs to. -/
def cls : Design R → Cls
  | bwLowPass .. => .bwLowPass | bwHighPass .. => .bwHighPass | bwBandPass .. => .bwBandPass
  | bwBandStop .. => .bwBandStop | bwLowShelf .. => .bwLowShelf | bwHighShelf .. => .bwHighShelf
  | bwBandShelf .. => .bwBandShelf
  | c1LowPass .. => .c1LowPass | c1HighPass .. => .c1HighPass | c1BandPass .. => .c1BandPass
  | c1BandStop .. => .c1BandStop | c1LowShelf .. => .c1LowShelf | c1HighShelf .. => .c1HighShelf
  | c1BandShelf .. => .c1BandShelf
  | c2LowPass .. => .c2LowPass | c2HighPass .. => .c2HighPass | c2BandPass .. => .c2BandPass
  | c2BandStop .. => .c2BandStop | c2LowShelf .. => .c2LowShelf | c2HighShelf .. => .c2HighShelf
  | c2BandShelf .. => .c2BandShelf

/-- What every `setup (sampleRate, …)` does with its frequencies before calling the base class:
`cutoffFrequency / sampleRate`, `centerFrequency / sampleRate`, `widthFrequency / sampleRate`
(iir/Butterworth.h:154-158 and the corresponding member of the 20 other classes). -/
def overFs (fs : R) : Design R → Design R
  | bwLowPass fc => bwLowPass (fc / fs)
  | bwHighPass fc => bwHighPass (fc / fs)
  | bwBandPass fc fw => bwBandPass (fc / fs) (fw / fs)
  | bwBandStop fc fw => bwBandStop (fc / fs) (fw / fs)
  | bwLowShelf fc g => bwLowShelf (fc / fs) g
  | bwHighShelf fc g => bwHighShelf (fc / fs) g
  | bwBandShelf fc fw g => bwBandShelf (fc / fs) (fw / fs) g
  | c1LowPass fc r => c1LowPass (fc / fs) r
  | c1HighPass fc r => c1HighPass (fc / fs) r
  | c1BandPass fc fw r => c1BandPass (fc / fs) (fw / fs) r
  | c1BandStop fc fw r => c1BandStop (fc / fs) (fw / fs) r
  | c1LowShelf fc g r => c1LowShelf (fc / fs) g r
  | c1HighShelf fc g r => c1HighShelf (fc / fs) g r
  | c1BandShelf fc fw g r => c1BandShelf (fc / fs) (fw / fs) g r
  | c2LowPass fc r => c2LowPass (fc / fs) r
  | c2HighPass fc r => c2HighPass (fc / fs) r
  | c2BandPass fc fw r => c2BandPass (fc / fs) (fw / fs) r
  | c2BandStop fc fw r => c2BandStop (fc / fs) (fw / fs) r
  | c2LowShelf fc g r => c2LowShelf (fc / fs) g r
  | c2HighShelf fc g r => c2HighShelf (fc / fs) g r
  | c2BandShelf fc fw g r => c2BandShelf (fc / fs) (fw / fs) g r

/-- The base class `setup (order, …)` of each class. -/
def baseSetup (order : Int) : Design R → Exec (PFB R) Unit
  | bwLowPass fc => Butterworth.lowPassSetup order fc
  | bwHighPass fc => Butterworth.highPassSetup order fc
  | bwBandPass fc fw => Butterworth.bandPassSetup order fc fw
  | bwBandStop fc fw => Butterworth.bandStopSetup order fc fw
  | bwLowShelf fc g => Butterworth.lowShelfSetup order fc g
  | bwHighShelf fc g => Butterworth.highShelfSetup order fc g
  | bwBandShelf fc fw g => Butterworth.bandShelfSetup order fc fw g
  | c1LowPass fc r => ChebyshevI.lowPassSetup order fc r
  | c1HighPass fc r => ChebyshevI.highPassSetup order fc r
  | c1BandPass fc fw r => ChebyshevI.bandPassSetup order fc fw r
  | c1BandStop fc fw r => ChebyshevI.bandStopSetup order fc fw r
  | c1LowShelf fc g r => ChebyshevI.lowShelfSetup order fc g r
  | c1HighShelf fc g r => ChebyshevI.highShelfSetup order fc g r
  | c1BandShelf fc fw g r => ChebyshevI.bandShelfSetup order fc fw g r
  | c2LowPass fc r => ChebyshevII.lowPassSetup order fc r
  | c2HighPass fc r => ChebyshevII.highPassSetup order fc r
  | c2BandPass fc fw r => ChebyshevII.bandPassSetup order fc fw r
  | c2BandStop fc fw r => ChebyshevII.bandStopSetup order fc fw r
  | c2LowShelf fc g r => ChebyshevII.lowShelfSetup order fc g r
  | c2HighShelf fc g r => ChebyshevII.highShelfSetup order fc g r
  | c2BandShelf fc fw g r => ChebyshevII.bandShelfSetup order fc fw g r

end Design

/-- The four overloads of `setup`/`setupN` each class has (iir/Butterworth.h:154-194 for
`Butterworth::LowPass`; same shape for the 20 others).  C++ overload resolution has been done. -/
inductive Call (R : Type)
  | setup (sampleRate : R) (d : Design R)
  | setupReq (reqOrder : Int) (sampleRate : R) (d : Design R)
  | setupN (d : Design R)
  | setupNReq (reqOrder : Int) (d : Design R)

/-- The design parameters passed to a call. -/
def Call.design : Call R → Design R
  | .setup _ d => d
  | .setupReq _ _ d => d
  | .setupN d => d
  | .setupNReq _ d => d

/-- Body of the four overloads, for `FilterOrder = n` (iir/Butterworth.h:154-194 and the
corresponding members of the other classes). -/
def Call.run (n : Nat) : Call R → Exec (PFB R) Unit
  | .setup fs d => (d.overFs fs).baseSetup n
  | .setupReq req fs d => do
    Exec.throwIf (decide (req > (n : Int))) .orderTooHigh
    (d.overFs fs).baseSetup req
  | .setupN d => d.baseSetup n
  | .setupNReq req d => do
    Exec.throwIf (decide (req > (n : Int))) .orderTooHigh
    d.baseSetup req

/-- A filter object `Cls<FilterOrder, StateType>`: base class members, arrays (owned, reached through
the base class pointers) and the delay lines `m_states`. -/
structure PoleFilter (S : Type → Type) (R : Type) where
  base : PFB R
  states : List (S R)

namespace PoleFilter
variable {S : Type → Type} [StateType S R]

/-- Number of stages `(MaxDigitalPoles + 1) / 2` of a class, iir/PoleFilter.h:118. -/
def numStages (c : Cls) (n : Nat) : Nat := (c.maxDigital n + 1) / 2

/-- The base class members after the constructor `PoleFilter ()`, iir/PoleFilter.h:121-128. -/
def initBase (c : Cls) (n : Nat) : PFB R :=
  { cascade := { numStages := 0, maxStages := numStages c n,
                 stages := CascadeStages.initStages (numStages c n) },
    analog := { (c.protoInit : Proto R) with
                lay := (c.protoInit : Proto R).lay.setStorage (Layout.storage n) },
    digital := Layout.storage (c.maxDigital n) }

/-- The constructor `PoleFilter ()`, iir/PoleFilter.h:121-128. -/
def init (S : Type → Type) [StateType S R] (c : Cls) (n : Nat) : PoleFilter S R :=
  { base := initBase c n,
    states := CascadeStages.reset (CascadeStages.initStates S (numStages c n)) }

/-- `setup`/`setupN`. -/
def setup (n : Nat) (c : Call R) : Exec (PoleFilter S R) Unit :=
  Exec.zoom PoleFilter.base (fun b f => { f with base := b }) (c.run n)

/-- `reset ()`, iir/Cascade.h:126-130. -/
def reset : Exec (PoleFilter S R) Unit :=
  Exec.modify fun f => { f with states := CascadeStages.reset f.states }

/-- `filter<Sample> (in)`, iir/Cascade.h:156-164: all stages of `m_stages` are run, whatever
`m_numStages` is. -/
def filter {T : Type} [Sample T R] (x : T) : Exec (PoleFilter S R) T := fun f =>
  Exec.zoom PoleFilter.states (fun s f => { f with states := s })
    (CascadeStages.filter f.base.cascade.stages x) f

/-- `response`, iir/Cascade.cpp:52-76 (const member of the base `Cascade`). -/
def response (f : PoleFilter S R) (nf : R) : Res (Cx R) := f.base.cascade.response nf

/-- `getPoleZeros`, iir/PoleFilter.h:75-82. -/
def getPoleZeros (f : PoleFilter S R) : Res (List (PoleZeroPair R)) := f.base.getPoleZeros

/-- `getNumStages`, iir/Cascade.h:70-73. -/
def getNumStages (f : PoleFilter S R) : Nat := f.base.cascade.numStages

/-- `operator[]`, iir/Cascade.h:78-83. -/
def getStage (f : PoleFilter S R) (i : Int) : Res (Biquad R) := f.base.cascade.getStage i

/-- `Cascade::applyScale`, public, iir/Cascade.cpp:93-97. -/
def applyScale (scale : R) : Exec (PoleFilter S R) Unit :=
  Exec.zoom PoleFilter.base (fun b f => { f with base := b })
    (PFB.onCascade (Cascade.applyScale scale))

end PoleFilter
end Iir
