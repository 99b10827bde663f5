import Verif.Model.Cascade

/-! # RBJ and custom filters: `RBJ.{h,cpp}`, `Custom.{h,cpp}` -/

namespace Iir
open FArith Cx

variable {R : Type} [FArith R]

namespace RBJ

/-- `ONESQRT2`, iir/RBJ.h:59: `(1/sqrt(2))`. -/
def oneSqrt2 : R := 1 / sqrt 2

/-- `RBJbase`, iir/RBJ.h:66-84: a biquad with its own Direct Form I delay line. -/
structure Filter (R : Type) where
  biquad : Biquad R
  state : DirectFormI R

/-- Default constructed filter, iir/RBJ.h:83, iir/State.h:82-85 and iir/Biquad.h:160-165. -/
def Filter.init : Filter R := { biquad := .default, state := { x2 := 0, y2 := 0, x1 := 0, y1 := 0 } }

/-- `filter<Sample>`, iir/RBJ.h:71-73. -/
def Filter.filter {T : Type} [Sample T R] (s : T) : Exec (Filter R) T := fun f =>
  let r := DirectFormI.filter (Sample.toR s : R) f.biquad f.state
  (Sample.ofR r.1, { f with state := r.2 })

/-- `reset`, iir/RBJ.h:75-77. -/
def Filter.reset : Exec (Filter R) Unit :=
  Exec.modify fun f => { f with state := DirectFormI.reset f.state }

/-- `LowPass::setupN`, iir/RBJ.cpp:43-57. -/
def lowPass (cutoffFrequency q : R) : Exec (Biquad R) Unit :=
  let w0 := 2 * pi * cutoffFrequency
  let cs := cos w0
  let sn := sin w0
  let AL := sn / (2 * q)
  let b0 := (1 - cs) / 2
  let b1 := 1 - cs
  let b2 := (1 - cs) / 2
  let a0 := 1 + AL
  let a1 := -2 * cs
  let a2 := 1 - AL
  Biquad.setCoefficients a0 a1 a2 b0 b1 b2

/-- `HighPass::setupN`, iir/RBJ.cpp:59-73. -/
def highPass (cutoffFrequency q : R) : Exec (Biquad R) Unit :=
  let w0 := 2 * pi * cutoffFrequency
  let cs := cos w0
  let sn := sin w0
  let AL := sn / (2 * q)
  let b0 := (1 + cs) / 2
  let b1 := -(1 + cs)
  let b2 := (1 + cs) / 2
  let a0 := 1 + AL
  let a1 := -2 * cs
  let a2 := 1 - AL
  Biquad.setCoefficients a0 a1 a2 b0 b1 b2

/-- `BandPass1::setupN`, iir/RBJ.cpp:75-89. -/
def bandPass1 (centerFrequency bandWidth : R) : Exec (Biquad R) Unit :=
  let w0 := 2 * pi * centerFrequency
  let cs := cos w0
  let sn := sin w0
  let AL := sn / (2 * bandWidth)
  let b0 := bandWidth * AL
  let b1 := 0
  let b2 := -bandWidth * AL
  let a0 := 1 + AL
  let a1 := -2 * cs
  let a2 := 1 - AL
  Biquad.setCoefficients a0 a1 a2 b0 b1 b2

/-- `BandPass2::setupN`, iir/RBJ.cpp:91-105. -/
def bandPass2 (centerFrequency bandWidth : R) : Exec (Biquad R) Unit :=
  let w0 := 2 * pi * centerFrequency
  let cs := cos w0
  let sn := sin w0
  let AL := sn / (2 * bandWidth)
  let b0 := AL
  let b1 := 0
  let b2 := -AL
  let a0 := 1 + AL
  let a1 := -2 * cs
  let a2 := 1 - AL
  Biquad.setCoefficients a0 a1 a2 b0 b1 b2

/-- `BandStop::setupN`, iir/RBJ.cpp:107-121. -/
def bandStop (centerFrequency bandWidth : R) : Exec (Biquad R) Unit :=
  let w0 := 2 * pi * centerFrequency
  let cs := cos w0
  let sn := sin w0
  let AL := sn / (2 * bandWidth)
  let b0 := 1
  let b1 := -2 * cs
  let b2 := 1
  let a0 := 1 + AL
  let a1 := -2 * cs
  let a2 := 1 - AL
  Biquad.setCoefficients a0 a1 a2 b0 b1 b2

/-- `IIRNotch::setupN`, iir/RBJ.cpp:123-136. -/
def iirNotch (centerFrequency q_factor : R) : Exec (Biquad R) Unit :=
  let w0 := 2 * pi * centerFrequency
  let cs := cos w0
  let r := exp (-(w0 / 2) / q_factor)
  let b0 := 1
  let b1 := -2 * cs
  let b2 := 1
  let a0 := 1
  let a1 := -2 * r * cs
  let a2 := r * r
  Biquad.setCoefficients a0 a1 a2 b0 b1 b2

/-- `LowShelf::setupN`, iir/RBJ.cpp:138-155. -/
def lowShelf (cutoffFrequency gainDb shelfSlope : R) : Exec (Biquad R) Unit :=
  let A := pow 10 (gainDb / 40)
  let w0 := 2 * pi * cutoffFrequency
  let cs := cos w0
  let sn := sin w0
  let AL := sn / 2 * sqrt ((A + 1 / A) * (1 / shelfSlope - 1) + 2)
  let sq := 2 * sqrt A * AL
  let b0 := A * ((A + 1) - (A - 1) * cs + sq)
  let b1 := 2 * A * ((A - 1) - (A + 1) * cs)
  let b2 := A * ((A + 1) - (A - 1) * cs - sq)
  let a0 := (A + 1) + (A - 1) * cs + sq
  let a1 := -2 * ((A - 1) + (A + 1) * cs)
  let a2 := (A + 1) + (A - 1) * cs - sq
  Biquad.setCoefficients a0 a1 a2 b0 b1 b2

/-- `HighShelf::setupN`, iir/RBJ.cpp:158-175. -/
def highShelf (cutoffFrequency gainDb shelfSlope : R) : Exec (Biquad R) Unit :=
  let A := pow 10 (gainDb / 40)
  let w0 := 2 * pi * cutoffFrequency
  let cs := cos w0
  let sn := sin w0
  let AL := sn / 2 * sqrt ((A + 1 / A) * (1 / shelfSlope - 1) + 2)
  let sq := 2 * sqrt A * AL
  let b0 := A * ((A + 1) + (A - 1) * cs + sq)
  let b1 := -2 * A * ((A - 1) + (A + 1) * cs)
  let b2 := A * ((A + 1) + (A - 1) * cs - sq)
  let a0 := (A + 1) - (A - 1) * cs + sq
  let a1 := 2 * ((A - 1) - (A + 1) * cs)
  let a2 := (A + 1) - (A - 1) * cs - sq
  Biquad.setCoefficients a0 a1 a2 b0 b1 b2

/-- `BandShelf::setupN`, iir/RBJ.cpp:178-196. -/
def bandShelf (centerFrequency gainDb bandWidth : R) : Exec (Biquad R) Unit :=
  let A := pow 10 (gainDb / 40)
  let w0 := 2 * pi * centerFrequency
  let cs := cos w0
  let sn := sin w0
  let AL := sn * sinh (ln2 / 2 * bandWidth * w0 / sn)
  do
    Exec.throwIf (FArith.isNan AL) .noSolution
    let b0 := 1 + AL * A
    let b1 := -2 * cs
    let b2 := 1 - AL * A
    let a0 := 1 + AL / A
    let a1 := -2 * cs
    let a2 := 1 - AL / A
    Biquad.setCoefficients a0 a1 a2 b0 b1 b2

/-- `AllPass::setupN`, iir/RBJ.cpp:198-212. -/
def allPass (phaseFrequency q : R) : Exec (Biquad R) Unit :=
  let w0 := 2 * pi * phaseFrequency
  let cs := cos w0
  let sn := sin w0
  let AL := sn / (2 * q)
  let b0 := 1 - AL
  let b1 := -2 * cs
  let b2 := 1 + AL
  let a0 := 1 + AL
  let a1 := -2 * cs
  let a2 := 1 - AL
  Biquad.setCoefficients a0 a1 a2 b0 b1 b2

/-- The ten RBJ classes with the arguments of `setupN` (iir/RBJ.h:89-357). -/
inductive Design (R : Type)
  | lowPass (fc q : R) | highPass (fc q : R) | bandPass1 (fc bw : R) | bandPass2 (fc bw : R)
  | bandStop (fc bw : R) | iirNotch (fc q : R) | lowShelf (fc gainDb slope : R)
  | highShelf (fc gainDb slope : R) | bandShelf (fc gainDb bw : R) | allPass (fc q : R)

/-- `setupN` of the ten classes, iir/RBJ.cpp:43-212. -/
def Design.setupN : Design R → Exec (Biquad R) Unit
  | .lowPass fc q => RBJ.lowPass fc q
  | .highPass fc q => RBJ.highPass fc q
  | .bandPass1 fc bw => RBJ.bandPass1 fc bw
  | .bandPass2 fc bw => RBJ.bandPass2 fc bw
  | .bandStop fc bw => RBJ.bandStop fc bw
  | .iirNotch fc q => RBJ.iirNotch fc q
  | .lowShelf fc g s => RBJ.lowShelf fc g s
  | .highShelf fc g s => RBJ.highShelf fc g s
  | .bandShelf fc g bw => RBJ.bandShelf fc g bw
  | .allPass fc q => RBJ.allPass fc q

/-- `setup (sampleRate, …)` calls `setupN (f / sampleRate, …)`: iir/RBJ.h:105-109,130-134,155-159,
180-184,206-210,239-243,267-272,296-301,325-330,352-356. -/
def Design.overFs (fs : R) : Design R → Design R
  | .lowPass fc q => .lowPass (fc / fs) q
  | .highPass fc q => .highPass (fc / fs) q
  | .bandPass1 fc bw => .bandPass1 (fc / fs) bw
  | .bandPass2 fc bw => .bandPass2 (fc / fs) bw
  | .bandStop fc bw => .bandStop (fc / fs) bw
  | .iirNotch fc q => .iirNotch (fc / fs) q
  | .lowShelf fc g s => .lowShelf (fc / fs) g s
  | .highShelf fc g s => .highShelf (fc / fs) g s
  | .bandShelf fc g bw => .bandShelf (fc / fs) g bw
  | .allPass fc q => .allPass (fc / fs) q

/-- `setup (sampleRate, …)`. -/
def Design.setup (fs : R) (d : Design R) : Exec (Biquad R) Unit := (d.overFs fs).setupN

/-- `setupN` of a filter object (the delay line is not touched). -/
def Filter.setupN (d : Design R) : Exec (Filter R) Unit :=
  Exec.zoom Filter.biquad (fun b f => { f with biquad := b }) d.setupN

/-- `setup` of a filter object (the delay line is not touched). -/
def Filter.setup (fs : R) (d : Design R) : Exec (Filter R) Unit :=
  Exec.zoom Filter.biquad (fun b f => { f with biquad := b }) (d.setup fs)

end RBJ

namespace Custom

/-- `OnePole::setup`, iir/Custom.cpp:43-49 (`double` arguments converted to `complex_t`). -/
def onePole (scale pole zero : R) : Exec (Biquad R) Unit := do
  Biquad.setOnePole (ofR pole) (ofR zero)
  Biquad.applyScale scale

/-- `TwoPole::setup`, iir/Custom.cpp:51-62. -/
def twoPole (scale poleRho poleTheta zeroRho zeroTheta : R) : Exec (Biquad R) Unit := do
  let pole ← Exec.lift (polarC poleRho poleTheta)
  let zero ← Exec.lift (polarC zeroRho zeroTheta)
  Biquad.setTwoPole pole zero (conj pole) (conj zero)
  Biquad.applyScale scale

/-- `SOSCascade<NSOS, StateType>`, iir/Custom.h:89-123: `m_stages` and `m_states` of
`CascadeStages`. -/
structure SOS (S : Type → Type) (R : Type) where
  stages : List (Biquad R)
  states : List (S R)

namespace SOS
variable {S : Type → Type} [StateType S R]

/-- Default constructor, iir/Custom.h:96. -/
def init (S : Type → Type) [StateType S R] (nsos : Nat) : SOS S R :=
  { stages := CascadeStages.initStages nsos, states := CascadeStages.initStates S nsos }

/-- `setup`, iir/Custom.h:120-122. -/
def setup (sos : List (CascadeStages.SosRow R)) : Exec (SOS S R) Unit :=
  Exec.zoom SOS.stages (fun b f => { f with stages := b }) (CascadeStages.setup sos)

/-- The constructor taking coefficients, iir/Custom.h:107-109. -/
def ofCoefficients (sos : List (CascadeStages.SosRow R)) : Res (SOS S R) :=
  match setup sos (init S sos.length) with
  | (.ok _, f) => .ok f
  | (.throw e, _) => .throw e
  | (.ub u, _) => .ub u

/-- `reset`, iir/Cascade.h:126-130. -/
def reset : Exec (SOS S R) Unit :=
  Exec.modify fun f => { f with states := CascadeStages.reset f.states }

/-- `filter`, iir/Cascade.h:156-164. -/
def filter {T : Type} [Sample T R] (x : T) : Exec (SOS S R) T := fun f =>
  Exec.zoom SOS.states (fun s f => { f with states := s }) (CascadeStages.filter f.stages x) f

end SOS
end Custom
end Iir
