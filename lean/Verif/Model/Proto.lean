import Verif.Model.PoleFilter

/-! # Analog prototypes: `Butterworth.cpp`, `ChebyshevI.cpp`, `ChebyshevII.cpp`

The six classes `AnalogLowPass` / `AnalogLowShelf` of the three namespaces all derive from
`LayoutBase` and add the parameters of the last design (`m_numPoles`, and a subset of `m_gainDb`,
`m_rippleDb`, `m_stopBandDb`).  One structure serves for all six: a class that lacks a member never
reads or writes the field standing for it.  `rippleDb` stands for `m_rippleDb` and `m_stopBandDb`. -/

namespace Iir
open FArith Cx

/-- Members of the analog prototypes: iir/Butterworth.h:65,81-82, iir/ChebyshevI.h:64-65,81-83,
iir/ChebyshevII.h (same members with `m_stopBandDb`), on top of `LayoutBase`. -/
structure Proto (R : Type) where
  lay : Layout R
  numPoles : Int
  gainDb : R
  rippleDb : R

variable {R : Type} [FArith R]

namespace Proto

/-- A call to a `LayoutBase` member. -/
def onLay {α : Type} (m : Exec (Layout R) α) : Exec (Proto R) α :=
  Exec.zoom Proto.lay (fun l p => { p with lay := l }) m

/-- `int` to `double` -/
def ofI (i : Int) : R := FArith.ofInt i

/-- Shape of the six `design` members: if the arguments differ from those of the last design, store
them and rebuild the layout. -/
def cached (stale : Proto R → Bool) (setKey : Proto R → Proto R) (build : Exec (Layout R) Unit) :
    Exec (Proto R) Unit := do
  let s ← Exec.get
  if stale s then do
    Exec.modify setKey
    onLay build
  else Exec.pure ()

end Proto

open Proto

namespace Butterworth

/-- `AnalogLowPass::AnalogLowPass`, iir/Butterworth.cpp:43-47. -/
def lowPassInit : Proto R :=
  { lay := { Layout.empty with normalW := 0, normalGain := 1 }, numPoles := -1, gainDb := 0,
    rippleDb := 0 }

/-- `AnalogLowShelf::AnalogLowShelf`, iir/Butterworth.cpp:72-76. -/
def lowShelfInit : Proto R :=
  { lay := { Layout.empty with normalW := pi, normalGain := 1 }, numPoles := -1, gainDb := 0,
    rippleDb := 0 }

/-- Body of `AnalogLowPass::design`, iir/Butterworth.cpp:49-68 inside the `if`. -/
def lowPassBuild (numPoles : Int) : Exec (Layout R) Unit := do
  Layout.reset
  let n2i ← intChecked (2 * numPoles)
  let n2 : R := ofI n2i
  let pairs := numPoles.tdiv 2
  Exec.loop pairs.toNat fun i => do
    let c ← Exec.lift (polarC (1 : R) (pi2 + ofI (2 * i + 1) * pi / n2))
    Layout.addPoleZeroConjugatePairs c infinity
  if numPoles % 2 == 1 then
    Layout.add (ofR (-1)) infinity
  else Exec.pure ()

/-- `AnalogLowPass::design`, iir/Butterworth.cpp:49-68. -/
def lowPassDesign (numPoles : Int) : Exec (Proto R) Unit :=
  cached (fun s => s.numPoles != numPoles)
    (fun s => { s with numPoles := numPoles })
    (lowPassBuild numPoles)

/-- Body of `AnalogLowShelf::design`, iir/Butterworth.cpp:78-103 inside the `if`. -/
def lowShelfBuild (numPoles : Int) (gainDb : R) : Exec (Layout R) Unit := do
  Layout.reset
  let n2i ← intChecked (numPoles * 2)
  let n2 : R := ofI n2i
  let g := pow (pow 10 (gainDb / 20)) (1 / n2)
  let gp := -1 / g
  let gz := -g
  let pairs := numPoles.tdiv 2
  Exec.loop pairs.toNat fun j => do
    -- `for (int i = 1; i <= pairs; ++i)` with i = j + 1
    let i : Int := j + 1
    let theta := pi * (0.5 - ofI (2 * i - 1) / n2)
    let p ← Exec.lift (polarC gp theta)
    let z ← Exec.lift (polarC gz theta)
    Layout.addPoleZeroConjugatePairs p z
  if numPoles % 2 == 1 then
    Layout.add (ofR gp) (ofR gz)
  else Exec.pure ()

/-- `AnalogLowShelf::design`, iir/Butterworth.cpp:78-103. -/
def lowShelfDesign (numPoles : Int) (gainDb : R) : Exec (Proto R) Unit :=
  cached (fun s => s.numPoles != numPoles || fne s.gainDb gainDb)
    (fun s => { s with numPoles := numPoles, gainDb := gainDb })
    (lowShelfBuild numPoles gainDb)

end Butterworth

namespace ChebyshevI

/-- `AnalogLowPass::AnalogLowPass`, iir/ChebyshevI.cpp:43-46. -/
def lowPassInit : Proto R :=
  { lay := Layout.empty, numPoles := -1, gainDb := 0, rippleDb := 0 }

/-- `AnalogLowShelf::AnalogLowShelf`, iir/ChebyshevI.cpp:96-99 (`m_numPoles` keeps its default 0). -/
def lowShelfInit : Proto R :=
  { lay := { Layout.empty with normalW := pi, normalGain := 1 }, numPoles := 0, gainDb := 0,
    rippleDb := 0 }

/-- Body of `AnalogLowPass::design`, iir/ChebyshevI.cpp:48-85 inside the `if`. -/
def lowPassBuild (numPoles : Int) (rippleDb : R) : Exec (Layout R) Unit := do
  Layout.reset
  let eps := sqrt (1 / exp (-rippleDb * 0.1 * ln10) - 1)
  let v0 := asinh (1 / eps) / ofI numPoles
  let sinh_v0 := -sinh v0
  let cosh_v0 := cosh v0
  let n2i ← intChecked (2 * numPoles)
  let n2 : R := ofI n2i
  let pairs := numPoles.tdiv 2
  Exec.loop pairs.toNat fun i => do
    let k : Int := 2 * i + 1 - numPoles
    let a := sinh_v0 * cos (ofI k * pi / n2)
    let b := cosh_v0 * sin (ofI k * pi / n2)
    Layout.addPoleZeroConjugatePairs ⟨a, b⟩ infinity
  if numPoles % 2 == 1 then do
    Layout.add ⟨sinh_v0, 0⟩ infinity
    Layout.setNormal 0 1
  else
    Layout.setNormal 0 (pow 10 (-rippleDb / 20))

/-- `AnalogLowPass::design`, iir/ChebyshevI.cpp:48-85. -/
def lowPassDesign (numPoles : Int) (rippleDb : R) : Exec (Proto R) Unit :=
  cached (fun s => s.numPoles != numPoles || fne s.rippleDb rippleDb)
    (fun s => { s with numPoles := numPoles, rippleDb := rippleDb })
    (lowPassBuild numPoles rippleDb)

/-- Body of `AnalogLowShelf::design`, iir/ChebyshevI.cpp:101-155 inside the `if`. -/
def lowShelfBuild (numPoles : Int) (gainDb rippleDb : R) : Exec (Layout R) Unit := do
  Layout.reset
  let gainDb := -gainDb
  let rippleDb := if fle (fabs gainDb) rippleDb then fabs gainDb else rippleDb
  let rippleDb := if flt gainDb 0 then -rippleDb else rippleDb
  let G := pow 10 (gainDb / 20)
  let Gb := pow 10 ((gainDb - rippleDb) / 20)
  let G0 : R := 1
  let g0 := pow G0 (1 / ofI numPoles)
  let eps := if fne Gb G0 then sqrt ((G * G - Gb * Gb) / (Gb * Gb - G0 * G0)) else G - 1
  let b := pow (G / eps + Gb * sqrt (1 + 1 / (eps * eps))) (1 / ofI numPoles)
  let u := log (b / g0)
  let v := log (pow (1 / eps + sqrt (1 + 1 / (eps * eps))) (1 / ofI numPoles))
  let sinh_u := sinh u
  let sinh_v := sinh v
  let cosh_u := cosh u
  let cosh_v := cosh v
  let n2i ← intChecked (2 * numPoles)
  let n2 : R := ofI n2i
  let pairs := numPoles.tdiv 2
  Exec.loop pairs.toNat fun j => do
    -- `for (int i = 1; i <= pairs; ++i)` with i = j + 1
    let i : Int := j + 1
    let a := pi * ofI (2 * i - 1) / n2
    let sn := sin a
    let cs := cos a
    Layout.addPoleZeroConjugatePairs ⟨-sn * sinh_u, cs * cosh_u⟩
      ⟨-sn * sinh_v, cs * cosh_v⟩
  if numPoles % 2 == 1 then
    Layout.add (ofR (-sinh_u)) (ofR (-sinh_v))
  else Exec.pure ()

/-- `AnalogLowShelf::design`, iir/ChebyshevI.cpp:101-155. -/
def lowShelfDesign (numPoles : Int) (gainDb rippleDb : R) : Exec (Proto R) Unit :=
  cached (fun s => s.numPoles != numPoles || fne s.rippleDb rippleDb || fne s.gainDb gainDb)
    (fun s => { s with numPoles := numPoles, rippleDb := rippleDb, gainDb := gainDb })
    (lowShelfBuild numPoles gainDb rippleDb)

end ChebyshevI

namespace ChebyshevII

/-- `AnalogLowPass::AnalogLowPass`, iir/ChebyshevII.cpp:46-50. -/
def lowPassInit : Proto R :=
  { lay := { Layout.empty with normalW := 0, normalGain := 1 }, numPoles := -1, gainDb := 0,
    rippleDb := 0 }

/-- `AnalogLowShelf::AnalogLowShelf`, iir/ChebyshevII.cpp:96-100. -/
def lowShelfInit : Proto R :=
  { lay := { Layout.empty with normalW := pi, normalGain := 1 }, numPoles := -1, gainDb := 0,
    rippleDb := 0 }

/-- Body of `AnalogLowPass::design`, iir/ChebyshevII.cpp:52-85 inside the `if`. -/
def lowPassBuild (numPoles : Int) (stopBandDb : R) : Exec (Layout R) Unit := do
  Layout.reset
  let eps := sqrt (1 / (exp (stopBandDb * 0.1 * ln10) - 1))
  let v0 := asinh (1 / eps) / ofI numPoles
  let sinh_v0 := -sinh v0
  let cosh_v0 := cosh v0
  let n2i ← intChecked (2 * numPoles)
  let fn := pi / ofI n2i
  -- `int k = 1; for (int i = numPoles / 2; --i >= 0; k+=2)`: k = 2 j + 1 in round j
  Exec.loop (numPoles.tdiv 2).toNat fun j => do
    let k : Int := 2 * j + 1
    let a := sinh_v0 * cos (ofI (k - numPoles) * fn)
    let b := cosh_v0 * sin (ofI (k - numPoles) * fn)
    let d2 := a * a + b * b
    let im := 1 / cos (ofI k * fn)
    Layout.addPoleZeroConjugatePairs ⟨a / d2, b / d2⟩ ⟨0, im⟩
  if numPoles % 2 == 1 then
    Layout.add (ofR (1 / sinh_v0)) infinity
  else Exec.pure ()

/-- `AnalogLowPass::design`, iir/ChebyshevII.cpp:52-85. -/
def lowPassDesign (numPoles : Int) (stopBandDb : R) : Exec (Proto R) Unit :=
  cached (fun s => s.numPoles != numPoles || fne s.rippleDb stopBandDb)
    (fun s => { s with numPoles := numPoles, rippleDb := stopBandDb })
    (lowPassBuild numPoles stopBandDb)

/-- Body of `AnalogLowShelf::design`, iir/ChebyshevII.cpp:102-156 inside the `if`. -/
def lowShelfBuild (numPoles : Int) (gainDb stopBandDb : R) : Exec (Layout R) Unit := do
  Layout.reset
  let gainDb := -gainDb
  let stopBandDb := if fle (fabs gainDb) stopBandDb then fabs gainDb else stopBandDb
  let stopBandDb := if flt gainDb 0 then -stopBandDb else stopBandDb
  let G := pow 10 (gainDb / 20)
  let Gb := pow 10 ((gainDb - stopBandDb) / 20)
  let G0 : R := 1
  let g0 := pow G0 (1 / ofI numPoles)
  let eps := if fne Gb G0 then sqrt ((G * G - Gb * Gb) / (Gb * Gb - G0 * G0)) else G - 1
  let b := pow (G / eps + Gb * sqrt (1 + 1 / (eps * eps))) (1 / ofI numPoles)
  let u := log (b / g0)
  let v := log (pow (1 / eps + sqrt (1 + 1 / (eps * eps))) (1 / ofI numPoles))
  let sinh_u := sinh u
  let sinh_v := sinh v
  let cosh_u := cosh u
  let cosh_v := cosh v
  let n2i ← intChecked (2 * numPoles)
  let n2 : R := ofI n2i
  let pairs := numPoles.tdiv 2
  Exec.loop pairs.toNat fun j => do
    -- `for (int i = 1; i <= pairs; ++i)` with i = j + 1
    let i : Int := j + 1
    let a := pi * ofI (2 * i - 1) / n2
    let sn := sin a
    let cs := cos a
    Layout.addPoleZeroConjugatePairs ⟨-sn * sinh_u, cs * cosh_u⟩
      ⟨-sn * sinh_v, cs * cosh_v⟩
  if numPoles % 2 == 1 then
    Layout.add (ofR (-sinh_u)) (ofR (-sinh_v))
  else Exec.pure ()

/-- `AnalogLowShelf::design`, iir/ChebyshevII.cpp:102-156. -/
def lowShelfDesign (numPoles : Int) (gainDb stopBandDb : R) : Exec (Proto R) Unit :=
  cached (fun s => s.numPoles != numPoles || fne s.rippleDb stopBandDb || fne s.gainDb gainDb)
    (fun s => { s with numPoles := numPoles, rippleDb := stopBandDb, gainDb := gainDb })
    (lowShelfBuild numPoles gainDb stopBandDb)

end ChebyshevII
end Iir
