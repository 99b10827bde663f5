import Verif.Model.Cascade

/-! # s-plane to z-plane transforms: `PoleFilter.h`, `PoleFilter.cpp` -/

namespace Iir
open FArith Cx

variable {R : Type} [FArith R]

/-- `1. + c` over `1. - c`: the bilinear map as written in iir/PoleFilter.cpp:56,103,200,286. -/
def bilinear (c : Cx R) : Cx R := cdiv (addR c 1) (rsub 1 c)

/-- The frequency checks at the start of every transform, iir/PoleFilter.cpp:64-65,110-111,145-146,
229-230. -/
def checkFreq {σ : Type} (fc : R) : Exec σ Unit := do
  Exec.throwIf (!(flt fc 0.5)) .cutoffTooHigh
  Exec.throwIf (flt fc 0) .cutoffNegative

/-- `LowPassTransform::transform`, iir/PoleFilter.cpp:47-57. -/
def lpTransform (f : R) (c : Cx R) : Cx R :=
  if ceq c infinity then ofR (-1)
  else bilinear (mulR c f)

/-- `HighPassTransform::transform`, iir/PoleFilter.cpp:94-104 (`- (1. + c) / (1. - c)`: the minus
applies to the numerator). -/
def hpTransform (f : R) (c : Cx R) : Cx R :=
  if ceq c infinity then ofR 1
  else
    let c := mulR c f
    cdiv (cneg (addR c 1)) (rsub 1 c)

/-- The loop shared by `LowPassTransform` and `HighPassTransform`, iir/PoleFilter.cpp:72-86 and
118-132. -/
def mapLayout (tr : Cx R → Cx R) (analog : Layout R) : Exec (Layout R) Unit := do
  let numPoles := analog.numPoles
  let pairs := numPoles / 2
  Exec.loop pairs fun i => do
    let pair ← Exec.lift (analog.getPair i)
    Layout.addPoleZeroConjugatePairs (tr pair.poles.first) (tr pair.zeros.first)
  if numPoles % 2 == 1 then do
    let pair ← Exec.lift (analog.getPair pairs)
    Layout.add (tr pair.poles.first) (tr pair.zeros.first)
  else return ()

/-- `LowPassTransform::LowPassTransform`, iir/PoleFilter.cpp:59-90. -/
def lowPassTransform (fc : R) (analog : Layout R) : Exec (Layout R) Unit := do
  checkFreq fc
  Layout.reset
  let f := tan (pi * fc)
  mapLayout (lpTransform f) analog
  Layout.setNormal analog.normalW analog.normalGain

/-- `HighPassTransform::HighPassTransform`, iir/PoleFilter.cpp:106-136. -/
def highPassTransform (fc : R) (analog : Layout R) : Exec (Layout R) Unit := do
  checkFreq fc
  Layout.reset
  let f := 1 / tan (pi * fc)
  mapLayout (hpTransform f) analog
  Layout.setNormal (pi - analog.normalW) analog.normalGain

/-- Clamped band edges `wc2` (lower) and `wc` (upper), iir/PoleFilter.cpp:150-160,234-243. -/
def bandEdges (fc fw : R) : R × R :=
  let ww := 2 * pi * fw
  let wc2 := 2 * pi * fc - (ww / 2)
  let wc := wc2 + ww
  let wc2 := if flt wc2 1e-8 then 1e-8 else wc2
  let wc := if flt (pi - 1e-8) wc then pi - 1e-8 else wc
  (wc2, wc)

/-- `BandPassTransform::transform`, iir/PoleFilter.cpp:195-220, with the members `a`, `b`
(`a2 = a*a`, `b2 = b*b`, `ab = a*b`, `ab_2 = 2*ab`, lines 165-168). -/
def bpTransform (a b : R) (c : Cx R) : ComplexPair R :=
  let a2 := a * a
  let b2 := b * b
  let ab := a * b
  let ab_2 := 2 * ab
  if ceq c infinity then ⟨ofR (-1), ofR 1⟩
  else
    let c := bilinear c
    let v : Cx R := ofR 0
    let v := addmul v (4 * (b2 * (a2 - 1) + 1)) c
    let v := addR v (8 * (b2 * (a2 - 1) - 1))
    let v := cmul v c
    let v := addR v (4 * (b2 * (a2 - 1) + 1))
    let v := csqrt v
    let u := cneg v
    let u := addmul u ab_2 c
    let u := addR u ab_2
    let v := addmul v ab_2 c
    let v := addR v ab_2
    let d : Cx R := ofR 0
    let d := addR (addmul d (2 * (b - 1)) c) (2 * (1 + b))
    ⟨cdiv u d, cdiv v d⟩

/-- `BandStopTransform::transform`, iir/PoleFilter.cpp:281-307 (`a2 = a*a`, `b2 = b*b`, 248-249). -/
def bsTransform (a b : R) (c : Cx R) : ComplexPair R :=
  let a2 := a * a
  let b2 := b * b
  let c := if ceq c infinity then ofR (-1) else bilinear c
  let u : Cx R := ofR 0
  let u := addmul u (4 * (b2 + a2 - 1)) c
  let u := addR u (8 * (b2 - a2 + 1))
  let u := cmul u c
  let u := addR u (4 * (a2 + b2 - 1))
  let u := csqrt u
  let v := mulR u (-0.5)
  let v := addR v a
  let v := addmul v (-a) c
  let u := mulR u 0.5
  let u := addR u a
  let u := addmul u (-a) c
  let d : Cx R := ofR (b + 1)
  let d := addmul d (b - 1) c
  ⟨cdiv u d, cdiv v d⟩

/-- The two loops of `BandPassTransform`, iir/PoleFilter.cpp:170-188 (pairs, then the odd pole). -/
def bpLayout (a b : R) (analog : Layout R) : Exec (Layout R) Unit := do
  let numPoles := analog.numPoles
  let pairs := numPoles / 2
  Exec.loop pairs fun i => do
    let pair ← Exec.lift (analog.getPair i)
    let p1 := bpTransform a b pair.poles.first
    let z1 := bpTransform a b pair.zeros.first
    Layout.addPoleZeroConjugatePairs p1.first z1.first
    Layout.addPoleZeroConjugatePairs p1.second z1.second
  if numPoles % 2 == 1 then do
    let pair ← Exec.lift (analog.getPair pairs)
    let poles := bpTransform a b pair.poles.first
    let zeros := bpTransform a b pair.zeros.first
    Layout.addPair poles zeros
  else Exec.pure ()

/-- `BandPassTransform::BandPassTransform`, iir/PoleFilter.cpp:140-193. -/
def bandPassTransform (fc fw : R) (analog : Layout R) : Exec (Layout R) Unit := do
  checkFreq fc
  Layout.reset
  let wc2 := (bandEdges fc fw).1
  let wc := (bandEdges fc fw).2
  let a := cos ((wc + wc2) * 0.5) / cos ((wc - wc2) * 0.5)
  let b := 1 / tan ((wc - wc2) * 0.5)
  bpLayout a b analog
  let wn := analog.normalW
  Layout.setNormal
    (2 * atan (sqrt (tan ((wc + wn) * 0.5) * tan ((wc2 + wn) * 0.5)))) analog.normalGain

/-- The "trick to get the conjugate", iir/PoleFilter.cpp:259-261. -/
def conjTrick (z : ComplexPair R) : ComplexPair R :=
  if ceq z.second z.first then ⟨z.first, conj z.first⟩ else z

/-- The two loops of `BandStopTransform`, iir/PoleFilter.cpp:251-273 (pairs, then the odd pole). -/
def bsLayout (a b : R) (analog : Layout R) : Exec (Layout R) Unit := do
  let numPoles := analog.numPoles
  let pairs := numPoles / 2
  Exec.loop pairs fun i => do
    let pair ← Exec.lift (analog.getPair i)
    let p := bsTransform a b pair.poles.first
    let z := conjTrick (bsTransform a b pair.zeros.first)
    Layout.addPoleZeroConjugatePairs p.first z.first
    Layout.addPoleZeroConjugatePairs p.second z.second
  if numPoles % 2 == 1 then do
    let pair ← Exec.lift (analog.getPair pairs)
    let poles := bsTransform a b pair.poles.first
    let zeros := bsTransform a b pair.zeros.first
    Layout.addPair poles zeros
  else Exec.pure ()

/-- `BandStopTransform::BandStopTransform`, iir/PoleFilter.cpp:224-279. -/
def bandStopTransform (fc fw : R) (analog : Layout R) : Exec (Layout R) Unit := do
  checkFreq fc
  Layout.reset
  let wc2 := (bandEdges fc fw).1
  let wc := (bandEdges fc fw).2
  let a := cos ((wc + wc2) * 0.5) / cos ((wc - wc2) * 0.5)
  let b := tan ((wc - wc2) * 0.5)
  bsLayout a b analog
  if flt fc 0.25 then Layout.setNormal pi analog.normalGain
  else Layout.setNormal 0 analog.normalGain

end Iir
