import Verif.Model.Arith
import Verif.Model.Exec

/-! # `Types.h`, `Biquad.h`, `Biquad.cpp` -/

namespace Iir
open FArith Cx

/-- `ComplexPair`, iir/Types.h:47-86 (`std::pair<complex_t, complex_t>`). -/
structure ComplexPair (R : Type) where
  first : Cx R
  second : Cx R

/-- `PoleZeroPair`, iir/Types.h:92-122. -/
structure PoleZeroPair (R : Type) where
  poles : ComplexPair R
  zeros : ComplexPair R

/-- `Biquad`, members iir/Biquad.h:160-165. -/
structure Biquad (R : Type) where
  a0 : R
  a1 : R
  a2 : R
  b1 : R
  b2 : R
  b0 : R

/-- `BiquadPoleState`, iir/Biquad.h:175-182. -/
structure BiquadPoleState (R : Type) where
  pz : PoleZeroPair R
  gain : R

variable {R : Type} [FArith R]

namespace ComplexPair

/-- `ComplexPair () = default`, iir/Types.h:49: both entries zero. -/
def default : ComplexPair R := ⟨ofR 0, ofR 0⟩

/-- `isReal`, iir/Types.h:63-66. -/
def isReal (p : ComplexPair R) : Bool := feq p.first.im 0 && feq p.second.im 0

/-- `explicit ComplexPair (const complex_t& c1)`, iir/Types.h:51-55. -/
def single (c1 : Cx R) : Res (ComplexPair R) :=
  let p : ComplexPair R := ⟨c1, ofR 0⟩
  if !p.isReal then .throw .singleNotReal else .ok p

/-- `isMatchedPair`, iir/Types.h:72-80. -/
def isMatchedPair (p : ComplexPair R) : Bool :=
  if fne p.first.im 0 then
    ceq p.second (conj p.first)
  else
    feq p.second.im 0 && fne p.second.re 0 && fne p.first.re 0

/-- `is_nan`, iir/Types.h:82-85. -/
def isNan (p : ComplexPair R) : Bool := p.first.isNan || p.second.isNan

end ComplexPair

namespace PoleZeroPair

/-- `PoleZeroPair () = default`, iir/Types.h:94-97. -/
def default : PoleZeroPair R := ⟨.default, .default⟩

/-- `PoleZeroPair (p, z)`, iir/Types.h:100-103 (throws if `p` or `z` is not real). -/
def single (p z : Cx R) : Res (PoleZeroPair R) := do
  let poles ← ComplexPair.single p
  let zeros ← ComplexPair.single z
  return ⟨poles, zeros⟩

/-- `PoleZeroPair (p1, z1, p2, z2)`, iir/Types.h:106-111. -/
def double (p1 z1 p2 z2 : Cx R) : PoleZeroPair R := ⟨⟨p1, p2⟩, ⟨z1, z2⟩⟩

/-- `isSinglePole`, iir/Types.h:113-116 (complex compared with `0.`). -/
def isSinglePole (p : PoleZeroPair R) : Bool :=
  ceq p.poles.second (ofR 0) && ceq p.zeros.second (ofR 0)

/-- `is_nan`, iir/Types.h:118-121. -/
def isNan (p : PoleZeroPair R) : Bool := p.poles.isNan || p.zeros.isNan

end PoleZeroPair

namespace Biquad

/-- Default member initialisers, iir/Biquad.h:160-165. -/
def default : Biquad R := { a0 := 1, a1 := 0, a2 := 0, b1 := 0, b2 := 0, b0 := 1 }

/-- iir/Biquad.h:71 -/
def getA0 (s : Biquad R) : R := s.a0
/-- iir/Biquad.h:76 -/
def getA1 (s : Biquad R) : R := s.a1 * s.a0
/-- iir/Biquad.h:81 -/
def getA2 (s : Biquad R) : R := s.a2 * s.a0
/-- iir/Biquad.h:86 -/
def getB0 (s : Biquad R) : R := s.b0 * s.a0
/-- iir/Biquad.h:91 -/
def getB1 (s : Biquad R) : R := s.b1 * s.a0
/-- iir/Biquad.h:96 -/
def getB2 (s : Biquad R) : R := s.b2 * s.a0

/-- `Biquad::setCoefficients`, iir/Biquad.cpp:123-139. -/
def setCoefficients (a0 a1 a2 b0 b1 b2 : R) : Exec (Biquad R) Unit := do
  Exec.throwIf (FArith.isNan a0) .coeffNaN
  Exec.throwIf (FArith.isNan a1) .coeffNaN
  Exec.throwIf (FArith.isNan a2) .coeffNaN
  Exec.throwIf (FArith.isNan b0) .coeffNaN
  Exec.throwIf (FArith.isNan b1) .coeffNaN
  Exec.throwIf (FArith.isNan b2) .coeffNaN
  Exec.set { a0 := a0, a1 := a1 / a0, a2 := a2 / a0, b0 := b0 / a0, b1 := b1 / a0, b2 := b2 / a0 }

/-- `Biquad::setOnePole`, iir/Biquad.cpp:141-154. -/
def setOnePole (pole zero : Cx R) : Exec (Biquad R) Unit := do
  Exec.throwIf (fne pole.im 0) .imagPole
  Exec.throwIf (fne zero.im 0) .imagZero
  setCoefficients 1 (-pole.re) 0 1 (-zero.re) 0

/-- The pole half of `setTwoPole`, iir/Biquad.cpp:165-178 (and, with other names and message, the
zero half 184-198): returns `a1, a2`. -/
def pairCoeffs (e : Err) (p1 p2 : Cx R) : Res (R × R) :=
  if fne p1.im 0 then
    if !(ceq p2 (conj p1)) then .throw e
    else .ok (-2 * p1.re, cnorm p1)
  else
    if fne p2.im 0 then .throw e
    else .ok (-(p1.re + p2.re), p1.re * p2.re)

/-- `Biquad::setTwoPole`, iir/Biquad.cpp:156-201. -/
def setTwoPole (pole1 zero1 pole2 zero2 : Cx R) : Exec (Biquad R) Unit := do
  let a ← Exec.lift (pairCoeffs .twoPolePoles pole1 pole2)
  let b ← Exec.lift (pairCoeffs .twoPoleZeros zero1 zero2)
  setCoefficients 1 a.1 a.2 1 b.1 b.2

/-- `Biquad::setPoleZeroPair`, iir/Biquad.h:137-144. -/
def setPoleZeroPair (pair : PoleZeroPair R) : Exec (Biquad R) Unit :=
  if pair.isSinglePole then
    setOnePole pair.poles.first pair.zeros.first
  else
    setTwoPole pair.poles.first pair.zeros.first pair.poles.second pair.zeros.second

/-- `Biquad::applyScale`, iir/Biquad.cpp:214-219. -/
def applyScale (scale : R) : Exec (Biquad R) Unit :=
  Exec.modify fun s => { s with b0 := s.b0 * scale, b1 := s.b1 * scale, b2 := s.b2 * scale }

/-- `Biquad::setPoleZeroForm`, iir/Biquad.cpp:203-207. -/
def setPoleZeroForm (bps : BiquadPoleState R) : Exec (Biquad R) Unit := do
  setPoleZeroPair bps.pz
  applyScale bps.gain

/-- `Biquad::setIdentity`, iir/Biquad.cpp:209-212. -/
def setIdentity : Exec (Biquad R) Unit := setCoefficients 1 0 0 1 0 0

end Biquad

/-- `std::polar`, with its precondition. -/
def polarC (rho theta : R) : Res (Cx R) :=
  match FArith.polar rho theta with
  | some z => .ok z
  | none => .ub .polarPrecondition

/-- `BiquadPoleState::BiquadPoleState (const Biquad&)`, iir/Biquad.cpp:42-80. -/
def BiquadPoleState.ofBiquad (s : Biquad R) : Res (BiquadPoleState R) :=
  let a0 := s.getA0
  let a1 := s.getA1
  let a2 := s.getA2
  let b0 := s.getB0
  let b1 := s.getB1
  let b2 := s.getB2
  let gain := b0 / a0
  if feq a2 0 && feq b2 0 then
    -- single pole
    .ok { pz := { poles := ⟨ofR (-a1), ofR 0⟩, zeros := ⟨ofR (-b0 / b1), ofR 0⟩ }, gain := gain }
  else
    let c := csqrt (⟨a1 * a1 - 4 * a0 * a2, 0⟩ : Cx R)
    let d := 2 * a0
    let poles : ComplexPair R := ⟨divR (cneg (addR c a1)) d, divR (subR c a1) d⟩
    if poles.isNan then .throw .polesNaN
    else
      let c' := csqrt (⟨b1 * b1 - 4 * b0 * b2, 0⟩ : Cx R)
      let d' := 2 * b0
      let zeros : ComplexPair R := ⟨divR (cneg (addR c' b1)) d', divR (subR c' b1) d'⟩
      if zeros.isNan then .throw .zerosNaN
      else .ok { pz := ⟨poles, zeros⟩, gain := gain }

namespace Biquad

/-- Numerator of one section on the unit circle, iir/Biquad.cpp:103-106, iir/Cascade.cpp:66-68. -/
def respTop (s : Biquad R) (czn1 czn2 : Cx R) : Cx R :=
  let ct := ofR (s.getB0 / s.getA0)
  let ct := addmul ct (s.getB1 / s.getA0) czn1
  addmul ct (s.getB2 / s.getA0) czn2

/-- Denominator of one section, iir/Biquad.cpp:104,107-108, iir/Cascade.cpp:65,69-70. -/
def respBot (s : Biquad R) (czn1 czn2 : Cx R) : Cx R :=
  let cb := ofR (1 : R)
  let cb := addmul cb (s.getA1 / s.getA0) czn1
  addmul cb (s.getA2 / s.getA0) czn2

/-- `Biquad::response`, iir/Biquad.cpp:88-113. -/
def response (s : Biquad R) (normalizedFrequency : R) : Res (Cx R) := do
  let w := 2 * pi * normalizedFrequency
  let czn1 ← polarC (1 : R) (-w)
  let czn2 ← polarC (1 : R) (-2 * w)
  let ch := cmul (ofR 1) (s.respTop czn1 czn2)
  let cbot := cmul (ofR 1) (s.respBot czn1 czn2)
  return cdiv ch cbot

/-- `Biquad::getPoleZeros`, iir/Biquad.cpp:115-121. -/
def getPoleZeros (s : Biquad R) : Res (List (PoleZeroPair R)) := do
  let bps ← BiquadPoleState.ofBiquad s
  return [bps.pz]

end Biquad
end Iir
