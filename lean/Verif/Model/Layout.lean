import Verif.Model.Biquad

/-! # Pole/zero containers: `Layout.h` -/

namespace Iir
open FArith Cx

/-- `LayoutBase`, members iir/Layout.h:169-173.  `pairs` is the memory `m_pair` points to: the array
of a `Layout<MaxPoles>` (iir/Layout.h:181-192), of length `(MaxPoles+1)/2`, or `[]` for a null
pointer.  (Sharing of that memory between objects is modelled in `Heap.lean`.)  `m_numPoles` is
never negative. -/
structure Layout (R : Type) where
  numPoles : Nat
  maxPoles : Nat
  pairs : List (PoleZeroPair R)
  normalW : R
  normalGain : R

namespace Layout
variable {R : Type} [FArith R]

/-- `LayoutBase ()`, iir/Layout.h:65-70,172-173. -/
def empty : Layout R := { numPoles := 0, maxPoles := 0, pairs := [], normalW := 0, normalGain := 1 }

/-- `Layout<MaxPoles>` converted to `LayoutBase`, iir/Layout.h:72-77,185-191. -/
def storage (maxPoles : Nat) : Layout R :=
  { numPoles := 0, maxPoles := maxPoles, pairs := List.replicate ((maxPoles + 1) / 2) .default,
    normalW := 0, normalGain := 1 }

/-- `setStorage`, iir/Layout.h:79-84. -/
def setStorage (l other : Layout R) : Layout R :=
  { l with numPoles := 0, maxPoles := other.maxPoles, pairs := other.pairs }

/-- `reset`, iir/Layout.h:86-89. -/
def reset : Exec (Layout R) Unit := Exec.modify fun l => { l with numPoles := 0 }

/-- `m_pair[i] = pr` -/
def write (i : Nat) (pr : PoleZeroPair R) : Exec (Layout R) Unit := fun l =>
  if i < l.pairs.length then (.ok (), { l with pairs := l.pairs.set i pr })
  else (.ub .outOfBounds, l)

/-- `add (pole, zero)`, iir/Layout.h:101-111. -/
def add (pole zero : Cx R) : Exec (Layout R) Unit := do
  let l ← Exec.get
  Exec.throwIf (l.numPoles % 2 == 1) .cantAdd2ndOrder
  Exec.throwIf pole.isNan .poleIsNaN
  Exec.throwIf zero.isNan .zeroIsNaN
  let pr ← Exec.lift (PoleZeroPair.single pole zero)
  write (l.numPoles / 2) pr
  Exec.modify fun l => { l with numPoles := l.numPoles + 1 }

/-- `addPoleZeroConjugatePairs`, iir/Layout.h:113-125. -/
def addPoleZeroConjugatePairs (pole zero : Cx R) : Exec (Layout R) Unit := do
  let l ← Exec.get
  Exec.throwIf (l.numPoles % 2 == 1) .cantAdd2ndOrder
  Exec.throwIf pole.isNan .poleIsNaN
  Exec.throwIf zero.isNan .zeroIsNaN
  write (l.numPoles / 2) (PoleZeroPair.double pole zero (conj pole) (conj zero))
  Exec.modify fun l => { l with numPoles := l.numPoles + 2 }

/-- `add (const ComplexPair& poles, const ComplexPair& zeros)`, iir/Layout.h:127-138. -/
def addPair (poles zeros : ComplexPair R) : Exec (Layout R) Unit := do
  let l ← Exec.get
  Exec.throwIf (l.numPoles % 2 == 1) .cantAdd2ndOrder
  Exec.throwIf (!poles.isMatchedPair) .polesNotConj
  Exec.throwIf (!zeros.isMatchedPair) .zerosNotConj
  write (l.numPoles / 2)
    (PoleZeroPair.double poles.first zeros.first poles.second zeros.second)
  Exec.modify fun l => { l with numPoles := l.numPoles + 2 }

/-- `getPair`, `operator[]`, iir/Layout.h:140-150. -/
def getPair (l : Layout R) (pairIndex : Int) : Res (PoleZeroPair R) :=
  if pairIndex < 0 || pairIndex ≥ ((l.numPoles + 1) / 2 : Nat) then .throw .pairIndexOutOfBounds
  else
    match l.pairs[pairIndex.toNat]? with
    | some pr => .ok pr
    | none => .ub .outOfBounds

/-- `setNormal`, iir/Layout.h:162-166. -/
def setNormal (w g : R) : Exec (Layout R) Unit :=
  Exec.modify fun l => { l with normalW := w, normalGain := g }

end Layout
end Iir
