import Verif.Model.Inherited
import Verif.Spec.Signal

/-! # Filters made from a list of poles and zeros of the client's own choice -/

noncomputable section
namespace Iir.Spec
open Iir

/-- A complex number as a `complex_t`. -/
def number (c : ℂ) : Cx XR := ⟨.fin c.re, .fin c.im⟩

/-- What a client adds to a layout as one pair. -/
inductive Factor
  /-- pole `p` and zero `z` with their conjugates -/
  | conj (p z : ℂ)
  /-- two real poles and two real zeros -/
  | real (p1 p2 z1 z2 : ℝ)

namespace Factor

def poles : Factor → List ℂ
  | conj p _ => [p, starRingEnd ℂ p]
  | real p1 p2 _ _ => [(p1 : ℂ), (p2 : ℂ)]

def zeros : Factor → List ℂ
  | conj _ z => [z, starRingEnd ℂ z]
  | real _ _ z1 z2 => [(z1 : ℂ), (z2 : ℂ)]

/-- The library wants real roots given as a pair to be different from 0. -/
def Allowed : Factor → Prop
  | conj _ _ => True
  | real p1 p2 z1 z2 => p1 ≠ 0 ∧ p2 ≠ 0 ∧ z1 ≠ 0 ∧ z2 ≠ 0

/-- The call that adds the pair: `addPoleZeroConjugatePairs (p, z)` or `add (poles, zeros)`. -/
def add : Factor → Exec (Layout XR) Unit
  | conj p z => Layout.addPoleZeroConjugatePairs (number p) (number z)
  | real p1 p2 z1 z2 => Layout.addPair ⟨number p1, number p2⟩ ⟨number z1, number z2⟩

end Factor

/-- Poles and zeros of a filter: pairs, and possibly one real pole with one real zero. -/
structure Roots where
  pairs : List Factor
  single : Option (ℝ × ℝ)

namespace Roots

def poles (r : Roots) : List ℂ :=
  r.pairs.flatMap Factor.poles ++ (match r.single with | some (p, _) => [(p : ℂ)] | none => [])

def zeros (r : Roots) : List ℂ :=
  r.pairs.flatMap Factor.zeros ++ (match r.single with | some (_, z) => [(z : ℂ)] | none => [])

/-- The rational function with these poles and zeros: `∏ (1 - z/ζ) / ∏ (1 - p/ζ)`. -/
def transfer (r : Roots) (ζ : ℂ) : ℂ :=
  (r.zeros.map fun z => 1 - z / ζ).prod / (r.poles.map fun p => 1 - p / ζ).prod

/-- The client's program: add all pairs, then the single pole, then the gain `g` wanted at angular frequency `w`. -/
def build (r : Roots) (w g : ℝ) : Exec (Layout XR) Unit := do
  addAll r.pairs
  match r.single with
  | some (p, z) => Layout.add (number p) (number z)
  | none => Exec.pure ()
  Layout.setNormal (.fin w) (.fin g)
where
  /-- one call after the other -/
  addAll : List Factor → Exec (Layout XR) Unit
    | [] => Exec.pure ()
    | x :: xs => do x.add; addAll xs

end Roots
end Iir.Spec
end
