import Verif.Spec.Rounding
import Verif.Model.RBJ
import Mathlib.Analysis.SpecialFunctions.Pow.Real
import Mathlib.Analysis.SpecialFunctions.Trigonometric.Basic

/-! # An arithmetic with a mathematical library of limited accuracy, and practical parameters of RBJ filters -/

namespace Iir.Spec
open Iir FArith

variable {R : Type} [FArith R] {u η Ω : ℝ}

/-- The arithmetic has at least the precision and range of doubles (`u ≤ 2⁻⁵³`, …), small integers are exact, quotients are
rounded like sums, and the library functions that the RBJ filters use have a relative error of at most `2⁻⁴⁵`, that is,
256 ulp of a double.  (Libraries in use do much better.) -/
structure Rounds.Accurate (r : Rounds R u η Ω) : Prop where
  u_le : u ≤ 1 / 2 ^ 53
  η_le : η ≤ 1 / 2 ^ 200
  le_Ω : 2 ^ 200 ≤ Ω
  not_nan : ∀ x, r.Fin x → isNan x = false
  int : ∀ i : ℤ, |i| ≤ 2 ^ 20 → r.Fin (ofInt i : R) ∧ r.val (ofInt i : R) = i
  neg : ∀ x, r.Fin x → r.Fin (-x) ∧ r.val (-x) = -r.val x
  div : ∀ x y, r.Fin x → r.Fin y → r.val y ≠ 0 → |r.val x / r.val y| ≤ Ω →
    r.Fin (x / y) ∧ |r.val (x / y) - r.val x / r.val y| ≤ u * |r.val x / r.val y| + η
  pi : r.Fin (pi : R) ∧ |r.val (pi : R) - Real.pi| ≤ 1 / 2 ^ 45
  ln2 : r.Fin (ln2 : R) ∧ |r.val (ln2 : R) - Real.log 2| ≤ 1 / 2 ^ 45
  sin : ∀ x, r.Fin x → r.Fin (sin x) ∧ |r.val (sin x) - Real.sin (r.val x)| ≤ |Real.sin (r.val x)| / 2 ^ 45 + η
  cos : ∀ x, r.Fin x → r.Fin (cos x) ∧ |r.val (cos x) - Real.cos (r.val x)| ≤ |Real.cos (r.val x)| / 2 ^ 45 + η
  exp : ∀ x, r.Fin x → Real.exp (r.val x) ≤ Ω →
    r.Fin (exp x) ∧ |r.val (exp x) - Real.exp (r.val x)| ≤ Real.exp (r.val x) / 2 ^ 45 + η
  sqrt : ∀ x, r.Fin x → 0 ≤ r.val x →
    r.Fin (sqrt x) ∧ |r.val (sqrt x) - Real.sqrt (r.val x)| ≤ Real.sqrt (r.val x) / 2 ^ 45 + η
  sinh : ∀ x, r.Fin x → |Real.sinh (r.val x)| ≤ Ω →
    r.Fin (sinh x) ∧ |r.val (sinh x) - Real.sinh (r.val x)| ≤ |Real.sinh (r.val x)| / 2 ^ 45 + η
  pow : ∀ x y, r.Fin x → r.Fin y → 0 < r.val x → r.val x ^ r.val y ≤ Ω →
    r.Fin (pow x y) ∧ |r.val (pow x y) - r.val x ^ r.val y| ≤ r.val x ^ r.val y / 2 ^ 45 + η

/-- All arguments are finite. -/
def Rounds.FinArgs (r : Rounds R u η Ω) : RBJ.Design R → Prop
  | .lowPass f q | .highPass f q | .bandPass1 f q | .bandPass2 f q | .bandStop f q | .iirNotch f q | .allPass f q =>
    r.Fin f ∧ r.Fin q
  | .lowShelf f g s | .highShelf f g s | .bandShelf f g s => r.Fin f ∧ r.Fin g ∧ r.Fin s

/-- The values of the arguments. -/
def Rounds.valRBJ (r : Rounds R u η Ω) : RBJ.Design R → RBJ.Design ℝ
  | .lowPass f q => .lowPass (r.val f) (r.val q)
  | .highPass f q => .highPass (r.val f) (r.val q)
  | .bandPass1 f q => .bandPass1 (r.val f) (r.val q)
  | .bandPass2 f q => .bandPass2 (r.val f) (r.val q)
  | .bandStop f q => .bandStop (r.val f) (r.val q)
  | .iirNotch f q => .iirNotch (r.val f) (r.val q)
  | .lowShelf f g s => .lowShelf (r.val f) (r.val g) (r.val s)
  | .highShelf f g s => .highShelf (r.val f) (r.val g) (r.val s)
  | .bandShelf f g w => .bandShelf (r.val f) (r.val g) (r.val w)
  | .allPass f q => .allPass (r.val f) (r.val q)

/-- Parameters within practical limits: frequencies between a millionth (`2⁻²⁰`) of the sampling rate and the same
distance below Nyquist, quality or bandwidth between `1/1024` and `1024`; shelves with at most 60 dB and slopes between
`1/64` and 1; band shelves with at most 60 dB, up to `3/8` of the sampling rate and four octaves wide. -/
def PracticalRBJ : RBJ.Design ℝ → Prop
  | .lowPass f q | .highPass f q | .bandPass1 f q | .bandPass2 f q | .bandStop f q | .iirNotch f q | .allPass f q =>
    1 / 2 ^ 20 ≤ f ∧ f ≤ 1 / 2 - 1 / 2 ^ 20 ∧ 1 / 2 ^ 10 ≤ q ∧ q ≤ 2 ^ 10
  | .lowShelf f g s | .highShelf f g s =>
    1 / 2 ^ 20 ≤ f ∧ f ≤ 1 / 2 - 1 / 2 ^ 20 ∧ |g| ≤ 60 ∧ 1 / 2 ^ 6 ≤ s ∧ s ≤ 1
  | .bandShelf f g w => 1 / 2 ^ 20 ≤ f ∧ f ≤ 3 / 8 ∧ |g| ≤ 60 ∧ 1 / 2 ^ 10 ≤ w ∧ w ≤ 4

end Iir.Spec
