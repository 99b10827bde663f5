import Verif.Spec.Library
import Verif.Spec.Designs

/-! # An arithmetic with a complex mathematical library of limited accuracy -/

namespace Iir.Spec
open Iir FArith

variable {R : Type} [FArith R] {u η Ω : ℝ}

/-- Both parts are finite. -/
def Rounds.CFin (r : Rounds R u η Ω) (z : Cx R) : Prop := r.Fin z.re ∧ r.Fin z.im

/-- The complex number that is stored. -/
def Rounds.cval (r : Rounds R u η Ω) (z : Cx R) : ℂ := ⟨r.val z.re, r.val z.im⟩

/-- What the design of pole filters needs beyond `Rounds.Accurate`: the range of doubles; comparisons of finite numbers are exact;
`0.5` is exact; zero times a number and zero divided by one are zero, subtracting zero changes nothing, `pi / (2 pi)` is
exactly one half; `tan`, `log`, `cosh`, complex product, quotient, modulus and `polar` (with a modulus that is not negative)
have relative errors of at most `2⁻⁴⁵` as long as the magnitudes are between `2⁻⁴⁰⁰` and `2⁴⁰⁰`; the quotient of two real
numbers is real. -/
structure Rounds.Library (r : Rounds R u η Ω) : Prop extends r.Accurate where
  η_tiny : η ≤ 1 / 2 ^ 1000
  Ω_huge : 2 ^ 1000 ≤ Ω
  feq : ∀ x y, r.Fin x → r.Fin y → (feq x y = true ↔ r.val x = r.val y)
  flt : ∀ x y, r.Fin x → r.Fin y → (flt x y = true ↔ r.val x < r.val y)
  inf_eq : FArith.feq (inf : R) inf = true
  inf_ne : ∀ x, r.Fin x → FArith.feq x inf = false
  half : r.Fin (0.5 : R) ∧ r.val (0.5 : R) = 1 / 2
  tenth : r.Fin (0.1 : R) ∧ |r.val (0.1 : R) - 1 / 10| ≤ 1 / 2 ^ 45
  mul_zero : ∀ x y, r.Fin x → r.Fin y → r.val x = 0 ∨ r.val y = 0 → r.val (x * y) = 0
  zero_div : ∀ x y, r.Fin x → r.Fin y → r.val y ≠ 0 → r.val x = 0 → r.val (x / y) = 0
  sub_zero : ∀ x y, r.Fin x → r.Fin y → r.val y = 0 → r.val (x - y) = r.val x
  half_turn : ∀ x, r.Fin x → r.val x = r.val FArith.pi → r.val (x / (2 * FArith.pi)) = 1 / 2
  pi2 : r.Fin (pi2 : R) ∧ |r.val (pi2 : R) - Real.pi / 2| ≤ 1 / 2 ^ 45
  ln10 : r.Fin (ln10 : R) ∧ |r.val (ln10 : R) - Real.log 10| ≤ 1 / 2 ^ 45
  tan : ∀ x, r.Fin x → 0 ≤ r.val x → r.val x < Real.pi / 2 → Real.tan (r.val x) ≤ 2 ^ 400 →
    r.Fin (tan x) ∧ |r.val (tan x) - Real.tan (r.val x)| ≤ Real.tan (r.val x) / 2 ^ 45 + η
  log : ∀ x, r.Fin x → 0 < r.val x → |Real.log (r.val x)| ≤ 2 ^ 400 →
    r.Fin (log x) ∧ |r.val (log x) - Real.log (r.val x)| ≤ |Real.log (r.val x)| / 2 ^ 45 + η
  cosh : ∀ x, r.Fin x → Real.cosh (r.val x) ≤ 2 ^ 400 →
    r.Fin (cosh x) ∧ |r.val (cosh x) - Real.cosh (r.val x)| ≤ Real.cosh (r.val x) / 2 ^ 45 + η
  cmul : ∀ z w, r.CFin z → r.CFin w → ‖r.cval z‖ ≤ 2 ^ 400 → ‖r.cval w‖ ≤ 2 ^ 400 →
    r.CFin (cmul z w) ∧ ‖r.cval (cmul z w) - r.cval z * r.cval w‖ ≤ ‖r.cval z * r.cval w‖ / 2 ^ 45 + 16 * η
  cdiv : ∀ z w, r.CFin z → r.CFin w → ‖r.cval z‖ ≤ 2 ^ 400 → 1 / 2 ^ 400 ≤ ‖r.cval w‖ → ‖r.cval w‖ ≤ 2 ^ 400 →
    r.CFin (cdiv z w) ∧ ‖r.cval (cdiv z w) - r.cval z / r.cval w‖ ≤ ‖r.cval z / r.cval w‖ / 2 ^ 45 + 16 * η
  cdiv_real : ∀ z w, r.CFin z → r.CFin w → r.cval w ≠ 0 → r.val z.im = 0 → r.val w.im = 0 → r.val (FArith.cdiv z w).im = 0
  cabs : ∀ z, r.CFin z → ‖r.cval z‖ ≤ 2 ^ 400 →
    r.Fin (cabs z) ∧ |r.val (cabs z) - ‖r.cval z‖| ≤ ‖r.cval z‖ / 2 ^ 45 + η
  polar : ∀ x t, r.Fin x → r.Fin t → 0 ≤ r.val x → r.val x ≤ 2 ^ 400 →
    ∃ z, polar x t = some z ∧ r.CFin z ∧
      ‖r.cval z - r.val x * Complex.exp (r.val t * Complex.I)‖ ≤ r.val x / 2 ^ 45 + 16 * η

/-- Parameters of low and high passes within practical limits: cutoff between a thousandth (`2⁻¹⁰`) of the sampling rate
and the same distance below Nyquist; ripple between `1/64` and 30 dB; stop band between 3 and 100 dB.  The other classes
are not covered. -/
def Rounds.Practical (r : Rounds R u η Ω) : Design R → Prop
  | .bwLowPass fc | .bwHighPass fc => r.Fin fc ∧ 1 / 2 ^ 10 ≤ r.val fc ∧ r.val fc ≤ 1 / 2 - 1 / 2 ^ 10
  | .c1LowPass fc g | .c1HighPass fc g => (r.Fin fc ∧ 1 / 2 ^ 10 ≤ r.val fc ∧ r.val fc ≤ 1 / 2 - 1 / 2 ^ 10) ∧
      r.Fin g ∧ 1 / 64 ≤ r.val g ∧ r.val g ≤ 30
  | .c2LowPass fc g | .c2HighPass fc g => (r.Fin fc ∧ 1 / 2 ^ 10 ≤ r.val fc ∧ r.val fc ≤ 1 / 2 - 1 / 2 ^ 10) ∧
      r.Fin g ∧ 3 ≤ r.val g ∧ r.val g ≤ 100
  | _ => False

end Iir.Spec
