import Verif.Spec.Signal
import Verif.Spec.Transfer
import Mathlib.Topology.Algebra.Order.Field
import Mathlib.Analysis.Calculus.Deriv.Basic

/-! # Specification of C104: sinusoids with a growing envelope -/

namespace Iir.Spec
open Filter Topology

/-- The sinusoid of frequency `fr` and phase `φ` with the envelope `A + B n`. -/
noncomputable def swelling (fr A B φ : ℝ) (n : ℕ) : ℝ := (A + B * n) * Real.cos (2 * Real.pi * fr * n + φ)

/-- The frequency response `H`, which has the derivative `D` at `fr`, answers the sinusoid with the envelope `A + B n`:
the difference of `y` and the real part of `(H (fr) (A + B n) + B D / (2 π i)) exp (i (2 π fr n + φ))` vanishes. -/
def Swells (H D : ℂ) (fr A B φ : ℝ) (y : ℕ → ℝ) : Prop :=
  Tendsto (fun n : ℕ => y n - ((H * (A + B * n) + B * (D / (2 * Real.pi * Complex.I))) *
    Complex.exp ((2 * Real.pi * fr * n + φ) * Complex.I)).re) atTop (𝓝 0)

/-- The same in real numbers: the gain is `M`, with slope `m`, the phase `θ`, the group delay `τ`.  The envelope comes out
`τ` samples late. -/
def ComesLate (M m θ τ fr A B φ : ℝ) (y : ℕ → ℝ) : Prop :=
  Tendsto (fun n : ℕ => y n - (M * (A + B * (n - τ)) * Real.cos (2 * Real.pi * fr * n + φ + θ) +
    B * m / (2 * Real.pi) * Real.sin (2 * Real.pi * fr * n + φ + θ))) atTop (𝓝 0)

/-- What RBJ filters do with the ramp `A + B n`, after a while: `g (A + B n) - B δ / (2 tan (π f0))`; `f0`, `g` and `δ` (no
entry for the notch). -/
noncomputable def rampOf : RBJ.Design ℝ → Option (ℝ × ℝ × ℝ)
  | .lowPass f0 q => some (f0, 1, 1 / q)
  | .highPass f0 _ => some (f0, 0, 0)
  | .bandPass1 f0 _ => some (f0, 0, -1)
  | .bandPass2 f0 q => some (f0, 0, -(1 / q))
  | .bandStop f0 q => some (f0, 1, 1 / q)
  | .allPass f0 q => some (f0, 1, 2 / q)
  | .bandShelf f0 g w => some (f0, 1, invQ f0 w * (1 / ofDb (g / 2) - ofDb (g / 2)))
  | .lowShelf f0 g s =>
    let A := ofDb (g / 2)
    some (f0, A ^ 2, A * (A - 1) * (√A * √((A + 1 / A) * (1 / s - 1) + 2)))
  | .highShelf f0 g s =>
    let A := ofDb (g / 2)
    some (f0, 1, (1 / A - 1) * (√A * √((A + 1 / A) * (1 / s - 1) + 2)))
  | .iirNotch _ _ => none

end Iir.Spec
