import Verif.Spec.Library
import Mathlib.Analysis.SpecialFunctions.Trigonometric.Basic

/-! # Specification of C76: RBJ filters that are close to each other, and how sharp they are -/

namespace Iir.Spec
open Iir

/-- The same filter, with a frequency that differs by at most `ε`. -/
def NearRBJ (ε : ℝ) : RBJ.Design ℝ → RBJ.Design ℝ → Prop
  | .lowPass f q, .lowPass f' q' | .highPass f q, .highPass f' q' | .bandPass1 f q, .bandPass1 f' q'
  | .bandPass2 f q, .bandPass2 f' q' | .bandStop f q, .bandStop f' q' | .iirNotch f q, .iirNotch f' q'
  | .allPass f q, .allPass f' q' => |f - f'| ≤ ε ∧ q = q'
  | _, _ => False

/-- Valid parameters with a quality of at least `1/2`, and not sharper than `σ`: the poles stay away from the unit
circle.  Shelves are the subject of C82. -/
def SharpRBJ (σ : ℝ) : RBJ.Design ℝ → Prop
  | .lowPass f q | .highPass f q | .bandPass1 f q | .bandPass2 f q | .bandStop f q | .allPass f q =>
    0 < f ∧ f < 1 / 2 ∧ 1 / 2 ≤ q ∧ 2 * q + 1 ≤ σ * Real.sin (2 * Real.pi * f)
  | .iirNotch f q => 0 < f ∧ f < 1 / 2 ∧ 1 / 2 ≤ q ∧ 2 ≤ σ * (1 - Real.exp (-(Real.pi * f / q)))
  | _ => False

/-- Frequencies in units of the sampling rate. -/
noncomputable def overRate (fs : ℝ) : RBJ.Design ℝ → RBJ.Design ℝ
  | .lowPass f q => .lowPass (f / fs) q
  | .highPass f q => .highPass (f / fs) q
  | .bandPass1 f q => .bandPass1 (f / fs) q
  | .bandPass2 f q => .bandPass2 (f / fs) q
  | .bandStop f q => .bandStop (f / fs) q
  | .iirNotch f q => .iirNotch (f / fs) q
  | .lowShelf f g s => .lowShelf (f / fs) g s
  | .highShelf f g s => .highShelf (f / fs) g s
  | .bandShelf f g w => .bandShelf (f / fs) g w
  | .allPass f q => .allPass (f / fs) q

end Iir.Spec
