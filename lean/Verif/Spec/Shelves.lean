import Verif.Spec.Accuracy

/-! # Specification of C82: RBJ shelves that are close to each other, and how sharp they are -/

namespace Iir.Spec
open Iir

/-- The same shelf, with a frequency that differs by at most `ε`. -/
def NearShelf (ε : ℝ) : RBJ.Design ℝ → RBJ.Design ℝ → Prop
  | .lowShelf f g s, .lowShelf f' g' s' | .highShelf f g s, .highShelf f' g' s'
  | .bandShelf f g s, .bandShelf f' g' s' => |f - f'| ≤ ε ∧ g = g' ∧ s = s'
  | _, _ => False

/-- `10^(|g|/40)` for a gain of `g` dB: the square root of the factor between the smallest and the largest gain. -/
noncomputable def shelfGain : RBJ.Design ℝ → ℝ
  | .lowShelf _ g _ | .highShelf _ g _ | .bandShelf _ g _ => (10 : ℝ) ^ (|g| / 40)
  | _ => 1

/-- Shelves with at most 24 dB that are not resonant (the slope is at most 1 and not too small for the gain; the band shelf
has a quality of at least `1/2`), and not sharper than `σ`: the poles stay away from the unit circle. -/
def SharpShelf (σ : ℝ) : RBJ.Design ℝ → Prop
  | .lowShelf f g s | .highShelf f g s =>
    0 < f ∧ f < 1 / 2 ∧ |g| ≤ 24 ∧ 0 < s ∧ s ≤ 1 ∧ ((10 : ℝ) ^ (g / 40) + (10 : ℝ) ^ (-g / 40)) * (1 / s - 1) ≤ 2 ∧
      3 * (10 : ℝ) ^ (|g| / 80) ≤ σ * Real.sin (2 * Real.pi * f)
  | .bandShelf f g w =>
    let h := Real.sinh (Real.log 2 / 2 * w * (2 * Real.pi * f) / Real.sin (2 * Real.pi * f))
    0 < f ∧ f < 1 / 2 ∧ |g| ≤ 24 ∧ 0 < w ∧ h ≤ (10 : ℝ) ^ (g / 40) ∧
      (10 : ℝ) ^ (g / 40) + h ≤ σ * Real.sin (2 * Real.pi * f) * h
  | _ => False

end Iir.Spec
