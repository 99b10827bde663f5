import Verif.Spec.Transfer

/-! # Specification of C94: where the gain rises and where it falls -/

namespace Iir.Spec
open Iir

/-- The quantity `G` (`G fr v`: its value at frequency `fr` is `v`) exists and rises strictly from `lo` to `hi`. -/
def Rises (G : ℝ → ℝ → Prop) (lo hi : ℝ) : Prop :=
  (∀ fr, lo ≤ fr → fr ≤ hi → ∃ v, G fr v) ∧
  ∀ fr fr' v v', lo ≤ fr → fr < fr' → fr' ≤ hi → G fr v → G fr' v' → v < v'

/-- It falls strictly. -/
def Falls (G : ℝ → ℝ → Prop) (lo hi : ℝ) : Prop :=
  (∀ fr, lo ≤ fr → fr ≤ hi → ∃ v, G fr v) ∧
  ∀ fr fr' v v', lo ≤ fr → fr < fr' → fr' ≤ hi → G fr v → G fr' v' → v' < v

/-- It has one value. -/
def Level (G : ℝ → ℝ → Prop) (lo hi c : ℝ) : Prop := ∀ fr, lo ≤ fr → fr ≤ hi → ∀ v, G fr v ↔ v = c

/-- It rises up to `m` and falls from there. -/
def Peaks (G : ℝ → ℝ → Prop) (m : ℝ) : Prop := Rises G 0 m ∧ Falls G m (1 / 2)

/-- It falls down to `m` and rises from there. -/
def Dips (G : ℝ → ℝ → Prop) (m : ℝ) : Prop := Falls G 0 m ∧ Rises G m (1 / 2)

/-- What the gain `G` of an RBJ filter does between 0 and half the sampling frequency. -/
def RBJCourse (G : ℝ → ℝ → Prop) : RBJ.Design ℝ → Prop
  | .lowPass f0 q => (2 * q ^ 2 ≤ 1 → Falls G 0 (1 / 2)) ∧
      (1 < 2 * q ^ 2 → ∃ fr, 0 < fr ∧ fr < f0 ∧ lowRatio f0 fr = √(1 - 1 / (2 * q ^ 2)) ∧ Peaks G fr)
  | .highPass f0 q => (2 * q ^ 2 ≤ 1 → Rises G 0 (1 / 2)) ∧
      (1 < 2 * q ^ 2 → ∃ fr, f0 < fr ∧ fr < 1 / 2 ∧ highRatio f0 fr = √(1 - 1 / (2 * q ^ 2)) ∧ Peaks G fr)
  | .bandPass1 f0 _ | .bandPass2 f0 _ => Peaks G f0
  | .bandStop f0 _ | .iirNotch f0 _ => Dips G f0
  | .allPass _ _ => Level G 0 (1 / 2) 1
  | .lowShelf _ g _ => (0 < g → Falls G 0 (1 / 2)) ∧ (g < 0 → Rises G 0 (1 / 2)) ∧ (g = 0 → Level G 0 (1 / 2) 1)
  | .highShelf _ g _ => (0 < g → Rises G 0 (1 / 2)) ∧ (g < 0 → Falls G 0 (1 / 2)) ∧ (g = 0 → Level G 0 (1 / 2) 1)
  | .bandShelf f0 g _ => (0 < g → Peaks G f0) ∧ (g < 0 → Dips G f0) ∧ (g = 0 → Level G 0 (1 / 2) 1)

end Iir.Spec
