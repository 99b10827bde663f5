import Verif.Spec.Course
import Verif.Spec.Designs

/-! # Specification of C95: the ripple of the Chebyshev filters -/

namespace Iir.Spec
open Iir

/-- The value of the `k`-th extremum: `a` and `b` in turn, starting with `a` if `j` is even. -/
noncomputable def turn (j : ℕ) (a b : ℝ) (k : ℕ) : ℝ := if (j + k) % 2 = 0 then a else b

/-- `G` moves strictly from the value `a` at `lo` to the value `b` at `hi`. -/
def Moves (G : ℝ → ℝ → Prop) (lo hi a b : ℝ) : Prop := (a < b ∧ Rises G lo hi) ∨ (b < a ∧ Falls G lo hi)

/-- `G` has the values `a` and `b` in turn at the increasing frequencies `p 0`, …, `p m`, and between neighbours moves
strictly from one to the other. -/
structure Ripples (G : ℝ → ℝ → Prop) (p : ℕ → ℝ) (m j : ℕ) (a b : ℝ) : Prop where
  order : ∀ k < m, p k < p (k + 1)
  value : ∀ k ≤ m, ∀ v, G (p k) v ↔ v = turn j a b k
  moves : ∀ k < m, Moves G (p k) (p (k + 1)) (turn j a b k) (turn j a b (k + 1))

/-- The angles at which `T_o(cos θ)` is `±1` (`k` even) or 0 (`k` odd). -/
noncomputable def rippleAngle (o k : ℕ) : ℝ := k * (Real.pi / (2 * o))

variable {S : Type → Type} [StateType S XR]

/-- From frequency 0 to `fc` the square of the gain goes through `o + 1` extrema, `a` at `fc` and then `b` and `a` in
turn; the `k`-th is where `tan πf = tan πfc · sin (kπ / 2o)`. -/
def LowRipples (f : PoleFilter S XR) (fc : ℝ) (o : ℕ) (a b : ℝ) : Prop :=
  ∃ p : ℕ → ℝ, p 0 = 0 ∧ p o = fc ∧ (∀ k ≤ o, lowRatio fc (p k) = Real.sin (rippleAngle o k)) ∧ Ripples (GainSq f) p o o a b

/-- The same from `fc` to half the sampling rate, `tan πf = tan πfc / cos (kπ / 2o)`. -/
def HighRipples (f : PoleFilter S XR) (fc : ℝ) (o : ℕ) (a b : ℝ) : Prop :=
  ∃ p : ℕ → ℝ, p 0 = fc ∧ p o = 1 / 2 ∧ (∀ k ≤ o, highRatio fc (p k) = Real.cos (rippleAngle o k)) ∧ Ripples (GainSq f) p o 0 a b

/-- From `f1` to `f2` it goes through `2 o + 1` extrema, `a` at both edges. -/
def BandRipples (f : PoleFilter S XR) (f1 f2 : ℝ) (o : ℕ) (a b : ℝ) : Prop :=
  ∃ p : ℕ → ℝ, p 0 = f1 ∧ p (2 * o) = f2 ∧ (∀ k ≤ 2 * o, bandRatio f1 f2 (p k) = -Real.cos (rippleAngle o k)) ∧
    Ripples (GainSq f) p (2 * o) 0 a b

/-- From frequency 0 to `f1` and from `f2` to half the sampling rate it goes through `o + 1` extrema each. -/
def OuterRipples (f : PoleFilter S XR) (f1 f2 : ℝ) (o : ℕ) (a b : ℝ) : Prop :=
  (∃ p : ℕ → ℝ, p 0 = 0 ∧ p o = f1 ∧ (∀ k ≤ o, 0 < k → bandRatio f1 f2 (p k) = -(1 / Real.sin (rippleAngle o k))) ∧
    Ripples (GainSq f) p o o a b) ∧
  ∃ p : ℕ → ℝ, p 0 = f2 ∧ p o = 1 / 2 ∧ (∀ k < o, bandRatio f1 f2 (p k) = 1 / Real.cos (rippleAngle o k)) ∧
    Ripples (GainSq f) p o 0 a b

end Iir.Spec
