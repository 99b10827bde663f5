import Verif.Spec.Contraction
import Verif.Spec.LibraryComplex

/-! # What Custom::OnePole and Custom::TwoPole should compute

iir/Custom.h:55-82 describes a filter by its gain, its pole (or pair of conjugate poles in polar coordinates) and its
zero (or pair of zeros).  The recurrences below follow from that description alone. -/

namespace Iir.Spec
open FArith

/-- The filter with one pole `p`, one zero `z` and scale `s`, started empty. -/
def OnePoleRuns (s p z : ℝ) (x y : ℕ → ℝ) : Prop :=
  ∀ n, y n = s * (x n - z * delayed 1 x n) + p * delayed 1 y n

/-- The filter with poles `ρ e^(±iθ)`, zeros `σ e^(±iφ)` and scale `s`, started empty. -/
def TwoPoleRuns (s ρ θ σ φ : ℝ) (x y : ℕ → ℝ) : Prop :=
  ∀ n, y n = s * (x n - 2 * σ * Real.cos φ * delayed 1 x n + σ ^ 2 * delayed 2 x n) +
    2 * ρ * Real.cos θ * delayed 1 y n - ρ ^ 2 * delayed 2 y n

variable {R : Type} [FArith R] {u η Ω : ℝ}

/-- `out` is what `Biquad::filter (x, state)` may return for the samples `x`, with a new delay line of type `S`, compiled
in any way (`F`: the fused operation the compiler may use, if any). -/
def SectionReturns (F : Option (R → R → R → R)) (S : Type → Type) [StateType S R] [DelayLine R S] (b : Biquad R)
    (x out : ℕ → R) : Prop :=
  ∃ st : ℕ → S R, st 0 = StateType.init ∧ ∀ n, StepC F (x n) b (st n) (out n) (st (n + 1))

/-- Practical signals: finite, of magnitude at most `X`, and `X` between `2⁻⁴⁰⁰` and `2⁴⁰⁰`. -/
structure Rounds.Signal (r : Rounds R u η Ω) (X : ℝ) (x : ℕ → R) : Prop where
  input : r.Input X x
  lo : 1 / 2 ^ 400 ≤ X
  hi : X ≤ 2 ^ 400

/-- Practical scale factors: between `2⁻¹⁰⁰` and `2¹⁰⁰` in magnitude. -/
structure Rounds.Scale (r : Rounds R u η Ω) (s : R) : Prop where
  fin : r.Fin s
  lo : 1 / 2 ^ 100 ≤ |r.val s|
  hi : |r.val s| ≤ 2 ^ 100

/-- The stored section is stable: its feed back coefficients are finite and all roots of `w² + a1 w + a2` are inside the unit
circle. -/
def Rounds.StableSection (r : Rounds R u η Ω) (b : Biquad R) : Prop :=
  r.Fin b.a1 ∧ r.Fin b.a2 ∧ ∀ w : ℂ, w ^ 2 + r.val b.a1 * w + r.val b.a2 = 0 → ‖w‖ < 1

/-- The getters return these numbers. -/
def Getters (b : Biquad R) (a0 a1 a2 b0 b1 b2 : R) : Prop :=
  b.getA0 = a0 ∧ b.getA1 = a1 ∧ b.getA2 = a2 ∧ b.getB0 = b0 ∧ b.getB1 = b1 ∧ b.getB2 = b2

end Iir.Spec
