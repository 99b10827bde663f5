import Verif.Spec.Client
import Verif.Exact.XR
import Mathlib.Analysis.Complex.Norm
import Mathlib.Analysis.SpecialFunctions.Complex.Arg

/-! # Signals, difference equations, transfer functions (textbook definitions) -/

namespace Iir.Spec
open Iir

/-- State before sample `n` of a system `step : input → state → output × new state`. -/
def stateAt {σ T : Type} (step : T → σ → T × σ) (s : σ) (x : ℕ → T) : ℕ → σ
  | 0 => s
  | n + 1 => (step (x n) (stateAt step s x n)).2

/-- Output at time `n` of a system started in state `s` with input `x`. -/
def outAt {σ T : Type} (step : T → σ → T × σ) (s : σ) (x : ℕ → T) (n : ℕ) : T :=
  (step (x n) (stateAt step s x n)).1

/-- `x[n-k]`, zero before time 0. -/
def delayed (k : ℕ) (x : ℕ → ℝ) (n : ℕ) : ℝ := if k ≤ n then x (n - k) else 0

/-- Coefficients of a second order section with numerator `b0 + b1/z + b2/z²` and denominator
`a0 + a1/z + a2/z²`. -/
structure Coeffs where
  a0 : ℝ
  a1 : ℝ
  a2 : ℝ
  b0 : ℝ
  b1 : ℝ
  b2 : ℝ

namespace Coeffs

/-- The difference equation of a second order section. -/
def DiffEq (k : Coeffs) (x y : ℕ → ℝ) : Prop :=
  ∀ n, y n = (k.b0 * x n + k.b1 * delayed 1 x n + k.b2 * delayed 2 x n
    - k.a1 * delayed 1 y n - k.a2 * delayed 2 y n) / k.a0

/-- Transfer function of a second order section at `z`. -/
noncomputable def transfer (k : Coeffs) (z : ℂ) : ℂ :=
  (k.b0 + k.b1 * z⁻¹ + k.b2 * z⁻¹ ^ 2) / (k.a0 + k.a1 * z⁻¹ + k.a2 * z⁻¹ ^ 2)

/-- All poles (roots of `a0 z² + a1 z + a2`) are inside the unit circle. -/
def Stable (k : Coeffs) : Prop := ∀ z : ℂ, k.a0 * z ^ 2 + k.a1 * z + k.a2 = 0 → ‖z‖ < 1

end Coeffs

/-- The point of the unit circle for normalised frequency `f`. -/
noncomputable def circle (f : ℝ) : ℂ := Complex.exp (2 * Real.pi * f * Complex.I)

/-- The getters of a section return the coefficients `k`, and `a0 ≠ 0`. -/
structure HasCoeffs (b : Biquad XR) (k : Coeffs) : Prop where
  a0 : b.getA0 = .fin k.a0
  a1 : b.getA1 = .fin k.a1
  a2 : b.getA2 = .fin k.a2
  b0 : b.getB0 = .fin k.b0
  b1 : b.getB1 = .fin k.b1
  b2 : b.getB2 = .fin k.b2
  ne : k.a0 ≠ 0

/-- Section by section. -/
def HasSections (bs : List (Biquad XR)) (ks : List Coeffs) : Prop := List.Forall₂ HasCoeffs bs ks

/-- Feeding the samples `x 0, x 1, …` to an object in state `f` returns `y 0, y 1, …`
(whatever number of samples is fed). -/
def Produces {σ : Type} (flt : XR → Exec σ XR) (f : σ) (x y : ℕ → ℝ) : Prop :=
  ∀ N, (feed flt ((List.range N).map fun n => XR.fin (x n)) f).1 =
    .ok ((List.range N).map fun n => XR.fin (y n))

/-- A chain of difference equations: `y` is obtained from `x` through all sections `ks`. -/
inductive DiffChain : List Coeffs → (ℕ → ℝ) → (ℕ → ℝ) → Prop
  | nil (x) : DiffChain [] x x
  | cons {k ks x y z} : k.DiffEq x y → DiffChain ks y z → DiffChain (k :: ks) x z

/-- The output settles to the sinusoid scaled by `|H|` and shifted by `arg H`. -/
def Settles (H : ℂ) (fr A φ : ℝ) (y : ℕ → ℝ) : Prop :=
  Filter.Tendsto (fun n : ℕ => y n - A * ‖H‖ * Real.cos (2 * Real.pi * fr * n + φ + H.arg))
    Filter.atTop (nhds 0)

/-- `Biquad::filter (s, state)` as a function of the delay line. -/
noncomputable def biquadFilter {S : Type → Type} [StateType S XR] (b : Biquad XR) (x : XR) : Exec (S XR) XR :=
  fun s => (.ok (b.filter x s).1, (b.filter x s).2)

end Iir.Spec
