import Verif.Spec.Transfer
import Verif.Spec.LibraryComplex

/-! # Specification of C77: the poles of digital Butterworth filters, and how much they amplify errors -/

namespace Iir.Spec
open Iir

/-- The `k`-th pole of a digital Butterworth filter of order `o`: the pole of the analog filter, through the bilinear
transform.  `φ` is the cutoff frequency of the analog filter, `tan (π fc)` for low passes and `1 / tan (π fc)` for the
mirror images of high passes. -/
noncomputable def bwDigital (φ : ℝ) (o k : ℕ) : ℂ := (1 + φ * bwPole o k) / (1 - φ * bwPole o k)

/-- What the sections amplify a signal by at most, each scaled to gain one where the filter passes: the product of
`|1 - q| / (1 - |q|)` over the poles. -/
noncomputable def bwAmplifies (φ : ℝ) (o : ℕ) : ℝ :=
  ∏ k ∈ Finset.range o, ‖1 - bwDigital φ o k‖ / (1 - ‖bwDigital φ o k‖)

/-- How close the poles are to the unit circle: the sum of `1 / (1 - |q|)²` over the poles. -/
noncomputable def bwSharp (φ : ℝ) (o : ℕ) : ℝ :=
  ∑ k ∈ Finset.range o, 1 / (1 - ‖bwDigital φ o k‖) ^ 2

/-- A Butterworth low or high pass with a cutoff frequency as represented in the arithmetic, and the ideal filter: the
frequencies differ by at most `2⁻⁵⁰`, for example because one is the rounded quotient of frequency and sampling rate.
`φ` is the cutoff frequency of the analog filter. -/
inductive Rounds.NearBw {R : Type} [FArith R] {u η Ω : ℝ} (r : Rounds R u η Ω) : Design R → Design XR → ℝ → Prop
  | low {fc : R} {fc0 : ℝ} (hf : r.Practical (.bwLowPass fc)) (h : |r.val fc - fc0| ≤ 1 / 2 ^ 50) :
    r.NearBw (.bwLowPass fc) (.bwLowPass (.fin fc0)) (Real.tan (Real.pi * fc0))
  | high {fc : R} {fc0 : ℝ} (hf : r.Practical (.bwHighPass fc)) (h : |r.val fc - fc0| ≤ 1 / 2 ^ 50) :
    r.NearBw (.bwHighPass fc) (.bwHighPass (.fin fc0)) (1 / Real.tan (Real.pi * fc0))

/-- The same design with other numbers. -/
def mapArgs {R R' : Type} (h : R → R') : Design R → Design R'
  | .bwLowPass fc => .bwLowPass (h fc)
  | .bwHighPass fc => .bwHighPass (h fc)
  | .bwBandPass fc fw => .bwBandPass (h fc) (h fw)
  | .bwBandStop fc fw => .bwBandStop (h fc) (h fw)
  | .bwLowShelf fc g => .bwLowShelf (h fc) (h g)
  | .bwHighShelf fc g => .bwHighShelf (h fc) (h g)
  | .bwBandShelf fc fw g => .bwBandShelf (h fc) (h fw) (h g)
  | .c1LowPass fc r => .c1LowPass (h fc) (h r)
  | .c1HighPass fc r => .c1HighPass (h fc) (h r)
  | .c1BandPass fc fw r => .c1BandPass (h fc) (h fw) (h r)
  | .c1BandStop fc fw r => .c1BandStop (h fc) (h fw) (h r)
  | .c1LowShelf fc g r => .c1LowShelf (h fc) (h g) (h r)
  | .c1HighShelf fc g r => .c1HighShelf (h fc) (h g) (h r)
  | .c1BandShelf fc fw g r => .c1BandShelf (h fc) (h fw) (h g) (h r)
  | .c2LowPass fc r => .c2LowPass (h fc) (h r)
  | .c2HighPass fc r => .c2HighPass (h fc) (h r)
  | .c2BandPass fc fw r => .c2BandPass (h fc) (h fw) (h r)
  | .c2BandStop fc fw r => .c2BandStop (h fc) (h fw) (h r)
  | .c2LowShelf fc g r => .c2LowShelf (h fc) (h g) (h r)
  | .c2HighShelf fc g r => .c2HighShelf (h fc) (h g) (h r)
  | .c2BandShelf fc fw g r => .c2BandShelf (h fc) (h fw) (h g) (h r)

/-- The same call in another arithmetic. -/
def mapCall {R R' : Type} (h : R → R') : Call R → Call R'
  | .setup fs d => .setup (h fs) (mapArgs h d)
  | .setupReq o fs d => .setupReq o (h fs) (mapArgs h d)
  | .setupN d => .setupN (mapArgs h d)
  | .setupNReq o d => .setupNReq o (mapArgs h d)

/-- Sampling rate and frequency of a call are finite. -/
def Rounds.FinCall {R : Type} [FArith R] {u η Ω : ℝ} (r : Rounds R u η Ω) : Call R → Prop
  | .setup fs d | .setupReq _ fs d => r.Fin fs ∧ r.Fin d.freq
  | .setupN d | .setupNReq _ d => r.Fin d.freq

/-- A Butterworth low or high pass with normalised cutoff frequency between `2⁻⁹` and `1/2 - 2⁻⁹`; `φ` is the cutoff
frequency of the analog filter. -/
inductive IdealBw : Design XR → ℝ → Prop
  | low {f : ℝ} (h1 : 1 / 2 ^ 9 ≤ f) (h2 : f ≤ 1 / 2 - 1 / 2 ^ 9) : IdealBw (.bwLowPass (.fin f)) (Real.tan (Real.pi * f))
  | high {f : ℝ} (h1 : 1 / 2 ^ 9 ≤ f) (h2 : f ≤ 1 / 2 - 1 / 2 ^ 9) :
    IdealBw (.bwHighPass (.fin f)) (1 / Real.tan (Real.pi * f))

end Iir.Spec
