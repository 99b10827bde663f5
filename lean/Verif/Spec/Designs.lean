import Verif.Spec.Signal
import Mathlib.RingTheory.Polynomial.Chebyshev

/-! # What is said about designed filters -/

namespace Iir.Spec
open Iir

variable {S : Type → Type} [StateType S XR]

/-- The coefficients of the section are finite and its poles are inside the unit circle. -/
def StableSection (b : Biquad XR) : Prop := ∃ k, HasCoeffs b k ∧ k.Stable

/-- All sections that `filter` runs are stable. -/
def StableFilter (f : PoleFilter S XR) : Prop := ∀ b ∈ f.base.cascade.stages, StableSection b

/-- `response (fr)` is the complex number `h`. -/
def Response (f : PoleFilter S XR) (fr : ℝ) (h : ℂ) : Prop :=
  f.response (.fin fr) = .ok ⟨.fin h.re, .fin h.im⟩

/-- `response (fr)` is finite and `|response (fr)|² = v`. -/
def GainSq (f : PoleFilter S XR) (fr v : ℝ) : Prop :=
  ∃ h : ℂ, f.response (.fin fr) = .ok ⟨.fin h.re, .fin h.im⟩ ∧ ‖h‖ ^ 2 = v

/-- Whatever was done with an object of the class before, the call succeeds, leaves the delay lines alone
and the object then has property `P`. -/
def AfterSetup (S : Type → Type) [StateType S XR] (T : Type) [Sample T XR] (n : ℕ) (call : Call XR)
    (P : PoleFilter S XR → Prop) : Prop :=
  ∀ f, Reach S T call.design.cls n f →
    ∃ f', PoleFilter.setup n call f = (.ok (), f') ∧ f'.states = f.states ∧ P f'

/-- Call `call` on an object with template order `n` asks for order `o` and the normalised design `d`. -/
structure Asks (call : Call XR) (n o : ℕ) (d : Design XR) : Prop where
  order : call.order n = o
  design : call.normDesign = d
  pos : 1 ≤ o
  le : o ≤ n
  small : n < 2 ^ 30

/-! ## Textbook frequency responses -/

noncomputable section

/-- Value of the Chebyshev polynomial `T_n` at `x`. -/
abbrev chebT (n : ℕ) (x : ℝ) : ℝ := (Polynomial.Chebyshev.T ℝ n).eval x

/-- Prewarped frequency of a low pass with cutoff `fc`; frequencies as fractions of the sampling rate. -/
def lowRatio (fc f : ℝ) : ℝ := Real.tan (Real.pi * f) / Real.tan (Real.pi * fc)

/-- Prewarped frequency of a high pass with cutoff `fc`. -/
def highRatio (fc f : ℝ) : ℝ := Real.tan (Real.pi * fc) / Real.tan (Real.pi * f)

/-- Lower edge of the band with centre `fc` and width `fw`, at least `1e-8 / 2π`. -/
def bandLo (fc fw : ℝ) : ℝ := max (fc - fw / 2) (1e-8 / (2 * Real.pi))
/-- Upper edge of the band, at most `1/2 - 1e-8 / 2π`. -/
def bandHi (fc fw : ℝ) : ℝ := min (fc + fw / 2) (1 / 2 - 1e-8 / (2 * Real.pi))

/-- Prewarped frequency of a band pass with edges `f1 < f2`: `-1` at `f1`, `1` at `f2`. -/
def bandRatio (f1 f2 f : ℝ) : ℝ :=
  (Real.cos (Real.pi * (f1 + f2)) - Real.cos (Real.pi * (f2 - f1)) * Real.cos (2 * Real.pi * f)) /
    (Real.sin (Real.pi * (f2 - f1)) * Real.sin (2 * Real.pi * f))

/-- Gain factor of `x` decibels. -/
def ofDb (x : ℝ) : ℝ := (10 : ℝ) ^ (x / 20)

/-- Chebyshev I: square of the gain at prewarped frequency `t`, `eps² = 10^(rippleDb/10) - 1`. -/
def cheb1 (o : ℕ) (rippleDb t : ℝ) : ℝ := 1 / (1 + ((10 : ℝ) ^ (rippleDb / 10) - 1) * chebT o t ^ 2)

/-- Chebyshev II: square of the gain at prewarped frequency `1 / t`, `1 / eps² = 10^(stopBandDb/10) - 1`. -/
def cheb2 (o : ℕ) (stopBandDb t : ℝ) : ℝ :=
  chebT o t ^ 2 / (chebT o t ^ 2 + ((10 : ℝ) ^ (stopBandDb / 10) - 1))

/-- Gain of a Chebyshev shelf at the edge of the band: by `rippleDb` nearer to 0 dB than `gainDb`. -/
def shelfEdgeDb (gainDb rippleDb : ℝ) : ℝ := if 0 < gainDb then gainDb - rippleDb else gainDb + rippleDb

/-- `eps²` of a Chebyshev shelf: such that the gain at the edge is `shelfEdgeDb`. -/
def shelfEpsSq (gainDb rippleDb : ℝ) : ℝ :=
  (ofDb (-gainDb) ^ 2 - ofDb (-shelfEdgeDb gainDb rippleDb) ^ 2) / (ofDb (-shelfEdgeDb gainDb rippleDb) ^ 2 - 1)

/-- Chebyshev shelf: square of the gain at prewarped frequency `t`. -/
def chebShelf (o : ℕ) (gainDb rippleDb t : ℝ) : ℝ :=
  (1 + shelfEpsSq gainDb rippleDb * chebT o t ^ 2) / (ofDb (-gainDb) ^ 2 + shelfEpsSq gainDb rippleDb * chebT o t ^ 2)

end

/-- A stable filter of `len` stages with the gain of a low pass: the square of the gain is `Φ` of the
prewarped frequency, and `v` at half the sampling rate. -/
structure LowShape (Φ : ℝ → ℝ) (v : ℝ) (len : ℕ) (fc : ℝ) (f : PoleFilter S XR) : Prop where
  stages : f.getNumStages = len
  stable : StableFilter f
  gain : ∀ fr, 0 ≤ fr → fr < 1 / 2 → GainSq f fr (Φ (lowRatio fc fr))
  nyquist : GainSq f (1 / 2) v

/-- The same for a high pass; the gain at frequency 0 is `v`. -/
structure HighShape (Φ : ℝ → ℝ) (v : ℝ) (len : ℕ) (fc : ℝ) (f : PoleFilter S XR) : Prop where
  stages : f.getNumStages = len
  stable : StableFilter f
  gain : ∀ fr, 0 < fr → fr < 1 / 2 → GainSq f fr (Φ (highRatio fc fr))
  dc : GainSq f 0 v
  nyquist : GainSq f (1 / 2) (Φ 0)

/-- The same for a band pass with edges `f1`, `f2`. -/
structure BandShape (Φ : ℝ → ℝ) (v : ℝ) (len : ℕ) (f1 f2 : ℝ) (f : PoleFilter S XR) : Prop where
  stages : f.getNumStages = len
  stable : StableFilter f
  gain : ∀ fr, 0 < fr → fr < 1 / 2 → GainSq f fr (Φ (bandRatio f1 f2 fr))
  dc : GainSq f 0 v
  nyquist : GainSq f (1 / 2) v


end Iir.Spec
