import Verif.Spec.Designs
import Mathlib.Analysis.SpecialFunctions.Arsinh
import Mathlib.Analysis.SpecialFunctions.Complex.Circle

/-! # Textbook transfer functions of the designs

Written down from the textbook, as functions of the complex variable `s` of the analog prototype; nothing here refers to
the code or to the other files of the model but for `Response`. -/

namespace Iir.Spec
open Iir Complex Finset

noncomputable section

/-- `k`-th pole of the Butterworth filter of order `o`: on the unit circle, at equal distances in the left half. -/
def bwPole (o k : ℕ) : ℂ := exp (I * Real.pi * (2 * k + 1 + o) / (2 * o))

/-- Angle of the `k`-th root of the Chebyshev polynomial `T_o`. -/
def chebAngle (o k : ℕ) : ℝ := Real.pi * (2 * k + 1) / (2 * o)

/-- `k`-th of `o` points on the left half of the ellipse with half axes `sinh v` and `cosh v`. -/
def ellipse (o : ℕ) (v : ℝ) (k : ℕ) : ℂ :=
  -(Real.sinh v * Real.sin (chebAngle o k)) + I * (Real.cosh v * Real.cos (chebAngle o k))

/-- Butterworth low pass with cutoff 1. -/
def bwLow (o : ℕ) (s : ℂ) : ℂ := ∏ k ∈ range o, -bwPole o k / (s - bwPole o k)

/-- Butterworth low shelf with corner frequency 1: gain `gainDb` at `s = 0`, 0 dB at infinity. -/
def bwLowShelf (o : ℕ) (gainDb : ℝ) (s : ℂ) : ℂ :=
  ∏ k ∈ range o, (s - ofDb (gainDb / (2 * o)) * bwPole o k) / (s - bwPole o k / ofDb (gainDb / (2 * o)))

/-- Parameter of the ellipse of the poles of a Chebyshev I filter. -/
def c1V (o : ℕ) (rippleDb : ℝ) : ℝ := Real.arsinh (1 / Real.sqrt ((10 : ℝ) ^ (rippleDb / 10) - 1)) / o

/-- Chebyshev I low pass with cutoff 1; at `s = 0` the gain is 0 dB for odd orders and `-rippleDb` for even ones. -/
def c1Low (o : ℕ) (rippleDb : ℝ) (s : ℂ) : ℂ :=
  (if o % 2 = 1 then 1 else ofDb (-rippleDb) : ℝ) *
    ∏ k ∈ range o, -ellipse o (c1V o rippleDb) k / (s - ellipse o (c1V o rippleDb) k)

/-- Parameter of the ellipse of the inverses of the poles of a Chebyshev II filter. -/
def c2V (o : ℕ) (stopBandDb : ℝ) : ℝ := Real.arsinh (Real.sqrt ((10 : ℝ) ^ (stopBandDb / 10) - 1)) / o

/-- Chebyshev II low pass, stop band from 1 on: zeros at `i / cos`, poles at the inverses of points of an ellipse. -/
def c2Low (o : ℕ) (stopBandDb : ℝ) (s : ℂ) : ℂ :=
  ∏ k ∈ range o, (1 + I * Real.cos (chebAngle o k) * s) / (1 - ellipse o (c2V o stopBandDb) k * s)

/-- Its value at infinity. -/
def c2LowInf (o : ℕ) (stopBandDb : ℝ) : ℂ :=
  ∏ k ∈ range o, I * Real.cos (chebAngle o k) / -ellipse o (c2V o stopBandDb) k

/-- Chebyshev low shelf: poles and zeros on two ellipses. -/
def chebLowShelf (o : ℕ) (gainDb rippleDb : ℝ) (s : ℂ) : ℂ :=
  ∏ k ∈ range o,
    (s - ellipse o (Real.arsinh (1 / Real.sqrt (shelfEpsSq gainDb rippleDb)) / o) k) /
    (s - ellipse o (Real.arsinh (ofDb (-gainDb) / Real.sqrt (shelfEpsSq gainDb rippleDb)) / o) k)

variable {S : Type → Type} [StateType S XR]

/-- `response` is `H` at `s = i tan πf / tan πfc`, and `v` at half the sampling rate. -/
structure LowResponse (H : ℂ → ℂ) (v : ℂ) (fc : ℝ) (f : PoleFilter S XR) : Prop where
  value : ∀ fr, 0 ≤ fr → fr < 1 / 2 → Response f fr (H (I * lowRatio fc fr))
  nyquist : Response f (1 / 2) v

/-- The same with `s` replaced by `1 / s`. -/
structure HighResponse (H : ℂ → ℂ) (v : ℂ) (fc : ℝ) (f : PoleFilter S XR) : Prop where
  value : ∀ fr, 0 < fr → fr < 1 / 2 → Response f fr (H (1 / (I * lowRatio fc fr)))
  dc : Response f 0 v
  nyquist : Response f (1 / 2) (H 0)

/-- `response` is `H` at `i` times the prewarped frequency of the band `f1`, `f2`. -/
structure BandResponse (H : ℂ → ℂ) (v : ℂ) (f1 f2 : ℝ) (f : PoleFilter S XR) : Prop where
  value : ∀ fr, 0 < fr → fr < 1 / 2 → Response f fr (H (I * bandRatio f1 f2 fr))
  dc : Response f 0 v
  nyquist : Response f (1 / 2) v

/-- The same with `s` replaced by `1 / s`. -/
structure StopResponse (H : ℂ → ℂ) (v : ℂ) (f1 f2 : ℝ) (f : PoleFilter S XR) : Prop where
  value : ∀ fr, 0 < fr → fr < 1 / 2 → bandRatio f1 f2 fr ≠ 0 → Response f fr (H (1 / (I * bandRatio f1 f2 fr)))
  centre : ∀ fr, 0 < fr → fr < 1 / 2 → bandRatio f1 f2 fr = 0 → Response f fr v
  dc : Response f 0 (H 0)
  nyquist : Response f (1 / 2) (H 0)

open XR in
/-- The response of design `d` of order `o`. -/
def HasTransfer (o : ℕ) : Design XR → PoleFilter S XR → Prop
  | .bwLowPass (fin fc) => LowResponse (bwLow o) 0 fc
  | .bwHighPass (fin fc) => HighResponse (bwLow o) 0 fc
  | .bwBandPass (fin fc) (fin fw) => BandResponse (bwLow o) 0 (bandLo fc fw) (bandHi fc fw)
  | .bwBandStop (fin fc) (fin fw) => StopResponse (bwLow o) 0 (bandLo fc fw) (bandHi fc fw)
  | .bwLowShelf (fin fc) (fin g) => LowResponse (bwLowShelf o g) 1 fc
  | .bwHighShelf (fin fc) (fin g) => HighResponse (bwLowShelf o g) 1 fc
  | .bwBandShelf (fin fc) (fin fw) (fin g) => BandResponse (bwLowShelf o g) 1 (bandLo fc fw) (bandHi fc fw)
  | .c1LowPass (fin fc) (fin r) => LowResponse (c1Low o r) 0 fc
  | .c1HighPass (fin fc) (fin r) => HighResponse (c1Low o r) 0 fc
  | .c1BandPass (fin fc) (fin fw) (fin r) => BandResponse (c1Low o r) 0 (bandLo fc fw) (bandHi fc fw)
  | .c1BandStop (fin fc) (fin fw) (fin r) => StopResponse (c1Low o r) 0 (bandLo fc fw) (bandHi fc fw)
  | .c2LowPass (fin fc) (fin r) => LowResponse (c2Low o r) (c2LowInf o r) fc
  | .c2HighPass (fin fc) (fin r) => HighResponse (c2Low o r) (c2LowInf o r) fc
  | .c2BandPass (fin fc) (fin fw) (fin r) =>
    BandResponse (c2Low o r) (c2LowInf o r) (bandLo fc fw) (bandHi fc fw)
  | .c2BandStop (fin fc) (fin fw) (fin r) =>
    StopResponse (c2Low o r) (c2LowInf o r) (bandLo fc fw) (bandHi fc fw)
  | .c1LowShelf (fin fc) (fin g) (fin r) | .c2LowShelf (fin fc) (fin g) (fin r) =>
    LowResponse (chebLowShelf o g r) 1 fc
  | .c1HighShelf (fin fc) (fin g) (fin r) | .c2HighShelf (fin fc) (fin g) (fin r) =>
    HighResponse (chebLowShelf o g r) 1 fc
  | .c1BandShelf (fin fc) (fin fw) (fin g) (fin r) | .c2BandShelf (fin fc) (fin fw) (fin g) (fin r) =>
    BandResponse (chebLowShelf o g r) 1 (bandLo fc fw) (bandHi fc fw)
  | _ => fun _ => False

/-! ## RBJ filters -/

/-- `response` of a section is `h`. -/
def SectionResponse (b : Biquad XR) (fr : ℝ) (h : ℂ) : Prop := b.response (.fin fr) = .ok ⟨.fin h.re, .fin h.im⟩

/-- The response is `(n2 s² + n1 s + n0) / (d2 s² + d1 s + d0)` at `s = i tan πf / tan πf0`. -/
def QuadResponse (f0 n2 n1 n0 d2 d1 d0 : ℝ) (b : Biquad XR) : Prop :=
  (∀ fr, 0 ≤ fr → fr < 1 / 2 → SectionResponse b fr
    ((n2 * (I * lowRatio f0 fr) ^ 2 + n1 * (I * lowRatio f0 fr) + n0) /
      (d2 * (I * lowRatio f0 fr) ^ 2 + d1 * (I * lowRatio f0 fr) + d0))) ∧
  SectionResponse b (1 / 2) (n2 / d2)

/-- `1 / Q` of the band shelf with a bandwidth in octaves. -/
def invQ (f0 octaves : ℝ) : ℝ :=
  2 * Real.sinh (Real.log 2 / 2 * octaves * (2 * Real.pi * f0) / Real.sin (2 * Real.pi * f0))

/-- The prototypes of Robert Bristow-Johnson's "Audio EQ Cookbook", and the notch with poles at `r exp (± i w0)`. -/
def HasPrototype : RBJ.Design ℝ → Biquad XR → Prop
  | .lowPass f0 q => QuadResponse f0 0 0 1 1 (1 / q) 1
  | .highPass f0 q => QuadResponse f0 1 0 0 1 (1 / q) 1
  | .bandPass1 f0 q => QuadResponse f0 0 1 0 1 (1 / q) 1
  | .bandPass2 f0 q => QuadResponse f0 0 (1 / q) 0 1 (1 / q) 1
  | .bandStop f0 q => QuadResponse f0 1 0 1 1 (1 / q) 1
  | .allPass f0 q => QuadResponse f0 1 (-(1 / q)) 1 1 (1 / q) 1
  | .bandShelf f0 g w => QuadResponse f0 1 (ofDb (g / 2) * invQ f0 w) 1 1 (invQ f0 w / ofDb (g / 2)) 1
  | .lowShelf f0 g s =>
    let A := ofDb (g / 2)
    let c := √A * √((A + 1 / A) * (1 / s - 1) + 2)
    QuadResponse f0 A (A * c) (A * A) A c 1
  | .highShelf f0 g s =>
    let A := ofDb (g / 2)
    let c := √A * √((A + 1 / A) * (1 / s - 1) + 2)
    QuadResponse f0 (A * A) (A * c) A 1 c A
  | .iirNotch f0 q => fun b => ∀ fr : ℝ, 0 ≤ fr → fr ≤ 1 / 2 →
    let z := exp (2 * Real.pi * fr * I)
    let w0 := exp (2 * Real.pi * f0 * I)
    let r := Real.exp (-(Real.pi * f0 / q))
    SectionResponse b fr ((z - w0) * (z - w0⁻¹) / ((z - r * w0) * (z - r * w0⁻¹)))

end
end Iir.Spec
