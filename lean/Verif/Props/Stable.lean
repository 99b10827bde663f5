import Verif.Props.Chebyshev

/-! # C29: every design is stable -/

set_option linter.unusedSectionVars false

namespace Iir
open Spec XR

variable {S : Type → Type} [StateType S XR] {T : Type} [Sample T XR] {n o : ℕ} {call : Call XR}

/-- Cutoff frequency of a low or high pass or shelf, as a fraction of the sampling rate. -/
def Spec.ValidCut (fc : ℝ) : Prop := 0 < fc ∧ fc < 1 / 2

/-- Band with centre `fc` and width `fw`; the edges, cut to `[1e-8/2π, 1/2 - 1e-8/2π]`, are in order.  For odd orders
`tan (π width)` is not one of `xs`: the prototype then has a real pole (or zero), of which the band transformation
would make a pole (or zero) at `z = 0`, which the code refuses (`C51_refused`). -/
def Spec.ValidBand (o : ℕ) (fc fw : ℝ) (xs : List ℝ) : Prop :=
  0 ≤ fc ∧ fc < 1 / 2 ∧ bandLo fc fw < bandHi fc fw ∧
    (o % 2 = 1 → Real.tan (Real.pi * (bandHi fc fw - bandLo fc fw)) ∉ xs)

/-- Parameters for which the design of order `o` is promised to be stable. -/
def Spec.Valid (o : ℕ) : Design XR → Prop
  | .bwLowPass (fin fc) | .bwHighPass (fin fc) => ValidCut fc
  | .bwBandPass (fin fc) (fin fw) | .bwBandStop (fin fc) (fin fw) => ValidBand o fc fw [1]
  | .bwLowShelf (fin fc) (fin _) | .bwHighShelf (fin fc) (fin _) => ValidCut fc
  | .bwBandShelf (fin fc) (fin fw) (fin g) => ValidBand o fc fw [ofDb (g / (2 * o)), ofDb (-(g / (2 * o)))]
  | .c1LowPass (fin fc) (fin r) | .c1HighPass (fin fc) (fin r) => ValidCut fc ∧ 0 < r
  | .c1BandPass (fin fc) (fin fw) (fin r) => ValidBand o fc fw [1 / cheb1Pole o r] ∧ 0 < r
  | .c1BandStop (fin fc) (fin fw) (fin r) => ValidBand o fc fw [cheb1Pole o r] ∧ 0 < r
  | .c2LowPass (fin fc) (fin r) | .c2HighPass (fin fc) (fin r) => ValidCut fc ∧ 0 < r
  | .c2BandPass (fin fc) (fin fw) (fin r) => ValidBand o fc fw [cheb2Pole o r] ∧ 0 < r
  | .c2BandStop (fin fc) (fin fw) (fin r) => ValidBand o fc fw [1 / cheb2Pole o r] ∧ 0 < r
  | .c1LowShelf (fin fc) (fin g) (fin r) | .c1HighShelf (fin fc) (fin g) (fin r) |
    .c2LowShelf (fin fc) (fin g) (fin r) | .c2HighShelf (fin fc) (fin g) (fin r) => ValidCut fc ∧ 0 < r ∧ r < |g|
  | .c1BandShelf (fin fc) (fin fw) (fin g) (fin r) | .c2BandShelf (fin fc) (fin fw) (fin g) (fin r) =>
    ValidBand o fc fw [1 / shelfPole o g r, 1 / shelfZero o g r] ∧ 0 < r ∧ r < |g|
  | _ => False

theorem ofDb_pow (o : ℕ) (ho : 1 ≤ o) (g : ℝ) : ofDb (g / (2 * o)) ^ (2 * o) = ofDb g := by
  have : (o : ℝ) ≠ 0 := by positivity
  rw [ofDb, ofDb, ← Real.rpow_natCast, ← Real.rpow_mul (by norm_num)]
  congr 1; push_cast; field_simp

theorem ofDb_neg_inv (g : ℝ) : ofDb (-g) = 1 / ofDb g := by
  rw [ofDb, ofDb, neg_div, Real.rpow_neg (by norm_num), one_div]

theorem pow_ne {t g : ℝ} (ht : 0 < t) (ho : 1 ≤ o) (h : t ≠ ofDb (g / (2 * o))) : t ^ (2 * o) ≠ ofDb g := by
  intro e
  rw [← ofDb_pow o ho g] at e
  exact h ((pow_left_inj₀ ht.le (ofDb_pos _).le (by omega)).1 e)

theorem tan_band_pos {fc fw : ℝ} (he : bandLo fc fw < bandHi fc fw) :
    0 < Real.tan (Real.pi * (bandHi fc fw - bandLo fc fw)) := by
  rw [← edgeHalf_eq]; exact tan_edgeHalf_pos (edge_lt he)

theorem quarter_ne {fc fw : ℝ} (h : Real.tan (Real.pi * (bandHi fc fw - bandLo fc fw)) ∉ [(1 : ℝ)]) :
    bandHi fc fw - bandLo fc fw ≠ 1 / 4 := by
  intro e
  rw [e, show Real.pi * (1 / 4) = Real.pi / 4 by ring, Real.tan_pi_div_four] at h
  simp at h

theorem mul_ne_one {t x : ℝ} (h : t ≠ 1 / x) : t * x ≠ 1 := by
  intro e
  exact h (eq_one_div_of_mul_eq_one_left e)

/-- **C29**: for all 21 filter classes, all orders and valid parameters, and whatever was done with the object before,
the setup succeeds and all poles are strictly inside the unit circle. -/
theorem C29_stable {d : Design XR} (h : Asks call n o d) (hv : Valid o d) : AfterSetup S T n call StableFilter := by
  have ho := h.pos
  unfold Valid at hv
  split at hv
  · exact (C30_lowpass h hv.1 hv.2).mono fun _ h => h.1.stable
  · exact (C31_highpass h hv.1 hv.2).mono fun _ h => h.1.stable
  · exact (C32_bandpass h hv.1 hv.2.1 hv.2.2.1 fun e => quarter_ne (hv.2.2.2 e)).mono fun _ h => h.1.stable
  · exact (C33_bandstop h hv.1 hv.2.1 hv.2.2.1 fun e => quarter_ne (hv.2.2.2 e)).mono fun _ h => h.1.stable
  · exact (C34_lowshelf h hv.1 hv.2).mono fun _ h => h.1.stable
  · exact (C34_highshelf h hv.1 hv.2).mono fun _ h => h.1.stable
  · refine (C34_bandshelf h hv.1 hv.2.1 hv.2.2.1 fun e => ?_).mono fun _ h => h.1.stable
    have h2 := hv.2.2.2 e
    simp only [List.mem_cons, List.not_mem_nil, or_false, not_or] at h2
    refine ⟨pow_ne (tan_band_pos hv.2.2.1) ho h2.1, ?_⟩
    rw [← ofDb_neg_inv]
    exact pow_ne (tan_band_pos hv.2.2.1) ho (by rw [neg_div]; exact h2.2)
  · exact (C35_lowpass h hv.1.1 hv.1.2 hv.2).mono fun _ h => h.1.stable
  · exact (C35_highpass h hv.1.1 hv.1.2 hv.2).mono fun _ h => h.1.stable
  · refine (C35_bandpass h hv.1.1 hv.1.2.1 hv.2 hv.1.2.2.1 fun e => ?_).mono fun _ h => h.1.stable
    have h2 := hv.1.2.2.2 e
    simp only [List.mem_cons, List.not_mem_nil, or_false] at h2
    exact mul_ne_one h2
  · refine (C35_bandstop h hv.1.1 hv.1.2.1 hv.2 hv.1.2.2.1 fun e => ?_).mono fun _ h => h.1.stable
    have h2 := hv.1.2.2.2 e
    simpa only [List.mem_cons, List.not_mem_nil, or_false] using h2
  · exact (C36_lowpass h hv.1.1 hv.1.2 hv.2).mono fun _ h => h.1.stable
  · exact (C36_highpass h hv.1.1 hv.1.2 hv.2).mono fun _ h => h.1.stable
  · refine (C36_bandpass h hv.1.1 hv.1.2.1 hv.2 hv.1.2.2.1 fun e => ?_).mono fun _ h => h.1.stable
    have h2 := hv.1.2.2.2 e
    simpa only [List.mem_cons, List.not_mem_nil, or_false] using h2
  · refine (C36_bandstop h hv.1.1 hv.1.2.1 hv.2 hv.1.2.2.1 fun e => ?_).mono fun _ h => h.1.stable
    have h2 := hv.1.2.2.2 e
    simp only [List.mem_cons, List.not_mem_nil, or_false] at h2
    exact mul_ne_one h2
  · exact (C37_c1LowShelf h hv.1.1 hv.1.2 hv.2.1 hv.2.2).mono fun _ h => h.shape.stable
  · exact (C37_c1HighShelf h hv.1.1 hv.1.2 hv.2.1 hv.2.2).mono fun _ h => h.shape.stable
  · exact (C37_c2LowShelf h hv.1.1 hv.1.2 hv.2.1 hv.2.2).mono fun _ h => h.shape.stable
  · exact (C37_c2HighShelf h hv.1.1 hv.1.2 hv.2.1 hv.2.2).mono fun _ h => h.shape.stable
  · refine (C37_c1BandShelf h hv.1.1 hv.1.2.1 hv.2.1 hv.2.2 hv.1.2.2.1 fun e => ?_).mono fun _ h => h.shape.stable
    have h2 := hv.1.2.2.2 e
    simp only [List.mem_cons, List.not_mem_nil, or_false, not_or] at h2
    exact ⟨mul_ne_one h2.1, mul_ne_one h2.2⟩
  · refine (C37_c2BandShelf h hv.1.1 hv.1.2.1 hv.2.1 hv.2.2 hv.1.2.2.1 fun e => ?_).mono fun _ h => h.shape.stable
    have h2 := hv.1.2.2.2 e
    simp only [List.mem_cons, List.not_mem_nil, or_false, not_or] at h2
    exact ⟨mul_ne_one h2.1, mul_ne_one h2.2⟩
  · exact hv.elim

/-- `ChebyshevI::BandStop<6>` of order 4 with 1 dB ripple. -/
example : AfterSetup S T 6 (.setupNReq 4 (.c1BandStop (fin (1 / 4)) (fin (1 / 8)) (fin 1))) StableFilter :=
  C29_stable (o := 4) ⟨rfl, rfl, by norm_num, by norm_num, by norm_num⟩
    ⟨⟨by norm_num, by norm_num, by rw [band_ex.1, band_ex.2]; norm_num, fun h => by norm_num at h⟩, by norm_num⟩

example : AfterSetup S T 6 (.setupN (.c2HighShelf (fin (1 / 4)) (fin (-6)) (fin 1))) StableFilter :=
  C29_stable (o := 6) ⟨rfl, rfl, by norm_num, by norm_num, by norm_num⟩
    ⟨⟨by norm_num, by norm_num⟩, by norm_num, by norm_num⟩

end Iir
