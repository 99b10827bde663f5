import Verif.Spec.Knobs
import Verif.Props.Course

/-! # C97: which way a parameter moves the gain -/

set_option linter.unusedSectionVars false

namespace Iir
open Spec XR

variable {S : Type → Type} [StateType S XR] {T : Type} [Sample T XR] {n n' o o' : ℕ} {call call' : Call XR} {fc fc' fw fr g g' r r' : ℝ}

theorem compare_of {P P' : PoleFilter S XR → Prop} {rel : ℝ → ℝ → Prop} {v v' : ℝ} (A : AfterSetup S T n call P)
    (A' : AfterSetup S T n' call' P') (h : ∀ f, P f → GainSq f fr v) (h' : ∀ f, P' f → GainSq f fr v') (hr : rel v v') :
    Compare S T rel n call n' call' fr :=
  ⟨v, v', A.mono h, A'.mono h', hr⟩

/-! ## Ratios -/

theorem lowRatio_cut (h0 : 0 < fc) (hc : fc < fc') (h1 : fc' < 1 / 2) (a : 0 < fr) (b : fr < 1 / 2) :
    lowRatio fc' fr < lowRatio fc fr :=
  div_lt_div_of_pos_left (tanpi_pos a b) (tanpi_pos h0 (hc.trans h1)) (tanpi_lt h0.le hc h1)

theorem highRatio_cut (h0 : 0 < fc) (hc : fc < fc') (h1 : fc' < 1 / 2) (a : 0 < fr) (b : fr < 1 / 2) :
    highRatio fc fr < highRatio fc' fr :=
  (div_lt_div_iff_of_pos_right (tanpi_pos a b)).2 (tanpi_lt h0.le hc h1)

theorem lowRatio_lt_one (h0 : 0 < fc) (h1 : fc < 1 / 2) (a : 0 ≤ fr) (b : fr < fc) : lowRatio fc fr < 1 := by
  rw [← lowRatio_self h0 h1]; exact lowRatio_lt h0 h1 a b h1

theorem one_lt_lowRatio (h0 : 0 < fc) (a : fc < fr) (b : fr < 1 / 2) : 1 < lowRatio fc fr := by
  rw [← lowRatio_self h0 (a.trans b)]; exact lowRatio_lt h0 (a.trans b) h0.le a b

theorem highRatio_lt_one (h0 : 0 < fc) (a : fc < fr) (b : fr < 1 / 2) : highRatio fc fr < 1 := by
  rw [← highRatio_self h0 (a.trans b)]; exact highRatio_lt h0 (a.trans b) h0 a b

theorem one_lt_highRatio (h1 : fc < 1 / 2) (a : 0 < fr) (b : fr < fc) : 1 < highRatio fc fr := by
  rw [← highRatio_self (a.trans b) h1]; exact highRatio_lt (a.trans b) h1 a b h1

/-! ## Butterworth -/

theorem bw_order_in {t : ℝ} (h : o < o') (h0 : 0 < t) (h1 : t < 1) : 1 / (1 + t ^ (2 * o)) < 1 / (1 + t ^ (2 * o')) := by
  have k := pow_lt_pow_right_of_lt_one₀ h0 h1 (show 2 * o < 2 * o' by omega)
  exact one_div_lt_one_div_of_lt (by positivity) (by linarith)

theorem bw_order_out {t : ℝ} (h : o < o') (h1 : 1 < t) : 1 / (1 + t ^ (2 * o')) < 1 / (1 + t ^ (2 * o)) := by
  have k := pow_lt_pow_right₀ h1 (show 2 * o < 2 * o' by omega)
  have : 0 < t := by linarith
  exact one_div_lt_one_div_of_lt (by positivity) (by linarith)

/-- **C97**, Butterworth low pass: a higher cutoff gives more gain at every frequency between 0 and half the
sampling rate. -/
theorem C97_bw_low_cutoff (h : Asks call n o (.bwLowPass (fin fc))) (h' : Asks call' n' o (.bwLowPass (fin fc')))
    (h0 : 0 < fc) (hc : fc < fc') (h1 : fc' < 1 / 2) (a : 0 < fr) (b : fr < 1 / 2) : Louder S T n call n' call' fr :=
  compare_of (C30_lowpass h h0 (hc.trans h1)) (C30_lowpass h' (h0.trans hc) h1) (fun _ k => k.1.gain fr a.le b)
    (fun _ k => k.1.gain fr a.le b)
    (bw_lt h.pos (lowRatio_nonneg (h0.trans hc) h1 a.le b) (lowRatio_cut h0 hc h1 a b))

/-- **C97**, Butterworth low pass: a higher order gives more gain below the cutoff and less above. -/
theorem C97_bw_low_order (h : Asks call n o (.bwLowPass (fin fc))) (h' : Asks call' n' o' (.bwLowPass (fin fc)))
    (h0 : 0 < fc) (h1 : fc < 1 / 2) (ho : o < o') (a : 0 < fr) (b : fr < 1 / 2) :
    (fr < fc → Louder S T n call n' call' fr) ∧ (fc < fr → Quieter S T n call n' call' fr) :=
  ⟨fun c => compare_of (C30_lowpass h h0 h1) (C30_lowpass h' h0 h1) (fun _ k => k.1.gain fr a.le b)
      (fun _ k => k.1.gain fr a.le b) (bw_order_in ho (lowRatio_pos h0 h1 a b) (lowRatio_lt_one h0 h1 a.le c)),
    fun c => compare_of (C30_lowpass h h0 h1) (C30_lowpass h' h0 h1) (fun _ k => k.1.gain fr a.le b)
      (fun _ k => k.1.gain fr a.le b) (bw_order_out ho (one_lt_lowRatio h0 c b))⟩

/-- **C97**, Butterworth high pass: a higher cutoff gives less gain. -/
theorem C97_bw_high_cutoff (h : Asks call n o (.bwHighPass (fin fc))) (h' : Asks call' n' o (.bwHighPass (fin fc')))
    (h0 : 0 < fc) (hc : fc < fc') (h1 : fc' < 1 / 2) (a : 0 < fr) (b : fr < 1 / 2) : Quieter S T n call n' call' fr :=
  compare_of (C31_highpass h h0 (hc.trans h1)) (C31_highpass h' (h0.trans hc) h1) (fun _ k => k.1.gain fr a b)
    (fun _ k => k.1.gain fr a b)
    (bw_lt h.pos (highRatio_pos h0 (hc.trans h1) a b).le (highRatio_cut h0 hc h1 a b))

/-- **C97**, Butterworth high pass: a higher order gives more gain above the cutoff and less below. -/
theorem C97_bw_high_order (h : Asks call n o (.bwHighPass (fin fc))) (h' : Asks call' n' o' (.bwHighPass (fin fc)))
    (h0 : 0 < fc) (h1 : fc < 1 / 2) (ho : o < o') (a : 0 < fr) (b : fr < 1 / 2) :
    (fc < fr → Louder S T n call n' call' fr) ∧ (fr < fc → Quieter S T n call n' call' fr) :=
  ⟨fun c => compare_of (C31_highpass h h0 h1) (C31_highpass h' h0 h1) (fun _ k => k.1.gain fr a b)
      (fun _ k => k.1.gain fr a b) (bw_order_in ho (highRatio_pos h0 h1 a b) (highRatio_lt_one h0 c b)),
    fun c => compare_of (C31_highpass h h0 h1) (C31_highpass h' h0 h1) (fun _ k => k.1.gain fr a b)
      (fun _ k => k.1.gain fr a b) (bw_order_out ho (one_lt_highRatio h1 a c))⟩

theorem band_ratio_order {f1 f2 : ℝ} (hB : Band f1 f2) (a : 0 < fr) (b : fr < 1 / 2) :
    (f1 < fr → fr < f2 → fr ≠ bandMid f1 f2 → 0 < |bandRatio f1 f2 fr| ∧ |bandRatio f1 f2 fr| < 1) ∧
    (fr < f1 ∨ f2 < fr → 1 < |bandRatio f1 f2 fr|) := by
  have hm := hB.mid_mem
  have l := hB.lt
  have p := hB.pos
  have q := hB.half
  refine ⟨fun c e hne => ⟨?_, hB.abs_ratio_lt c e⟩, fun h => ?_⟩
  · rcases lt_or_gt_of_ne hne with k | k
    · exact (abs_nonneg _).trans_lt (hB.abs_ratio_mono.1 fr _ a k le_rfl)
    · exact (abs_nonneg _).trans_lt (hB.abs_ratio_mono.2 _ fr le_rfl k b)
  · rcases h with k | k
    · have := hB.ratio_below a k
      rw [abs_of_neg (by linarith)]; linarith
    · have := hB.ratio_lt (p.trans l) k b
      rw [hB.ratio_hi] at this
      exact this.trans_le (le_abs_self _)

/-- **C97**, Butterworth band pass: a higher order gives more gain inside the band (but for the centre, where it is 1)
and less outside. -/
theorem C97_bw_band_order (h : Asks call n o (.bwBandPass (fin fc) (fin fw))) (h' : Asks call' n' o' (.bwBandPass (fin fc) (fin fw)))
    (h0 : 0 ≤ fc) (h1 : fc < 1 / 2) (he : bandLo fc fw < bandHi fc fw) (hne : bandHi fc fw - bandLo fc fw ≠ 1 / 4)
    (ho : o < o') (a : 0 < fr) (b : fr < 1 / 2) :
    (bandLo fc fw < fr → fr < bandHi fc fw → fr ≠ bandMid (bandLo fc fw) (bandHi fc fw) → Louder S T n call n' call' fr) ∧
    (fr < bandLo fc fw ∨ bandHi fc fw < fr → Quieter S T n call n' call' fr) := by
  have A := C32_bandpass (S := S) (T := T) h h0 h1 he fun _ => hne
  have A' := C32_bandpass (S := S) (T := T) h' h0 h1 he fun _ => hne
  have k := band_ratio_order (band_of he) a b
  have e : ∀ o (t : ℝ), t ^ (2 * o) = |t| ^ (2 * o) := fun o t => ((even_two_mul o).pow_abs t).symm
  refine ⟨fun c d hm => compare_of A A' (fun _ k => k.1.gain fr a b) (fun _ k => k.1.gain fr a b) ?_,
    fun c => compare_of A A' (fun _ k => k.1.gain fr a b) (fun _ k => k.1.gain fr a b) ?_⟩
  · rw [e o, e o']
    exact bw_order_in ho (k.1 c d hm).1 (k.1 c d hm).2
  · rw [e o, e o']
    exact bw_order_out ho (k.2 c)

/-- **C97**, Butterworth band stop: the other way round. -/
theorem C97_bw_stop_order (h : Asks call n o (.bwBandStop (fin fc) (fin fw))) (h' : Asks call' n' o' (.bwBandStop (fin fc) (fin fw)))
    (h0 : 0 ≤ fc) (h1 : fc < 1 / 2) (he : bandLo fc fw < bandHi fc fw) (hne : bandHi fc fw - bandLo fc fw ≠ 1 / 4)
    (ho : o < o') (a : 0 < fr) (b : fr < 1 / 2) :
    (bandLo fc fw < fr → fr < bandHi fc fw → fr ≠ bandMid (bandLo fc fw) (bandHi fc fw) → Quieter S T n call n' call' fr) ∧
    (fr < bandLo fc fw ∨ bandHi fc fw < fr → Louder S T n call n' call' fr) := by
  have A := C33_bandstop (S := S) (T := T) h h0 h1 he fun _ => hne
  have A' := C33_bandstop (S := S) (T := T) h' h0 h1 he fun _ => hne
  have k := band_ratio_order (band_of he) a b
  have e : ∀ o (t : ℝ), t ^ (2 * o) / (1 + t ^ (2 * o)) = 1 - 1 / (1 + |t| ^ (2 * o)) := fun o t => by
    have := (even_two_mul o).pow_nonneg t
    rw [(even_two_mul o).pow_abs t, eq_sub_iff_add_eq, ← add_div, add_comm, div_self (by linarith)]
  refine ⟨fun c d hm => compare_of A A' (fun _ k => k.1.gain fr a b) (fun _ k => k.1.gain fr a b) ?_,
    fun c => compare_of A A' (fun _ k => k.1.gain fr a b) (fun _ k => k.1.gain fr a b) ?_⟩
  · simp only [e]
    exact sub_lt_sub_left (bw_order_in ho (k.1 c d hm).1 (k.1 c d hm).2) 1
  · simp only [e]
    exact sub_lt_sub_left (bw_order_out ho (k.2 c)) 1

/-- cases: inside and outside the band from 3/16 to 5/16 -/
example : Louder S T 2 (.setupN (.bwBandPass (fin (1 / 4)) (fin (1 / 8)))) 3 (.setupN (.bwBandPass (fin (1 / 4)) (fin (1 / 8)))) (1 / 5) := by
  have he : bandLo (1 / 4) (1 / 8) < bandHi (1 / 4) (1 / 8) := by rw [band_ex.1, band_ex.2]; norm_num
  have z : bandRatio (bandLo (1 / 4) (1 / 8)) (bandHi (1 / 4) (1 / 8)) (1 / 4) = 0 := by
    rw [band_ex.1, band_ex.2, bandRatio, show Real.pi * (3 / 16 + 5 / 16) = Real.pi / 2 by ring,
      show 2 * Real.pi * (1 / 4) = Real.pi / 2 by ring, Real.cos_pi_div_two]
    simp
  refine (C97_bw_band_order (o := 2) (o' := 3) (fc := 1 / 4) (fw := 1 / 8) ⟨rfl, rfl, by norm_num, by norm_num, by norm_num⟩
    ⟨rfl, rfl, by norm_num, by norm_num, by norm_num⟩ (by norm_num) (by norm_num) he ?_ (by norm_num) (by norm_num) (by norm_num)).1 ?_ ?_ fun hm => ?_
  · rw [band_ex.1, band_ex.2]; norm_num
  · rw [band_ex.1]; norm_num
  · rw [band_ex.2]; norm_num
  · have := (band_of he).abs_ratio_mono.2 (1 / 5) (1 / 4) hm.ge (by norm_num) (by norm_num)
    rw [z, abs_zero] at this
    exact absurd this (not_lt.2 (abs_nonneg _))

example : Quieter S T 2 (.setupN (.bwBandPass (fin (1 / 4)) (fin (1 / 8)))) 3 (.setupN (.bwBandPass (fin (1 / 4)) (fin (1 / 8)))) (1 / 8) := by
  refine (C97_bw_band_order (o := 2) (o' := 3) (fc := 1 / 4) (fw := 1 / 8) ⟨rfl, rfl, by norm_num, by norm_num, by norm_num⟩
    ⟨rfl, rfl, by norm_num, by norm_num, by norm_num⟩ (by norm_num) (by norm_num) ?_ ?_ (by norm_num) (by norm_num) (by norm_num)).2 (.inl ?_)
  · rw [band_ex.1, band_ex.2]; norm_num
  · rw [band_ex.1, band_ex.2]; norm_num
  · rw [band_ex.1]; norm_num

theorem bwShelf_db (o : ℕ) (hg : g < g') (t : ℝ) : bwShelf o g t < bwShelf o g' t := by
  have hp := ofDb_pos g
  have k := ofDb_lt hg
  have hx : 0 ≤ t ^ (2 * o) := (even_two_mul o).pow_nonneg t
  have k' := one_div_lt_one_div_of_lt hp k
  have i : 0 < 1 / ofDb g' := by have := hp.trans k; positivity
  unfold bwShelf
  generalize t ^ (2 * o) = X at *
  rw [div_lt_div_iff₀ (by linarith) (by linarith)]
  nlinarith

/-- **C97**, Butterworth low shelf: more decibels give more gain at every frequency below half the sampling rate. -/
theorem C97_bw_lowshelf (h : Asks call n o (.bwLowShelf (fin fc) (fin g))) (h' : Asks call' n' o (.bwLowShelf (fin fc) (fin g')))
    (h0 : 0 < fc) (h1 : fc < 1 / 2) (hg : g < g') (a : 0 ≤ fr) (b : fr < 1 / 2) : Louder S T n call n' call' fr :=
  compare_of (C34_lowshelf h h0 h1) (C34_lowshelf h' h0 h1) (fun _ k => k.1.gain fr a b) (fun _ k => k.1.gain fr a b)
    (bwShelf_db o hg _)

/-- **C97**, Butterworth high shelf. -/
theorem C97_bw_highshelf (h : Asks call n o (.bwHighShelf (fin fc) (fin g))) (h' : Asks call' n' o (.bwHighShelf (fin fc) (fin g')))
    (h0 : 0 < fc) (h1 : fc < 1 / 2) (hg : g < g') (a : 0 < fr) (b : fr ≤ 1 / 2) : Louder S T n call n' call' fr := by
  rcases b.eq_or_lt with rfl | b
  · exact compare_of (C34_highshelf h h0 h1) (C34_highshelf h' h0 h1) (fun _ k => k.1.nyquist) (fun _ k => k.1.nyquist)
      (bwShelf_db o hg _)
  · exact compare_of (C34_highshelf h h0 h1) (C34_highshelf h' h0 h1) (fun _ k => k.1.gain fr a b) (fun _ k => k.1.gain fr a b)
      (bwShelf_db o hg _)

/-! ## Chebyshev -/

theorem chebT_sq_order (ho : o < o') {x : ℝ} (h : 1 < x) : chebT o x ^ 2 < chebT o' x ^ 2 := by
  have h1 := Polynomial.Chebyshev.one_le_eval_T_real o h.le
  refine pow_lt_pow_left₀ ?_ (by linarith) (by norm_num)
  have hp : 0 < Real.arcosh x := by
    have k := Real.arcosh_nonneg h.le
    rcases k.eq_or_lt with k | k
    · have := Real.cosh_arcosh h.le
      rw [← k, Real.cosh_zero] at this
      linarith
    · exact k
  rw [chebT, chebT, ← Real.cosh_arcosh h.le, Polynomial.Chebyshev.T_real_cosh, Polynomial.Chebyshev.T_real_cosh, Real.cosh_lt_cosh]
  have ho' : (o : ℝ) < o' := by exact_mod_cast ho
  rw [abs_of_nonneg (by push_cast; positivity), abs_of_nonneg (by push_cast; positivity)]
  push_cast
  exact mul_lt_mul_of_pos_right ho' hp

theorem eps_pos (hr : 0 < r) : 0 < (10 : ℝ) ^ (r / 10) - 1 := by
  rw [sub_pos]; exact Real.one_lt_rpow (by norm_num) (by positivity)

theorem eps_lt (h : r < r') : (10 : ℝ) ^ (r / 10) - 1 < (10 : ℝ) ^ (r' / 10) - 1 := by
  have := Real.rpow_lt_rpow_of_exponent_lt (x := (10 : ℝ)) (by norm_num) (show r / 10 < r' / 10 by linarith)
  linarith

theorem cheb1_of_lt (hr : 0 < r) {t t' : ℝ} (h : chebT o t ^ 2 < chebT o' t' ^ 2) : cheb1 o' r t' < cheb1 o r t := by
  have e := eps_pos hr
  have k := mul_lt_mul_of_pos_left h e
  have := mul_nonneg e.le (sq_nonneg (chebT o t))
  exact one_div_lt_one_div_of_lt (by linarith) (by linarith)

theorem cheb1_ripple (hr : 0 < r) (h : r < r') (t : ℝ) : cheb1 o r' t ≤ cheb1 o r t ∧ (chebT o t ≠ 0 → cheb1 o r' t < cheb1 o r t) := by
  have e := eps_pos hr
  have l := eps_lt h
  have s := sq_nonneg (chebT o t)
  have := mul_nonneg e.le s
  refine ⟨one_div_le_one_div_of_le (by linarith) ?_, fun k => one_div_lt_one_div_of_lt (by linarith) ?_⟩
  · nlinarith
  · have : 0 < chebT o t ^ 2 := by positivity
    nlinarith

/-- **C97**, Chebyshev I low pass: a higher cutoff gives more gain at every frequency above it, -/
theorem C97_c1_low_cutoff (h : Asks call n o (.c1LowPass (fin fc) (fin r))) (h' : Asks call' n' o (.c1LowPass (fin fc') (fin r)))
    (h0 : 0 < fc) (hc : fc < fc') (h1 : fc' < 1 / 2) (hr : 0 < r) (a : fc' ≤ fr) (b : fr < 1 / 2) : Louder S T n call n' call' fr := by
  have a0 : 0 < fr := by linarith
  refine compare_of (C35_lowpass h h0 (hc.trans h1) hr) (C35_lowpass h' (h0.trans hc) h1 hr) (fun _ k => k.1.gain fr a0.le b)
    (fun _ k => k.1.gain fr a0.le b) (cheb1_of_lt hr (chebT_sq_lt h.pos ?_ (lowRatio_cut h0 hc h1 a0 b)))
  rcases a.eq_or_lt with rfl | a
  · exact (lowRatio_self a0 h1).ge
  · exact (one_lt_lowRatio (h0.trans hc) a b).le

/-- a higher order less gain above the cutoff, -/
theorem C97_c1_low_order (h : Asks call n o (.c1LowPass (fin fc) (fin r))) (h' : Asks call' n' o' (.c1LowPass (fin fc) (fin r)))
    (h0 : 0 < fc) (ho : o < o') (hr : 0 < r) (a : fc < fr) (b : fr < 1 / 2) : Quieter S T n call n' call' fr :=
  have h1 := a.trans b
  have a0 := h0.trans a
  compare_of (C35_lowpass h h0 h1 hr) (C35_lowpass h' h0 h1 hr) (fun _ k => k.1.gain fr a0.le b)
    (fun _ k => k.1.gain fr a0.le b) (cheb1_of_lt hr (chebT_sq_order ho (one_lt_lowRatio h0 a b)))

/-- more ripple no more gain anywhere, and less above the cutoff. -/
theorem C97_c1_low_ripple (h : Asks call n o (.c1LowPass (fin fc) (fin r))) (h' : Asks call' n' o (.c1LowPass (fin fc) (fin r')))
    (h0 : 0 < fc) (h1 : fc < 1 / 2) (hr : 0 < r) (hr' : r < r') (a : 0 ≤ fr) (b : fr < 1 / 2) :
    NotLouder S T n call n' call' fr ∧ (fc ≤ fr → Quieter S T n call n' call' fr) := by
  have A := C35_lowpass (S := S) (T := T) h h0 h1 hr
  have A' := C35_lowpass (S := S) (T := T) h' h0 h1 (hr.trans hr')
  refine ⟨compare_of A A' (fun _ k => k.1.gain fr a b) (fun _ k => k.1.gain fr a b) (cheb1_ripple hr hr' _).1,
    fun c => compare_of A A' (fun _ k => k.1.gain fr a b) (fun _ k => k.1.gain fr a b) ((cheb1_ripple hr hr' _).2 ?_)⟩
  have : 1 ≤ lowRatio fc fr := by
    rcases c.eq_or_lt with rfl | c
    · exact (lowRatio_self h0 h1).ge
    · exact (one_lt_lowRatio h0 c b).le
  have := Polynomial.Chebyshev.one_le_eval_T_real o this
  exact (by linarith : (0 : ℝ) < _).ne'

/-- **C97**, Chebyshev I high pass. -/
theorem C97_c1_high_cutoff (h : Asks call n o (.c1HighPass (fin fc) (fin r))) (h' : Asks call' n' o (.c1HighPass (fin fc') (fin r)))
    (h0 : 0 < fc) (hc : fc < fc') (h1 : fc' < 1 / 2) (hr : 0 < r) (a : 0 < fr) (b : fr ≤ fc) : Quieter S T n call n' call' fr := by
  have b1 : fr < 1 / 2 := by linarith
  refine compare_of (C35_highpass h h0 (hc.trans h1) hr) (C35_highpass h' (h0.trans hc) h1 hr) (fun _ k => k.1.gain fr a b1)
    (fun _ k => k.1.gain fr a b1) (cheb1_of_lt hr (chebT_sq_lt h.pos ?_ (highRatio_cut h0 hc h1 a b1)))
  rcases b.eq_or_lt with rfl | b
  · exact (highRatio_self a b1).ge
  · exact (one_lt_highRatio (hc.trans h1) a b).le

theorem C97_c1_high_order (h : Asks call n o (.c1HighPass (fin fc) (fin r))) (h' : Asks call' n' o' (.c1HighPass (fin fc) (fin r)))
    (h1 : fc < 1 / 2) (ho : o < o') (hr : 0 < r) (a : 0 < fr) (b : fr < fc) : Quieter S T n call n' call' fr :=
  have h0 := a.trans b
  have b1 := b.trans h1
  compare_of (C35_highpass h h0 h1 hr) (C35_highpass h' h0 h1 hr) (fun _ k => k.1.gain fr a b1)
    (fun _ k => k.1.gain fr a b1) (cheb1_of_lt hr (chebT_sq_order ho (one_lt_highRatio h1 a b)))

theorem C97_c1_high_ripple (h : Asks call n o (.c1HighPass (fin fc) (fin r))) (h' : Asks call' n' o (.c1HighPass (fin fc) (fin r')))
    (h0 : 0 < fc) (h1 : fc < 1 / 2) (hr : 0 < r) (hr' : r < r') (a : 0 < fr) (b : fr < 1 / 2) :
    NotLouder S T n call n' call' fr ∧ (fr ≤ fc → Quieter S T n call n' call' fr) := by
  have A := C35_highpass (S := S) (T := T) h h0 h1 hr
  have A' := C35_highpass (S := S) (T := T) h' h0 h1 (hr.trans hr')
  refine ⟨compare_of A A' (fun _ k => k.1.gain fr a b) (fun _ k => k.1.gain fr a b) (cheb1_ripple hr hr' _).1,
    fun c => compare_of A A' (fun _ k => k.1.gain fr a b) (fun _ k => k.1.gain fr a b) ((cheb1_ripple hr hr' _).2 ?_)⟩
  have : 1 ≤ highRatio fc fr := by
    rcases c.eq_or_lt with rfl | c
    · exact (highRatio_self a h1).ge
    · exact (one_lt_highRatio h1 a c).le
  have := Polynomial.Chebyshev.one_le_eval_T_real o this
  exact (by linarith : (0 : ℝ) < _).ne'

theorem cheb2_of_lt (hr : 0 < r) {t t' : ℝ} (h : chebT o t ^ 2 < chebT o' t' ^ 2) : cheb2 o r t < cheb2 o' r t' := by
  have e := eps_pos hr
  have s := sq_nonneg (chebT o t)
  unfold cheb2
  rw [div_lt_div_iff₀ (by linarith) (by linarith)]
  nlinarith

theorem cheb2_knob (hr : 0 < r) (h : r < r') (t : ℝ) : cheb2 o r' t ≤ cheb2 o r t ∧ (chebT o t ≠ 0 → cheb2 o r' t < cheb2 o r t) := by
  have e := eps_pos hr
  have l := eps_lt h
  have s := sq_nonneg (chebT o t)
  unfold cheb2
  refine ⟨?_, fun k => ?_⟩
  · rw [div_le_div_iff₀ (by linarith) (by linarith)]
    nlinarith
  · have : 0 < chebT o t ^ 2 := by positivity
    rw [div_lt_div_iff₀ (by linarith) (by linarith)]
    nlinarith

/-- **C97**, Chebyshev II low pass: a higher cutoff gives more gain at every frequency below the lower one, -/
theorem C97_c2_low_cutoff (h : Asks call n o (.c2LowPass (fin fc) (fin r))) (h' : Asks call' n' o (.c2LowPass (fin fc') (fin r)))
    (h0 : 0 < fc) (hc : fc < fc') (h1 : fc' < 1 / 2) (hr : 0 < r) (a : 0 < fr) (b : fr ≤ fc) : Louder S T n call n' call' fr := by
  have b1 : fr < 1 / 2 := by linarith
  have p := lowRatio_pos h0 (hc.trans h1) a b1
  have p' := lowRatio_pos (h0.trans hc) h1 a b1
  refine compare_of (C36_lowpass h h0 (hc.trans h1) hr) (C36_lowpass h' (h0.trans hc) h1 hr) (fun _ k => k.1.gain fr a.le b1)
    (fun _ k => k.1.gain fr a.le b1) ?_
  simp only [p.ne', p'.ne', if_false]
  refine cheb2_of_lt hr (chebT_sq_lt h.pos ?_ (one_div_lt_one_div_of_lt p' (lowRatio_cut h0 hc h1 a b1)))
  rw [le_div_iff₀ p, _root_.one_mul]
  exact (lowRatio_le_one h0 (hc.trans h1) a.le b).2

/-- a higher order more gain below the cutoff, -/
theorem C97_c2_low_order (h : Asks call n o (.c2LowPass (fin fc) (fin r))) (h' : Asks call' n' o' (.c2LowPass (fin fc) (fin r)))
    (h1 : fc < 1 / 2) (ho : o < o') (hr : 0 < r) (a : 0 < fr) (b : fr < fc) : Louder S T n call n' call' fr := by
  have h0 := a.trans b
  have b1 := b.trans h1
  have p := lowRatio_pos h0 h1 a b1
  refine compare_of (C36_lowpass h h0 h1 hr) (C36_lowpass h' h0 h1 hr) (fun _ k => k.1.gain fr a.le b1)
    (fun _ k => k.1.gain fr a.le b1) ?_
  simp only [p.ne', if_false]
  refine cheb2_of_lt hr (chebT_sq_order ho ?_)
  rw [lt_div_iff₀ p, _root_.one_mul]
  exact lowRatio_lt_one h0 h1 a.le b

/-- more stop band attenuation no more gain anywhere, and less below the cutoff. -/
theorem C97_c2_low_stop (h : Asks call n o (.c2LowPass (fin fc) (fin r))) (h' : Asks call' n' o (.c2LowPass (fin fc) (fin r')))
    (h0 : 0 < fc) (h1 : fc < 1 / 2) (hr : 0 < r) (hr' : r < r') (a : 0 < fr) (b : fr < 1 / 2) :
    NotLouder S T n call n' call' fr ∧ (fr ≤ fc → Quieter S T n call n' call' fr) := by
  have A := C36_lowpass (S := S) (T := T) h h0 h1 hr
  have A' := C36_lowpass (S := S) (T := T) h' h0 h1 (hr.trans hr')
  have p := lowRatio_pos h0 h1 a b
  refine ⟨compare_of A A' (fun _ k => k.1.gain fr a.le b) (fun _ k => k.1.gain fr a.le b) ?_,
    fun c => compare_of A A' (fun _ k => k.1.gain fr a.le b) (fun _ k => k.1.gain fr a.le b) ?_⟩
  · simp only [p.ne', if_false]
    exact (cheb2_knob hr hr' _).1
  · simp only [p.ne', if_false]
    refine (cheb2_knob hr hr' _).2 ?_
    have : 1 ≤ 1 / lowRatio fc fr := by
      rw [le_div_iff₀ p, _root_.one_mul]
      exact (lowRatio_le_one h0 h1 a.le c).2
    have := Polynomial.Chebyshev.one_le_eval_T_real o this
    exact (by linarith : (0 : ℝ) < _).ne'

/-- **C97**, Chebyshev II high pass. -/
theorem C97_c2_high_cutoff (h : Asks call n o (.c2HighPass (fin fc) (fin r))) (h' : Asks call' n' o (.c2HighPass (fin fc') (fin r)))
    (h0 : 0 < fc) (hc : fc < fc') (h1 : fc' < 1 / 2) (hr : 0 < r) (a : fc' ≤ fr) (b : fr < 1 / 2) : Quieter S T n call n' call' fr := by
  have a0 : 0 < fr := by linarith
  have p := highRatio_pos h0 (hc.trans h1) a0 b
  have p' := highRatio_pos (h0.trans hc) h1 a0 b
  refine compare_of (C36_highpass h h0 (hc.trans h1) hr) (C36_highpass h' (h0.trans hc) h1 hr) (fun _ k => k.1.gain fr a0 b)
    (fun _ k => k.1.gain fr a0 b) ?_
  simp only [p.ne', p'.ne', if_false]
  refine cheb2_of_lt hr (chebT_sq_lt h.pos ?_ (one_div_lt_one_div_of_lt p (highRatio_cut h0 hc h1 a0 b)))
  rw [le_div_iff₀ p', _root_.one_mul]
  exact (highRatio_le_one (h0.trans hc) h1 a b.le).2

theorem C97_c2_high_order (h : Asks call n o (.c2HighPass (fin fc) (fin r))) (h' : Asks call' n' o' (.c2HighPass (fin fc) (fin r)))
    (h0 : 0 < fc) (ho : o < o') (hr : 0 < r) (a : fc < fr) (b : fr < 1 / 2) : Louder S T n call n' call' fr := by
  have h1 := a.trans b
  have a0 := h0.trans a
  have p := highRatio_pos h0 h1 a0 b
  refine compare_of (C36_highpass h h0 h1 hr) (C36_highpass h' h0 h1 hr) (fun _ k => k.1.gain fr a0 b)
    (fun _ k => k.1.gain fr a0 b) ?_
  simp only [p.ne', if_false]
  refine cheb2_of_lt hr (chebT_sq_order ho ?_)
  rw [lt_div_iff₀ p, _root_.one_mul]
  exact highRatio_lt_one h0 a b

theorem C97_c2_high_stop (h : Asks call n o (.c2HighPass (fin fc) (fin r))) (h' : Asks call' n' o (.c2HighPass (fin fc) (fin r')))
    (h0 : 0 < fc) (h1 : fc < 1 / 2) (hr : 0 < r) (hr' : r < r') (a : 0 < fr) (b : fr < 1 / 2) :
    NotLouder S T n call n' call' fr ∧ (fc ≤ fr → Quieter S T n call n' call' fr) := by
  have A := C36_highpass (S := S) (T := T) h h0 h1 hr
  have A' := C36_highpass (S := S) (T := T) h' h0 h1 (hr.trans hr')
  have p := highRatio_pos h0 h1 a b
  refine ⟨compare_of A A' (fun _ k => k.1.gain fr a b) (fun _ k => k.1.gain fr a b) ?_,
    fun c => compare_of A A' (fun _ k => k.1.gain fr a b) (fun _ k => k.1.gain fr a b) ?_⟩
  · simp only [p.ne', if_false]
    exact (cheb2_knob hr hr' _).1
  · simp only [p.ne', if_false]
    refine (cheb2_knob hr hr' _).2 ?_
    have : 1 ≤ 1 / highRatio fc fr := by
      rw [le_div_iff₀ p, _root_.one_mul]
      exact (highRatio_le_one h0 h1 c b.le).2
    have := Polynomial.Chebyshev.one_le_eval_T_real o this
    exact (by linarith : (0 : ℝ) < _).ne'

/-- cases -/
example : Louder S T 3 (.setupN (.bwLowPass (fin (1 / 8)))) 5 (.setupNReq 3 (.bwLowPass (fin (1 / 4)))) (1 / 10) ∧
    Quieter S T 3 (.setupN (.c1LowPass (fin (1 / 8)) (fin 1))) 4 (.setupN (.c1LowPass (fin (1 / 8)) (fin 1))) (1 / 5) :=
  ⟨C97_bw_low_cutoff (o := 3) ⟨rfl, rfl, by norm_num, by norm_num, by norm_num⟩ ⟨rfl, rfl, by norm_num, by norm_num, by norm_num⟩
      (by norm_num) (by norm_num) (by norm_num) (by norm_num) (by norm_num),
    C97_c1_low_order (o := 3) (o' := 4) ⟨rfl, rfl, by norm_num, by norm_num, by norm_num⟩ ⟨rfl, rfl, by norm_num, by norm_num, by norm_num⟩
      (by norm_num) (by norm_num) (by norm_num) (by norm_num) (by norm_num)⟩

example : Louder S T 3 (.setupN (.bwLowPass (fin (1 / 8)))) 4 (.setupN (.bwLowPass (fin (1 / 8)))) (1 / 10) :=
  (C97_bw_low_order (o := 3) (o' := 4) ⟨rfl, rfl, by norm_num, by norm_num, by norm_num⟩ ⟨rfl, rfl, by norm_num, by norm_num, by norm_num⟩ (by norm_num) (by norm_num) (by norm_num) (by norm_num) (by norm_num)).1 (by norm_num)
example : Quieter S T 3 (.setupN (.bwHighPass (fin (1 / 8)))) 3 (.setupN (.bwHighPass (fin (1 / 4)))) (1 / 10) :=
  C97_bw_high_cutoff (o := 3) ⟨rfl, rfl, by norm_num, by norm_num, by norm_num⟩ ⟨rfl, rfl, by norm_num, by norm_num, by norm_num⟩ (by norm_num) (by norm_num) (by norm_num) (by norm_num) (by norm_num)
example : Quieter S T 3 (.setupN (.bwHighPass (fin (1 / 8)))) 4 (.setupN (.bwHighPass (fin (1 / 8)))) (1 / 10) :=
  (C97_bw_high_order (o := 3) (o' := 4) ⟨rfl, rfl, by norm_num, by norm_num, by norm_num⟩ ⟨rfl, rfl, by norm_num, by norm_num, by norm_num⟩ (by norm_num) (by norm_num) (by norm_num) (by norm_num) (by norm_num)).2 (by norm_num)
example : Louder S T 3 (.setupN (.bwLowShelf (fin (1 / 8)) (fin 1))) 3 (.setupN (.bwLowShelf (fin (1 / 8)) (fin 2))) (1 / 10) :=
  C97_bw_lowshelf (o := 3) ⟨rfl, rfl, by norm_num, by norm_num, by norm_num⟩ ⟨rfl, rfl, by norm_num, by norm_num, by norm_num⟩ (by norm_num) (by norm_num) (by norm_num) (by norm_num) (by norm_num)
example : Louder S T 3 (.setupN (.bwHighShelf (fin (1 / 8)) (fin 1))) 3 (.setupN (.bwHighShelf (fin (1 / 8)) (fin 2))) (1 / 2) :=
  C97_bw_highshelf (o := 3) ⟨rfl, rfl, by norm_num, by norm_num, by norm_num⟩ ⟨rfl, rfl, by norm_num, by norm_num, by norm_num⟩ (by norm_num) (by norm_num) (by norm_num) (by norm_num) (by norm_num)
example : Louder S T 3 (.setupN (.c1LowPass (fin (1 / 8)) (fin 1))) 3 (.setupN (.c1LowPass (fin (1 / 4)) (fin 1))) (1 / 3) :=
  C97_c1_low_cutoff (o := 3) ⟨rfl, rfl, by norm_num, by norm_num, by norm_num⟩ ⟨rfl, rfl, by norm_num, by norm_num, by norm_num⟩ (by norm_num) (by norm_num) (by norm_num) (by norm_num) (by norm_num) (by norm_num)
example : Quieter S T 3 (.setupN (.c1LowPass (fin (1 / 8)) (fin 1))) 3 (.setupN (.c1LowPass (fin (1 / 8)) (fin 2))) (1 / 3) :=
  (C97_c1_low_ripple (o := 3) ⟨rfl, rfl, by norm_num, by norm_num, by norm_num⟩ ⟨rfl, rfl, by norm_num, by norm_num, by norm_num⟩ (by norm_num) (by norm_num) (by norm_num) (by norm_num) (by norm_num) (by norm_num)).2 (by norm_num)
example : Quieter S T 3 (.setupN (.c1HighPass (fin (1 / 8)) (fin 1))) 3 (.setupN (.c1HighPass (fin (1 / 4)) (fin 1))) (1 / 10) :=
  C97_c1_high_cutoff (o := 3) ⟨rfl, rfl, by norm_num, by norm_num, by norm_num⟩ ⟨rfl, rfl, by norm_num, by norm_num, by norm_num⟩ (by norm_num) (by norm_num) (by norm_num) (by norm_num) (by norm_num) (by norm_num)
example : Quieter S T 3 (.setupN (.c1HighPass (fin (1 / 8)) (fin 1))) 4 (.setupN (.c1HighPass (fin (1 / 8)) (fin 1))) (1 / 10) :=
  C97_c1_high_order (o := 3) (o' := 4) ⟨rfl, rfl, by norm_num, by norm_num, by norm_num⟩ ⟨rfl, rfl, by norm_num, by norm_num, by norm_num⟩ (by norm_num) (by norm_num) (by norm_num) (by norm_num) (by norm_num)
example : Quieter S T 3 (.setupN (.c1HighPass (fin (1 / 8)) (fin 1))) 3 (.setupN (.c1HighPass (fin (1 / 8)) (fin 2))) (1 / 10) :=
  (C97_c1_high_ripple (o := 3) ⟨rfl, rfl, by norm_num, by norm_num, by norm_num⟩ ⟨rfl, rfl, by norm_num, by norm_num, by norm_num⟩ (by norm_num) (by norm_num) (by norm_num) (by norm_num) (by norm_num) (by norm_num)).2 (by norm_num)
example : Louder S T 3 (.setupN (.c2LowPass (fin (1 / 8)) (fin 1))) 3 (.setupN (.c2LowPass (fin (1 / 4)) (fin 1))) (1 / 10) :=
  C97_c2_low_cutoff (o := 3) ⟨rfl, rfl, by norm_num, by norm_num, by norm_num⟩ ⟨rfl, rfl, by norm_num, by norm_num, by norm_num⟩ (by norm_num) (by norm_num) (by norm_num) (by norm_num) (by norm_num) (by norm_num)
example : Louder S T 3 (.setupN (.c2LowPass (fin (1 / 8)) (fin 1))) 4 (.setupN (.c2LowPass (fin (1 / 8)) (fin 1))) (1 / 10) :=
  C97_c2_low_order (o := 3) (o' := 4) ⟨rfl, rfl, by norm_num, by norm_num, by norm_num⟩ ⟨rfl, rfl, by norm_num, by norm_num, by norm_num⟩ (by norm_num) (by norm_num) (by norm_num) (by norm_num) (by norm_num)
example : Quieter S T 3 (.setupN (.c2LowPass (fin (1 / 8)) (fin 1))) 3 (.setupN (.c2LowPass (fin (1 / 8)) (fin 2))) (1 / 10) :=
  (C97_c2_low_stop (o := 3) ⟨rfl, rfl, by norm_num, by norm_num, by norm_num⟩ ⟨rfl, rfl, by norm_num, by norm_num, by norm_num⟩ (by norm_num) (by norm_num) (by norm_num) (by norm_num) (by norm_num) (by norm_num)).2 (by norm_num)
example : Quieter S T 3 (.setupN (.c2HighPass (fin (1 / 8)) (fin 1))) 3 (.setupN (.c2HighPass (fin (1 / 4)) (fin 1))) (1 / 3) :=
  C97_c2_high_cutoff (o := 3) ⟨rfl, rfl, by norm_num, by norm_num, by norm_num⟩ ⟨rfl, rfl, by norm_num, by norm_num, by norm_num⟩ (by norm_num) (by norm_num) (by norm_num) (by norm_num) (by norm_num) (by norm_num)
example : Louder S T 3 (.setupN (.c2HighPass (fin (1 / 8)) (fin 1))) 4 (.setupN (.c2HighPass (fin (1 / 8)) (fin 1))) (1 / 3) :=
  C97_c2_high_order (o := 3) (o' := 4) ⟨rfl, rfl, by norm_num, by norm_num, by norm_num⟩ ⟨rfl, rfl, by norm_num, by norm_num, by norm_num⟩ (by norm_num) (by norm_num) (by norm_num) (by norm_num) (by norm_num)
example : Quieter S T 3 (.setupN (.c2HighPass (fin (1 / 8)) (fin 1))) 3 (.setupN (.c2HighPass (fin (1 / 8)) (fin 2))) (1 / 3) :=
  (C97_c2_high_stop (o := 3) ⟨rfl, rfl, by norm_num, by norm_num, by norm_num⟩ ⟨rfl, rfl, by norm_num, by norm_num, by norm_num⟩ (by norm_num) (by norm_num) (by norm_num) (by norm_num) (by norm_num) (by norm_num)).2 (by norm_num)

/-! ## RBJ -/

variable {f0 f0' q q' w : ℝ} {d d' : RBJ.Design ℝ} {n2 n1 n0 d2 d1 d0 n2' n1' n0' d2' d1' d0' : ℝ}

theorem den_pos (h0 : 0 < f0) (h1 : f0 < 1 / 2) (hd2 : 0 < d2) (hd1 : 0 < d1) (hd0 : 0 < d0) (a : 0 ≤ fr) (c : fr ≤ 1 / 2) :
    0 < homSq d2 d1 d0 (hP f0 fr) (hR f0 fr) := by
  refine homSq_pos hd2 hd1 hd0 (hP_nonneg f0 fr) (hR_nonneg f0 fr) ?_
  rcases a.eq_or_lt with rfl | a
  · exact .inr (hR_pos h0 h1 le_rfl (by norm_num))
  · exact .inl (hP_pos h0 h1 a c)

theorem quad_gain_eq (h0 : 0 < f0) (h1 : f0 < 1 / 2) (hd2 : 0 < d2) (hd1 : 0 < d1) (hd0 : 0 < d0) (a : 0 ≤ fr) (c : fr ≤ 1 / 2)
    {b : Biquad XR} (hb : QuadResponse f0 n2 n1 n0 d2 d1 d0 b) :
    Gain b fr (√(homSq n2 n1 n0 (hP f0 fr) (hR f0 fr) / homSq d2 d1 d0 (hP f0 fr) (hR f0 fr))) := by
  obtain ⟨g, g0, hg, hgs⟩ := quad_gain h0 h1 hd2 hd1 hd0 hb a c
  rw [hg, ← hgs, mul_div_cancel_right₀ _ (den_pos h0 h1 hd2 hd1 hd0 a c).ne', Real.sqrt_sq g0]

theorem rbj_louder (hv : ValidRBJ d) (hv' : ValidRBJ d') (hQ : HasPrototype d = QuadResponse f0 n2 n1 n0 d2 d1 d0)
    (hQ' : HasPrototype d' = QuadResponse f0' n2' n1' n0' d2' d1' d0') (h0 : 0 < f0) (h1 : f0 < 1 / 2) (h0' : 0 < f0') (h1' : f0' < 1 / 2)
    (hd2 : 0 < d2) (hd1 : 0 < d1) (hd0 : 0 < d0) (hd2' : 0 < d2') (hd1' : 0 < d1') (hd0' : 0 < d0') (a : 0 ≤ fr) (c : fr ≤ 1 / 2)
    (h : homSq n2 n1 n0 (hP f0 fr) (hR f0 fr) * homSq d2' d1' d0' (hP f0' fr) (hR f0' fr) <
      homSq n2' n1' n0' (hP f0' fr) (hR f0' fr) * homSq d2 d1 d0 (hP f0 fr) (hR f0 fr)) : RBJLouder d d' fr := by
  have p := den_pos h0 h1 hd2 hd1 hd0 a c
  have p' := den_pos h0' h1' hd2' hd1' hd0' a c
  have nn : 0 ≤ homSq n2 n1 n0 (hP f0 fr) (hR f0 fr) := by
    have := mul_nonneg (hP_nonneg f0 fr) (hR_nonneg f0 fr)
    unfold homSq
    rw [mul_assoc]; positivity
  refine ⟨_, _, fun f => ?_, fun f => ?_, Real.sqrt_lt_sqrt (div_nonneg nn p.le) ((div_lt_div_iff₀ p p').2 h)⟩
  · obtain ⟨f', e1, e2, e3⟩ := C66_rbj _ hv f
    rw [hQ] at e3
    exact ⟨f', e1, e2, quad_gain_eq h0 h1 hd2 hd1 hd0 a c e3⟩
  · obtain ⟨f', e1, e2, e3⟩ := C66_rbj _ hv' f
    rw [hQ'] at e3
    exact ⟨f', e1, e2, quad_gain_eq h0' h1' hd2' hd1' hd0' a c e3⟩

theorem inv_sq_lt (hq : 0 < q) (h : q < q') : (1 / q') ^ 2 < (1 / q) ^ 2 :=
  pow_lt_pow_left₀ (one_div_lt_one_div_of_lt hq h) (by have := hq.trans h; positivity) (by norm_num)

/-- **C97**, RBJ: more Q gives more gain everywhere between 0 and half the sampling rate: low pass, high pass and the
band pass of constant skirt gain; -/
theorem C97_rbj_q (h0 : 0 < f0) (h1 : f0 < 1 / 2) (hq : 0 < q) (h : q < q') (a : 0 < fr) (c : fr < 1 / 2) :
    RBJLouder (.lowPass f0 q) (.lowPass f0 q') fr ∧ RBJLouder (.highPass f0 q) (.highPass f0 q') fr ∧
    RBJLouder (.bandPass1 f0 q) (.bandPass1 f0 q') fr := by
  have hq' := hq.trans h
  have i : 0 < 1 / q := by positivity
  have i' : 0 < 1 / q' := by positivity
  have l := inv_sq_lt hq h
  have P := hP_pos h0 h1 a c.le
  have R := hR_pos h0 h1 a.le c
  have X := mul_lt_mul_of_pos_right l (mul_pos P R)
  refine ⟨rbj_louder ⟨h0, h1, hq⟩ ⟨h0, h1, hq'⟩ rfl rfl h0 h1 h0 h1 one_pos i one_pos one_pos i' one_pos a.le c.le ?_,
    rbj_louder ⟨h0, h1, hq⟩ ⟨h0, h1, hq'⟩ rfl rfl h0 h1 h0 h1 one_pos i one_pos one_pos i' one_pos a.le c.le ?_,
    rbj_louder ⟨h0, h1, hq⟩ ⟨h0, h1, hq'⟩ rfl rfl h0 h1 h0 h1 one_pos i one_pos one_pos i' one_pos a.le c.le ?_⟩
  · have := mul_lt_mul_of_pos_left X (pow_pos R 2)
    unfold homSq; nlinarith
  · have := mul_lt_mul_of_pos_left X (pow_pos P 2)
    unfold homSq; nlinarith
  · have := mul_lt_mul_of_pos_left X (mul_pos P R)
    unfold homSq; nlinarith

theorem h_ne (h0 : 0 < f0) (h1 : f0 < 1 / 2) (a : 0 ≤ fr) (c : fr ≤ 1 / 2) (hne : fr ≠ f0) : 0 < (hR f0 fr - hP f0 fr) ^ 2 := by
  rcases lt_or_gt_of_ne hne with k | k
  · have := h_below h0 h1 a k
    exact pow_pos (sub_pos.2 this) 2
  · have := h_above h0 h1 k c
    have : hR f0 fr - hP f0 fr ≠ 0 := (sub_neg.2 this).ne
    positivity

/-- the band pass of peak gain 1 gets narrower, and so does the band stop. -/
theorem C97_rbj_band_q (h0 : 0 < f0) (h1 : f0 < 1 / 2) (hq : 0 < q) (h : q < q') (a : 0 < fr) (c : fr < 1 / 2) (hne : fr ≠ f0) :
    RBJLouder (.bandPass2 f0 q') (.bandPass2 f0 q) fr ∧ RBJLouder (.bandStop f0 q) (.bandStop f0 q') fr := by
  have hq' := hq.trans h
  have i : 0 < 1 / q := by positivity
  have i' : 0 < 1 / q' := by positivity
  have l := inv_sq_lt hq h
  have P := hP_pos h0 h1 a c.le
  have R := hR_pos h0 h1 a.le c
  have X := mul_lt_mul_of_pos_right l (mul_pos P R)
  have Y := mul_lt_mul_of_pos_left X (h_ne h0 h1 a.le c.le hne)
  refine ⟨rbj_louder ⟨h0, h1, hq'⟩ ⟨h0, h1, hq⟩ rfl rfl h0 h1 h0 h1 one_pos i' one_pos one_pos i one_pos a.le c.le ?_,
    rbj_louder ⟨h0, h1, hq⟩ ⟨h0, h1, hq'⟩ rfl rfl h0 h1 h0 h1 one_pos i one_pos one_pos i' one_pos a.le c.le ?_⟩
  · unfold homSq; nlinarith
  · unfold homSq; nlinarith

theorem cut_form {x y : ℝ} (hq : 0 < q) (h2 : 2 * q ^ 2 ≤ 1) (hx : 0 ≤ x) (h : x < y) :
    (1 - x) ^ 2 + (1 / q) ^ 2 * x < (1 - y) ^ 2 + (1 / q) ^ 2 * y := by
  have : 2 ≤ (1 / q) ^ 2 := by
    rw [div_pow, one_pow, le_div_iff₀ (by positivity)]; exact h2
  nlinarith

/-- **C97**, RBJ low and high pass without resonance: a higher cutoff gives more and less gain. -/
theorem C97_rbj_cutoff (h0 : 0 < fc) (hc : fc < fc') (h1 : fc' < 1 / 2) (hq : 0 < q) (h2 : 2 * q ^ 2 ≤ 1) (a : 0 < fr) (b : fr < 1 / 2) :
    RBJLouder (.lowPass fc q) (.lowPass fc' q) fr ∧ RBJLouder (.highPass fc' q) (.highPass fc q) fr := by
  have i : 0 < 1 / q := by positivity
  have h0' := h0.trans hc
  have h1' := hc.trans h1
  have r := hR_pos h0 h1' a.le b
  have r' := hR_pos h0' h1 a.le b
  have p := hP_pos h0 h1' a b.le
  have p' := hP_pos h0' h1 a b.le
  have e := hP_ratio h0 h1' a.le b
  have e' := hP_ratio h0' h1 a.le b
  have l := pow_lt_pow_left₀ (lowRatio_cut h0 hc h1 a b) (lowRatio_nonneg h0' h1 a.le b) (show 2 ≠ 0 by norm_num)
  have t := lowRatio_pos h0 h1' a b
  have t' := lowRatio_pos h0' h1 a b
  refine ⟨rbj_louder ⟨h0, h1', hq⟩ ⟨h0', h1, hq⟩ rfl rfl h0 h1' h0' h1 one_pos i one_pos one_pos i one_pos a.le b.le ?_,
    rbj_louder ⟨h0', h1, hq⟩ ⟨h0, h1', hq⟩ rfl rfl h0' h1 h0 h1' one_pos i one_pos one_pos i one_pos a.le b.le ?_⟩
  · have k := mul_lt_mul_of_pos_left (cut_form hq h2 (sq_nonneg _) l) (mul_pos (pow_pos r 2) (pow_pos r' 2))
    unfold homSq
    rw [e, e']
    nlinarith
  · have l' : (lowRatio fc fr ^ 2)⁻¹ < (lowRatio fc' fr ^ 2)⁻¹ := by
      rw [inv_lt_inv₀ (by positivity) (by positivity)]; exact l
    have e2 : hR fc fr = (lowRatio fc fr ^ 2)⁻¹ * hP fc fr := by rw [e]; field_simp
    have e2' : hR fc' fr = (lowRatio fc' fr ^ 2)⁻¹ * hP fc' fr := by rw [e']; field_simp
    have k := mul_lt_mul_of_pos_left (cut_form hq h2 (by positivity) l') (mul_pos (pow_pos p 2) (pow_pos p' 2))
    unfold homSq
    rw [e2, e2']
    nlinarith

/-- **C97**, RBJ band shelf: more decibels give more gain at every frequency between 0 and half the sampling rate. -/
theorem C97_rbj_bandshelf (h0 : 0 < f0) (h1 : f0 < 1 / 2) (hw : 0 < w) (hg : g < g') (a : 0 < fr) (c : fr < 1 / 2) :
    RBJLouder (.bandShelf f0 g w) (.bandShelf f0 g' w) fr := by
  have hA := ofDb_pos (g / 2)
  have hA' := ofDb_pos (g' / 2)
  have l := ofDb_lt (show g / 2 < g' / 2 by linarith)
  have P := hP_pos h0 h1 a c.le
  have R := hR_pos h0 h1 a.le c
  have hi : 0 < invQ f0 w := by
    have := (trig_facts h0 h1).1
    have := Real.log_pos one_lt_two
    have := Real.pi_pos
    unfold invQ
    have : 0 < Real.sinh (Real.log 2 / 2 * w * (2 * Real.pi * f0) / Real.sin (2 * Real.pi * f0)) := Real.sinh_pos_iff.2 (by positivity)
    linarith
  refine rbj_louder ⟨h0, h1, hw⟩ ⟨h0, h1, hw⟩ rfl rfl h0 h1 h0 h1 one_pos (by positivity) one_pos one_pos (by positivity) one_pos a.le c.le ?_
  generalize ofDb (g / 2) = A at *
  generalize ofDb (g' / 2) = B at *
  generalize invQ f0 w = k at *
  have y := sq_nonneg (hR f0 fr - hP f0 fr)
  have m : 0 < k ^ 2 * (hP f0 fr * hR f0 fr) := by positivity
  have l1 : (A * k) ^ 2 * (hP f0 fr * hR f0 fr) < (B * k) ^ 2 * (hP f0 fr * hR f0 fr) :=
    mul_lt_mul_of_pos_right (pow_lt_pow_left₀ (mul_lt_mul_of_pos_right l hi) (by positivity) (by norm_num)) (mul_pos P R)
  have l2 : (k / B) ^ 2 * (hP f0 fr * hR f0 fr) < (k / A) ^ 2 * (hP f0 fr * hR f0 fr) :=
    mul_lt_mul_of_pos_right (pow_lt_pow_left₀ (div_lt_div_of_pos_left hi hA l) (by positivity) (by norm_num)) (mul_pos P R)
  have z1 : 0 < (k / B) ^ 2 * (hP f0 fr * hR f0 fr) := by positivity
  have z2 : 0 < (A * k) ^ 2 * (hP f0 fr * hR f0 fr) := by positivity
  have e : ∀ u, homSq 1 u 1 (hP f0 fr) (hR f0 fr) = (hR f0 fr - hP f0 fr) ^ 2 + u ^ 2 * (hP f0 fr * hR f0 fr) := fun u => by
    unfold homSq; ring
  rw [e, e, e, e]
  exact mul_lt_mul'' (by linarith) (by linarith) (by linarith) (by linarith)

/-- `|H|² D² = A² N²` of the RBJ shelves, without the slope's square root. -/
theorem shelf_form {A s : ℝ} (hA : 0 < A) (hs : 0 < s) (hs1 : s ≤ 1) :
    (√A * √((A + 1 / A) * (1 / s - 1) + 2)) ^ 2 = (A ^ 2 + 1) * (1 / s - 1) + 2 * A := by
  have h1 : 0 ≤ 1 / s - 1 := by rw [sub_nonneg, le_div_iff₀ hs]; linarith
  have h2 : 0 ≤ (A + 1 / A) * (1 / s - 1) + 2 := by positivity
  rw [mul_pow, Real.sq_sqrt hA.le, Real.sq_sqrt h2]
  generalize 1 / s - 1 = t
  field_simp

theorem shelf_lt {A B κ P R : ℝ} (hA : 0 < A) (hAB : A < B) (hκ : 0 ≤ κ) (hP : 0 < P) (hR : 0 < R) :
    A * (A * (R ^ 2 + κ * P * R) + (P ^ 2 + κ * P * R)) * ((R ^ 2 + κ * P * R) + B * (P ^ 2 + κ * P * R)) <
      B * (B * (R ^ 2 + κ * P * R) + (P ^ 2 + κ * P * R)) * ((R ^ 2 + κ * P * R) + A * (P ^ 2 + κ * P * R)) := by
  have hm : 0 < R ^ 2 + κ * P * R := by positivity
  have he : 0 < P ^ 2 + κ * P * R := by positivity
  generalize R ^ 2 + κ * P * R = m at *
  generalize P ^ 2 + κ * P * R = e at *
  have hB := hA.trans hAB
  have : 0 < (B - A) * ((A + B) * m ^ 2 + A * B * m * e + m * e) := mul_pos (sub_pos.2 hAB) (by positivity)
  nlinarith

/-- **C97**, RBJ low and high shelf: more decibels give more gain at every frequency between 0 and half the sampling rate. -/
theorem C97_rbj_shelf {s : ℝ} (h0 : 0 < f0) (h1 : f0 < 1 / 2) (hs : 0 < s) (hs1 : s ≤ 1) (hg : g < g') (a : 0 < fr) (c : fr < 1 / 2) :
    RBJLouder (.lowShelf f0 g s) (.lowShelf f0 g' s) fr ∧ RBJLouder (.highShelf f0 g s) (.highShelf f0 g' s) fr := by
  have hA := ofDb_pos (g / 2)
  have hB := ofDb_pos (g' / 2)
  have l := ofDb_lt (show g / 2 < g' / 2 by linarith)
  have P := hP_pos h0 h1 a c.le
  have R := hR_pos h0 h1 a.le c
  have hκ : 0 ≤ 1 / s - 1 := by rw [sub_nonneg, le_div_iff₀ hs]; linarith
  have cA := (shelf_c hA hs hs1).1
  have cB := (shelf_c hB hs hs1).1
  have sA := shelf_form hA hs hs1
  have sB := shelf_form hB hs hs1
  refine ⟨rbj_louder ⟨h0, h1, hs, hs1⟩ ⟨h0, h1, hs, hs1⟩ rfl rfl h0 h1 h0 h1 hA cA one_pos hB cB one_pos a.le c.le ?_,
    rbj_louder ⟨h0, h1, hs, hs1⟩ ⟨h0, h1, hs, hs1⟩ rfl rfl h0 h1 h0 h1 one_pos cA hA one_pos cB hB a.le c.le ?_⟩
  all_goals
    generalize ofDb (g / 2) = A at *
    generalize ofDb (g' / 2) = B at *
    generalize √A * √((A + 1 / A) * (1 / s - 1) + 2) = u at *
    generalize √B * √((B + 1 / B) * (1 / s - 1) + 2) = v at *
    generalize 1 / s - 1 = κ at *
    generalize hP f0 fr = x at *
    generalize hR f0 fr = y at *
    have l2 := pow_lt_pow_left₀ l hA.le (show 2 ≠ 0 by norm_num)
  · have k := shelf_lt (pow_pos hA 2) l2 hκ P R
    have e : ∀ A u : ℝ, u ^ 2 = (A ^ 2 + 1) * κ + 2 * A → homSq A (A * u) (A * A) x y =
        A ^ 2 * (A ^ 2 * (y ^ 2 + κ * x * y) + (x ^ 2 + κ * x * y)) ∧
        homSq A u 1 x y = (y ^ 2 + κ * x * y) + A ^ 2 * (x ^ 2 + κ * x * y) := fun A u hu => by
      unfold homSq
      rw [mul_pow, hu]
      exact ⟨by ring, by ring⟩
    rw [(e A u sA).1, (e A u sA).2, (e B v sB).1, (e B v sB).2]
    exact k
  · have k := shelf_lt (pow_pos hA 2) l2 hκ R P
    have e : ∀ A u : ℝ, u ^ 2 = (A ^ 2 + 1) * κ + 2 * A → homSq (A * A) (A * u) A x y =
        A ^ 2 * (A ^ 2 * (x ^ 2 + κ * y * x) + (y ^ 2 + κ * y * x)) ∧
        homSq 1 u A x y = (x ^ 2 + κ * y * x) + A ^ 2 * (y ^ 2 + κ * y * x) := fun A u hu => by
      unfold homSq
      rw [mul_pow, hu]
      exact ⟨by ring, by ring⟩
    rw [(e A u sA).1, (e A u sA).2, (e B v sB).1, (e B v sB).2]
    exact k

/-- cases -/
example : RBJLouder (.lowPass (1 / 8) 1) (.lowPass (1 / 8) 5) (1 / 10) ∧ RBJLouder (.bandStop (1 / 8) 1) (.bandStop (1 / 8) 5) (1 / 10) ∧
    RBJLouder (.lowPass (1 / 8) (1 / 2)) (.lowPass (1 / 4) (1 / 2)) (1 / 3) ∧ RBJLouder (.lowShelf (1 / 8) (-6) 1) (.lowShelf (1 / 8) 6 1) (1 / 3) ∧
    RBJLouder (.bandShelf (1 / 8) 3 1) (.bandShelf (1 / 8) 6 1) (1 / 3) :=
  ⟨(C97_rbj_q (by norm_num) (by norm_num) (by norm_num) (by norm_num) (by norm_num) (by norm_num)).1,
    (C97_rbj_band_q (by norm_num) (by norm_num) (by norm_num) (by norm_num) (by norm_num) (by norm_num) (by norm_num)).2,
    (C97_rbj_cutoff (by norm_num) (by norm_num) (by norm_num) (by norm_num) (by norm_num) (by norm_num) (by norm_num)).1,
    (C97_rbj_shelf (by norm_num) (by norm_num) (by norm_num) (by norm_num) (by norm_num) (by norm_num) (by norm_num)).1,
    C97_rbj_bandshelf (by norm_num) (by norm_num) (by norm_num) (by norm_num) (by norm_num) (by norm_num)⟩

end Iir
