import Verif.Spec.Designs
import Mathlib.Analysis.SpecialFunctions.Trigonometric.Chebyshev.RootsExtrema
import Mathlib.Tactic.FieldSimp
import Mathlib.Tactic.Linarith

/-! # Facts about the textbook frequency responses -/

namespace Iir
open Spec

/-! ## Low and high pass -/

theorem tanpi_pos {f : ℝ} (h0 : 0 < f) (h1 : f < 1 / 2) : 0 < Real.tan (Real.pi * f) :=
  Real.tan_pos_of_pos_of_lt_pi_div_two (by have := Real.pi_pos; positivity) (by nlinarith [Real.pi_pos])

theorem tanpi_lt {f f' : ℝ} (h0 : 0 ≤ f) (h : f < f') (h1 : f' < 1 / 2) :
    Real.tan (Real.pi * f) < Real.tan (Real.pi * f') := by
  have := Real.pi_pos
  exact Real.tan_lt_tan_of_nonneg_of_lt_pi_div_two (by positivity) (by nlinarith) (by nlinarith)

theorem lowRatio_zero (fc : ℝ) : lowRatio fc 0 = 0 := by simp [lowRatio]

theorem lowRatio_self {fc : ℝ} (h0 : 0 < fc) (h1 : fc < 1 / 2) : lowRatio fc fc = 1 :=
  div_self (tanpi_pos h0 h1).ne'

theorem highRatio_self {fc : ℝ} (h0 : 0 < fc) (h1 : fc < 1 / 2) : highRatio fc fc = 1 :=
  div_self (tanpi_pos h0 h1).ne'

theorem highRatio_eq_inv (fc f : ℝ) : highRatio fc f = (lowRatio fc f)⁻¹ := by
  simp only [highRatio, lowRatio, inv_div]

theorem lowRatio_nonneg {fc f : ℝ} (h0 : 0 < fc) (h1 : fc < 1 / 2) (hf0 : 0 ≤ f) (hf1 : f < 1 / 2) :
    0 ≤ lowRatio fc f := by
  rcases hf0.eq_or_lt with rfl | h
  · rw [lowRatio_zero]
  · exact div_nonneg (tanpi_pos h hf1).le (tanpi_pos h0 h1).le

theorem lowRatio_pos {fc f : ℝ} (h0 : 0 < fc) (h1 : fc < 1 / 2) (hf0 : 0 < f) (hf1 : f < 1 / 2) :
    0 < lowRatio fc f := div_pos (tanpi_pos hf0 hf1) (tanpi_pos h0 h1)

theorem lowRatio_lt {fc f f' : ℝ} (h0 : 0 < fc) (h1 : fc < 1 / 2) (hf0 : 0 ≤ f) (hff : f < f') (hf1 : f' < 1 / 2) :
    lowRatio fc f < lowRatio fc f' :=
  (div_lt_div_iff_of_pos_right (tanpi_pos h0 h1)).2 (tanpi_lt hf0 hff hf1)

theorem highRatio_pos {fc f : ℝ} (h0 : 0 < fc) (h1 : fc < 1 / 2) (hf0 : 0 < f) (hf1 : f < 1 / 2) :
    0 < highRatio fc f := div_pos (tanpi_pos h0 h1) (tanpi_pos hf0 hf1)

theorem highRatio_lt {fc f f' : ℝ} (h0 : 0 < fc) (h1 : fc < 1 / 2) (hf0 : 0 < f) (hff : f < f') (hf1 : f' < 1 / 2) :
    highRatio fc f' < highRatio fc f := by
  rw [highRatio_eq_inv, highRatio_eq_inv]
  exact inv_strictAnti₀ (lowRatio_pos h0 h1 hf0 (by linarith)) (lowRatio_lt h0 h1 hf0.le hff hf1)

/-! ## Bands -/

/-- A band inside `(0, 1/2)`. -/
structure Band (f1 f2 : ℝ) : Prop where
  pos : 0 < f1
  lt : f1 < f2
  half : f2 < 1 / 2

variable {f1 f2 : ℝ}

theorem Band.sin_pos (h : Band f1 f2) : 0 < Real.sin (Real.pi * (f2 - f1)) := by
  have := Real.pi_pos
  have h1 := h.pos
  have h2 := h.lt
  have h3 := h.half
  exact Real.sin_pos_of_pos_of_lt_pi (mul_pos this (by linarith)) (by nlinarith)

theorem Band.cos_lt (h : Band f1 f2) : |Real.cos (Real.pi * (f1 + f2))| < Real.cos (Real.pi * (f2 - f1)) := by
  have hpi := Real.pi_pos
  have h1 := h.pos
  have h2 := h.lt
  have h3 := h.half
  rw [abs_lt]
  constructor
  · rw [← Real.cos_pi_sub]
    exact Real.cos_lt_cos_of_nonneg_of_le_pi (by nlinarith) (by nlinarith) (by nlinarith)
  · exact Real.cos_lt_cos_of_nonneg_of_le_pi (by nlinarith) (by nlinarith) (by nlinarith)

theorem sin_2pi_pos {f : ℝ} (h0 : 0 < f) (h1 : f < 1 / 2) : 0 < Real.sin (2 * Real.pi * f) := by
  have hpi := Real.pi_pos
  exact Real.sin_pos_of_pos_of_lt_pi (by positivity) (by nlinarith)

theorem Band.ratio_lo (h : Band f1 f2) : bandRatio f1 f2 f1 = -1 := by
  have hs := h.sin_pos
  have h1 := sin_2pi_pos h.pos (h.lt.trans h.half)
  rw [bandRatio, div_eq_iff (mul_pos hs h1).ne',
    show Real.pi * (f1 + f2) = Real.pi * (f2 - f1) + 2 * Real.pi * f1 by ring, Real.cos_add]
  ring

theorem Band.ratio_hi (h : Band f1 f2) : bandRatio f1 f2 f2 = 1 := by
  have hs := h.sin_pos
  have h1 := sin_2pi_pos (h.pos.trans h.lt) h.half
  rw [bandRatio, div_eq_iff (mul_pos hs h1).ne',
    show Real.pi * (f1 + f2) = 2 * Real.pi * f2 - Real.pi * (f2 - f1) by ring, Real.cos_sub]
  ring

/-- The prewarped frequency of a band pass increases. -/
theorem Band.ratio_lt (h : Band f1 f2) {f f' : ℝ} (h0 : 0 < f) (hff : f < f') (h1 : f' < 1 / 2) :
    bandRatio f1 f2 f < bandRatio f1 f2 f' := by
  have hpi := Real.pi_pos
  have hs := h.sin_pos
  have hc := h.cos_lt
  have e1 := sin_2pi_pos h0 (hff.trans h1)
  have e2 := sin_2pi_pos (h0.trans hff) h1
  rw [bandRatio, bandRatio, div_lt_div_iff₀ (mul_pos hs e1) (mul_pos hs e2), ← sub_pos]
  generalize Real.cos (Real.pi * (f1 + f2)) = m at *
  generalize Real.cos (Real.pi * (f2 - f1)) = c at *
  generalize Real.sin (Real.pi * (f2 - f1)) = s at *
  have hd : 0 < Real.sin (Real.pi * (f' - f)) := Real.sin_pos_of_pos_of_lt_pi (by nlinarith) (by nlinarith)
  have hm : |Real.cos (Real.pi * (f + f'))| < Real.cos (Real.pi * (f' - f)) := by
    rw [abs_lt]
    constructor
    · rw [← Real.cos_pi_sub]
      exact Real.cos_lt_cos_of_nonneg_of_le_pi (by nlinarith) (by nlinarith) (by nlinarith)
    · exact Real.cos_lt_cos_of_nonneg_of_le_pi (by nlinarith) (by nlinarith) (by nlinarith)
  have hkey : 0 < c * Real.cos (Real.pi * (f' - f)) - m * Real.cos (Real.pi * (f + f')) := by
    have : m * Real.cos (Real.pi * (f + f')) ≤ |m| * |Real.cos (Real.pi * (f + f'))| := by
      rw [← abs_mul]; exact le_abs_self _
    have : |m| * |Real.cos (Real.pi * (f + f'))| < c * Real.cos (Real.pi * (f' - f)) :=
      mul_lt_mul'' hc hm (abs_nonneg _) (abs_nonneg _)
    linarith
  have e : (m - c * Real.cos (2 * Real.pi * f')) * (s * Real.sin (2 * Real.pi * f)) -
      (m - c * Real.cos (2 * Real.pi * f)) * (s * Real.sin (2 * Real.pi * f')) =
      2 * s * Real.sin (Real.pi * (f' - f)) *
        (c * Real.cos (Real.pi * (f' - f)) - m * Real.cos (Real.pi * (f + f'))) := by
    have a1 : Real.sin (2 * Real.pi * f') - Real.sin (2 * Real.pi * f) =
        2 * Real.sin (Real.pi * (f' - f)) * Real.cos (Real.pi * (f + f')) := by
      rw [show 2 * Real.pi * f' = Real.pi * (f + f') + Real.pi * (f' - f) by ring,
        show 2 * Real.pi * f = Real.pi * (f + f') - Real.pi * (f' - f) by ring, Real.sin_add, Real.sin_sub]
      ring
    have a2 : Real.sin (2 * Real.pi * f') * Real.cos (2 * Real.pi * f) -
        Real.cos (2 * Real.pi * f') * Real.sin (2 * Real.pi * f) =
        2 * Real.sin (Real.pi * (f' - f)) * Real.cos (Real.pi * (f' - f)) := by
      rw [← Real.sin_sub, ← Real.sin_two_mul]; congr 1; ring
    linear_combination s * c * a2 - s * m * a1
  rw [e]
  positivity

theorem Band.abs_ratio_lt (h : Band f1 f2) {f : ℝ} (h0 : f1 < f) (h1 : f < f2) : |bandRatio f1 f2 f| < 1 := by
  rw [abs_lt, ← h.ratio_lo, ← h.ratio_hi]
  exact ⟨h.ratio_lt h.pos h0 (h1.trans h.half), h.ratio_lt (h.pos.trans h0) h1 h.half⟩

theorem Band.abs_ratio_le (h : Band f1 f2) {f : ℝ} (h0 : f1 ≤ f) (h1 : f ≤ f2) : |bandRatio f1 f2 f| ≤ 1 := by
  rcases h0.eq_or_lt with rfl | h0
  · rw [h.ratio_lo]; norm_num
  · rcases h1.eq_or_lt with rfl | h1
    · rw [h.ratio_hi]; norm_num
    · exact (h.abs_ratio_lt h0 h1).le

theorem Band.ratio_below (h : Band f1 f2) {f : ℝ} (h0 : 0 < f) (h1 : f < f1) : bandRatio f1 f2 f < -1 := by
  rw [← h.ratio_lo]
  exact h.ratio_lt h0 h1 (h.lt.trans h.half)

theorem Band.ratio_above (h : Band f1 f2) {f : ℝ} (h0 : f2 < f) (h1 : f < 1 / 2) : 1 < bandRatio f1 f2 f := by
  rw [← h.ratio_hi]
  exact h.ratio_lt (h.pos.trans h.lt) h0 h1

/-- The centre of the band, where the prewarped frequency is 0. -/
noncomputable def bandMid (f1 f2 : ℝ) : ℝ :=
  Real.arccos (Real.cos (Real.pi * (f1 + f2)) / Real.cos (Real.pi * (f2 - f1))) / (2 * Real.pi)

theorem Band.cos_mid (h : Band f1 f2) : Real.cos (2 * Real.pi * bandMid f1 f2) =
    Real.cos (Real.pi * (f1 + f2)) / Real.cos (Real.pi * (f2 - f1)) := by
  have hpi := Real.pi_pos
  have hc := h.cos_lt
  have hc0 : 0 < Real.cos (Real.pi * (f2 - f1)) := (abs_nonneg _).trans_lt hc
  have : |Real.cos (Real.pi * (f1 + f2)) / Real.cos (Real.pi * (f2 - f1))| < 1 := by
    rw [abs_div, abs_of_pos hc0, div_lt_one hc0]; exact hc
  rw [bandMid, mul_div_cancel₀ _ (by positivity), Real.cos_arccos (abs_lt.1 this).1.le (abs_lt.1 this).2.le]

theorem Band.ratio_mid (h : Band f1 f2) : bandRatio f1 f2 (bandMid f1 f2) = 0 := by
  have hc0 : 0 < Real.cos (Real.pi * (f2 - f1)) := (abs_nonneg _).trans_lt h.cos_lt
  rw [bandRatio, h.cos_mid, mul_div_cancel₀ _ hc0.ne', sub_self, zero_div]

theorem Band.mid_mem (h : Band f1 f2) : 0 < bandMid f1 f2 ∧ bandMid f1 f2 < 1 / 2 := by
  have hpi := Real.pi_pos
  have hc := h.cos_lt
  have hc0 : 0 < Real.cos (Real.pi * (f2 - f1)) := (abs_nonneg _).trans_lt hc
  have h1 : |Real.cos (Real.pi * (f1 + f2)) / Real.cos (Real.pi * (f2 - f1))| < 1 := by
    rw [abs_div, abs_of_pos hc0, div_lt_one hc0]; exact hc
  have h2 := Real.arccos_pos.2 (abs_lt.1 h1).2
  have h3 : Real.arccos (Real.cos (Real.pi * (f1 + f2)) / Real.cos (Real.pi * (f2 - f1))) < Real.pi := by
    refine lt_of_le_of_ne (Real.arccos_le_pi _) fun h => ?_
    rw [Real.arccos_eq_pi] at h
    linarith [(abs_lt.1 h1).1]
  unfold bandMid
  constructor
  · positivity
  · rw [div_lt_iff₀ (by positivity)]; linarith

theorem Band.mid_between (h : Band f1 f2) : f1 < bandMid f1 f2 ∧ bandMid f1 f2 < f2 := by
  have hm := h.ratio_mid
  obtain ⟨m0, m1⟩ := h.mid_mem
  constructor
  · by_contra hle
    rcases (not_lt.1 hle).eq_or_lt with h1 | h1
    · rw [h1, h.ratio_lo] at hm; norm_num at hm
    · have := h.ratio_below m0 h1
      linarith
  · by_contra hle
    rcases (not_lt.1 hle).eq_or_lt with h1 | h1
    · rw [← h1, h.ratio_hi] at hm; norm_num at hm
    · have := h.ratio_above h1 m1
      linarith

/-- The absolute prewarped frequency falls up to the centre and rises from there. -/
theorem Band.abs_ratio_mono (h : Band f1 f2) :
    (∀ f f', 0 < f → f < f' → f' ≤ bandMid f1 f2 → |bandRatio f1 f2 f'| < |bandRatio f1 f2 f|) ∧
    (∀ f f', bandMid f1 f2 ≤ f → f < f' → f' < 1 / 2 → |bandRatio f1 f2 f| < |bandRatio f1 f2 f'|) := by
  have hm := h.mid_mem
  have h0 := h.ratio_mid
  refine ⟨fun f f' a b c => ?_, fun f f' a b c => ?_⟩
  · have h2 := h.ratio_lt a b (c.trans_lt hm.2)
    have h3 : bandRatio f1 f2 f' ≤ 0 := by
      rcases c.eq_or_lt with rfl | c
      · exact h0.le
      · rw [← h0]; exact (h.ratio_lt (a.trans b) c hm.2).le
    rw [abs_of_nonpos h3, abs_of_neg (h2.trans_le h3)]; linarith
  · have h2 := h.ratio_lt (hm.1.trans_le a) b c
    have h3 : 0 ≤ bandRatio f1 f2 f := by
      rcases a.eq_or_lt with rfl | a
      · exact h0.ge
      · rw [← h0]; exact (h.ratio_lt hm.1 a (b.trans c)).le
    rw [abs_of_nonneg h3, abs_of_pos (h3.trans_lt h2)]; linarith


theorem band_of {fc fw : ℝ} (h : bandLo fc fw < bandHi fc fw) : Band (bandLo fc fw) (bandHi fc fw) where
  pos := lt_of_lt_of_le (by have := Real.pi_pos; positivity) (le_max_right _ _)
  lt := h
  half := lt_of_le_of_lt (min_le_right _ _) (by
    have : 0 < 1e-8 / (2 * Real.pi) := by have := Real.pi_pos; positivity
    linarith)

/-! ## Chebyshev polynomials -/

/-- The edges of a band that keeps `1e-8` away from frequency 0 and half the sampling rate. -/
theorem bandLo_eq {fc fw : ℝ} (h : 1e-8 ≤ fc - fw / 2) : bandLo fc fw = fc - fw / 2 := by
  refine max_eq_left (le_trans ?_ h)
  have := Real.two_le_pi
  rw [div_le_iff₀ (by positivity)]; norm_num; linarith

theorem bandHi_eq {fc fw : ℝ} (h : fc + fw / 2 ≤ 1 / 2 - 1e-8) : bandHi fc fw = fc + fw / 2 := by
  refine min_eq_left (h.trans ?_)
  have := Real.two_le_pi
  have : (1e-8 : ℝ) / (2 * Real.pi) ≤ 1e-8 := by
    rw [div_le_iff₀ (by positivity)]; norm_num; linarith
  linarith

theorem chebT_sq_le {n : ℕ} {x : ℝ} (h : |x| ≤ 1) : chebT n x ^ 2 ≤ 1 := by
  rw [← sq_abs, sq_le_one_iff₀ (abs_nonneg _)]
  exact Polynomial.Chebyshev.abs_eval_T_real_le_one _ h

theorem chebT_sq_gt {n : ℕ} (hn : 1 ≤ n) {x : ℝ} (h : 1 < |x|) : 1 < chebT n x ^ 2 := by
  rw [← sq_abs, one_lt_sq_iff₀ (abs_nonneg _)]
  exact Polynomial.Chebyshev.one_lt_abs_eval_T_real (by omega) h

theorem chebT_one_sq {n : ℕ} {x : ℝ} (h : |x| = 1) : chebT n x ^ 2 = 1 := by
  rcases eq_or_eq_neg_of_abs_eq h with rfl | rfl
  · rw [chebT, Polynomial.Chebyshev.T_eval_one]; norm_num
  · rw [chebT, Polynomial.Chebyshev.T_eval_neg_one]
    rcases Int.even_or_odd n with h | h
    · simp [Int.negOnePow_even _ h]
    · simp [Int.negOnePow_odd _ h]

/-- `T_n ^ 2` increases beyond 1. -/
theorem chebT_sq_lt {n : ℕ} (hn : 1 ≤ n) {x y : ℝ} (h1 : 1 ≤ x) (h : x < y) : chebT n x ^ 2 < chebT n y ^ 2 := by
  have hn0 : (0 : ℝ) < n := by positivity
  have hx := Polynomial.Chebyshev.one_le_eval_T_real n h1
  have hlt : chebT n x < chebT n y := by
    rw [chebT, chebT, ← Real.cosh_arcosh h1, ← Real.cosh_arcosh (h1.trans h.le), Polynomial.Chebyshev.T_real_cosh,
      Polynomial.Chebyshev.T_real_cosh, Real.cosh_lt_cosh]
    have a := Real.arcosh_nonneg h1
    have b : Real.arcosh x < Real.arcosh y := by
      have : Real.cosh (Real.arcosh x) < Real.cosh (Real.arcosh y) := by
        rwa [Real.cosh_arcosh h1, Real.cosh_arcosh (h1.trans h.le)]
      rw [Real.cosh_lt_cosh, abs_of_nonneg a, abs_of_nonneg (Real.arcosh_nonneg (h1.trans h.le))] at this
      exact this
    rw [abs_of_nonneg (by push_cast; positivity), abs_of_nonneg (by push_cast; have := a.trans b.le; positivity)]
    push_cast
    exact (mul_lt_mul_iff_right₀ hn0).2 b
  exact pow_lt_pow_left₀ hlt (by linarith) (by norm_num)

theorem ofDb_sq (x : ℝ) : ofDb x ^ 2 = (10 : ℝ) ^ (x / 10) := by
  rw [ofDb, ← Real.rpow_natCast, ← Real.rpow_mul (by norm_num)]
  congr 1; push_cast; ring

theorem ofDb_pos (x : ℝ) : 0 < ofDb x := by unfold ofDb; positivity

end Iir
