import Verif.Spec.Course
import Verif.Props.Transfer
import Verif.Props.Peaks
import Verif.Props.Chebyshev

/-! # C94: where the gain rises and where it falls -/

set_option linter.unusedSectionVars false

namespace Iir
open Spec XR

/-! ## Second order prototypes -/

/-- `|n2 s² + n1 s + n0|²` at `s = i √(P / R)`, times `R²`. -/
def homSq (n2 n1 n0 P R : ℝ) : ℝ := (n0 * R - n2 * P) ^ 2 + n1 ^ 2 * P * R

/-- The frequency in homogeneous coordinates. -/
noncomputable def hP (f0 fr : ℝ) : ℝ := Real.sin (Real.pi * fr) ^ 2 * Real.cos (Real.pi * f0) ^ 2
noncomputable def hR (f0 fr : ℝ) : ℝ := Real.cos (Real.pi * fr) ^ 2 * Real.sin (Real.pi * f0) ^ 2

variable {f0 : ℝ}

theorem sinpi_pos {x : ℝ} (h0 : 0 < x) (h1 : x < 1) : 0 < Real.sin (Real.pi * x) :=
  Real.sin_pos_of_pos_of_lt_pi (by positivity) (by nlinarith [Real.pi_pos])

theorem cospi_pos {x : ℝ} (h0 : 0 ≤ x) (h1 : x < 1 / 2) : 0 < Real.cos (Real.pi * x) :=
  Real.cos_pos_of_mem_Ioo ⟨by nlinarith [Real.pi_pos], by nlinarith [Real.pi_pos]⟩

theorem hP_nonneg (f0 fr : ℝ) : 0 ≤ hP f0 fr := by unfold hP; positivity
theorem hR_nonneg (f0 fr : ℝ) : 0 ≤ hR f0 fr := by unfold hR; positivity

theorem hP_pos (h0 : 0 < f0) (h1 : f0 < 1 / 2) {fr : ℝ} (a : 0 < fr) (b : fr ≤ 1 / 2) : 0 < hP f0 fr := by
  have := sinpi_pos a (by linarith)
  have := cospi_pos h0.le h1
  unfold hP; positivity

theorem hR_pos (h0 : 0 < f0) (h1 : f0 < 1 / 2) {fr : ℝ} (a : 0 ≤ fr) (b : fr < 1 / 2) : 0 < hR f0 fr := by
  have := sinpi_pos h0 (by linarith)
  have := cospi_pos a b
  unfold hR; positivity

theorem h_cross (h0 : 0 < f0) (h1 : f0 < 1 / 2) {fr fr' : ℝ} (a : 0 ≤ fr) (b : fr < fr') (c : fr' ≤ 1 / 2) :
    hP f0 fr * hR f0 fr' < hP f0 fr' * hR f0 fr := by
  have e1 : Real.sin (Real.pi * (fr' - fr)) = Real.sin (Real.pi * fr') * Real.cos (Real.pi * fr) - Real.cos (Real.pi * fr') * Real.sin (Real.pi * fr) := by
    rw [mul_sub, Real.sin_sub]
  have e2 : Real.sin (Real.pi * (fr' + fr)) = Real.sin (Real.pi * fr') * Real.cos (Real.pi * fr) + Real.cos (Real.pi * fr') * Real.sin (Real.pi * fr) := by
    rw [mul_add, Real.sin_add]
  have p1 := sinpi_pos (x := fr' - fr) (by linarith) (by linarith)
  have p2 := sinpi_pos (x := fr' + fr) (by linarith) (by linarith)
  have p3 := sinpi_pos h0 (by linarith)
  have p4 := cospi_pos h0.le h1
  have : hP f0 fr' * hR f0 fr - hP f0 fr * hR f0 fr' = Real.sin (Real.pi * (fr' - fr)) * Real.sin (Real.pi * (fr' + fr)) *
      (Real.sin (Real.pi * f0) * Real.cos (Real.pi * f0)) ^ 2 := by
    rw [e1, e2]; unfold hP hR; ring
  have : 0 < Real.sin (Real.pi * (fr' - fr)) * Real.sin (Real.pi * (fr' + fr)) *
      (Real.sin (Real.pi * f0) * Real.cos (Real.pi * f0)) ^ 2 := by positivity
  linarith

theorem h_self (f0 : ℝ) : hP f0 f0 = hR f0 f0 := by unfold hP hR; ring

theorem h_below (h0 : 0 < f0) (h1 : f0 < 1 / 2) {fr : ℝ} (a : 0 ≤ fr) (b : fr < f0) : hP f0 fr < hR f0 fr := by
  have := h_cross h0 h1 a b h1.le
  rw [h_self, mul_comm (hR f0 f0)] at this
  exact lt_of_mul_lt_mul_right this (hR_nonneg _ _)

theorem h_above (h0 : 0 < f0) (h1 : f0 < 1 / 2) {fr : ℝ} (a : f0 < fr) (b : fr ≤ 1 / 2) : hR f0 fr < hP f0 fr := by
  have := h_cross h0 h1 h0.le a b
  rw [h_self, mul_comm] at this
  exact lt_of_mul_lt_mul_right this (hR_nonneg _ _)

theorem homSq_pos {d2 d1 d0 P R : ℝ} (h2 : 0 < d2) (h1 : 0 < d1) (h0 : 0 < d0) (hP : 0 ≤ P) (hR : 0 ≤ R) (h : 0 < P ∨ 0 < R) :
    0 < homSq d2 d1 d0 P R := by
  unfold homSq
  rcases hP.eq_or_lt with rfl | hP
  · have : 0 < R := by rcases h with h | h; · exact absurd h (lt_irrefl _)
                       · exact h
    simp only [MulZeroClass.mul_zero, sub_zero, MulZeroClass.zero_mul, add_zero]
    positivity
  · rcases hR.eq_or_lt with rfl | hR
    · simp only [MulZeroClass.mul_zero, add_zero, zero_sub]
      have : 0 < d2 * P := by positivity
      nlinarith
    · have : 0 < d1 ^ 2 * P * R := by positivity
      nlinarith [sq_nonneg (d0 * R - d2 * P)]

theorem quad_norm (n2 n1 n0 t : ℝ) : ‖(n2 * (Complex.I * t) ^ 2 + n1 * (Complex.I * t) + n0 : ℂ)‖ ^ 2 = homSq n2 n1 n0 (t ^ 2) 1 := by
  have : (n2 * (Complex.I * t) ^ 2 + n1 * (Complex.I * t) + n0 : ℂ) = ((n0 - n2 * t ^ 2 : ℝ) : ℂ) + ((n1 * t : ℝ) : ℂ) * Complex.I := by
    push_cast
    linear_combination n2 * (t : ℂ) ^ 2 * Complex.I_sq
  rw [this, ← Complex.normSq_eq_norm_sq, Complex.normSq_add_mul_I]
  unfold homSq
  ring

theorem homSq_scale (n2 n1 n0 P R c : ℝ) : homSq n2 n1 n0 (c * P) (c * R) = c ^ 2 * homSq n2 n1 n0 P R := by
  unfold homSq; ring

variable {b : Biquad XR} {n2 n1 n0 d2 d1 d0 : ℝ}

theorem gain_sectionResponse {fr g : ℝ} {h : ℂ} (hs : SectionResponse b fr h) : Gain b fr g ↔ g = ‖h‖ := by
  constructor
  · rintro ⟨H, e, rfl⟩
    rw [hs] at e
    have : H = h := by
      simp only [Res.ok.injEq, ofC, Cx.mk.injEq, fin.injEq] at e
      exact Complex.ext e.1.symm e.2.symm
    rw [this]
  · rintro rfl
    exact ⟨h, hs, rfl⟩

theorem quad_gain (h0 : 0 < f0) (h1 : f0 < 1 / 2) (hd2 : 0 < d2) (hd1 : 0 < d1) (hd0 : 0 < d0)
    (hb : QuadResponse f0 n2 n1 n0 d2 d1 d0 b) {fr : ℝ} (a : 0 ≤ fr) (c : fr ≤ 1 / 2) :
    ∃ g, 0 ≤ g ∧ (∀ v, Gain b fr v ↔ v = g) ∧
      g ^ 2 * homSq d2 d1 d0 (hP f0 fr) (hR f0 fr) = homSq n2 n1 n0 (hP f0 fr) (hR f0 fr) := by
  rcases c.eq_or_lt with rfl | c
  · refine ⟨_, norm_nonneg _, fun v => gain_sectionResponse hb.2, ?_⟩
    have e : hR f0 (1 / 2) = 0 := by
      unfold hR
      rw [show Real.pi * (1 / 2) = Real.pi / 2 by ring, Real.cos_pi_div_two]; ring
    rw [e, ← Complex.ofReal_div, Complex.norm_real, Real.norm_eq_abs, sq_abs]
    unfold homSq
    field_simp
    ring
  · refine ⟨_, norm_nonneg _, fun v => gain_sectionResponse (hb.1 fr a c), ?_⟩
    have hR0 := hR_pos h0 h1 a c
    have hs := sinpi_pos h0 (by linarith)
    have hc := cospi_pos a c
    have hc0 := cospi_pos h0.le h1
    have ht : hP f0 fr = hR f0 fr * lowRatio f0 fr ^ 2 := by
      unfold hP hR lowRatio
      rw [Real.tan_eq_sin_div_cos, Real.tan_eq_sin_div_cos]
      field_simp
    have hD : homSq d2 d1 d0 (lowRatio f0 fr ^ 2) 1 ≠ 0 :=
      (homSq_pos hd2 hd1 hd0 (sq_nonneg _) zero_le_one (.inr one_pos)).ne'
    have e : ∀ x y z : ℝ, homSq x y z (hP f0 fr) (hR f0 fr) = hR f0 fr ^ 2 * homSq x y z (lowRatio f0 fr ^ 2) 1 := by
      intro x y z
      rw [← homSq_scale, ← ht, _root_.mul_one]
    rw [e, e, norm_div, div_pow, quad_norm, quad_norm]
    field_simp

/-- The sign of this form decides. -/
def crossForm (n2 n1 n0 d2 d1 d0 P R P' R' : ℝ) : ℝ :=
  (n2 ^ 2 * (d1 ^ 2 - 2 * d0 * d2) - (n1 ^ 2 - 2 * n0 * n2) * d2 ^ 2) * (P * P') +
  (n2 ^ 2 * d0 ^ 2 - n0 ^ 2 * d2 ^ 2) * (P * R' + P' * R) +
  ((n1 ^ 2 - 2 * n0 * n2) * d0 ^ 2 - n0 ^ 2 * (d1 ^ 2 - 2 * d0 * d2)) * (R * R')

theorem cross_eq (P R P' R' : ℝ) : homSq n2 n1 n0 P R * homSq d2 d1 d0 P' R' - homSq n2 n1 n0 P' R' * homSq d2 d1 d0 P R =
    (P * R' - P' * R) * crossForm n2 n1 n0 d2 d1 d0 P R P' R' := by
  unfold homSq crossForm; ring

variable (h0 : 0 < f0) (h1 : f0 < 1 / 2) (hd2 : 0 < d2) (hd1 : 0 < d1) (hd0 : 0 < d0) (hb : QuadResponse f0 n2 n1 n0 d2 d1 d0 b)
include h0 h1 hd2 hd1 hd0 hb

theorem quad_rises {lo hi : ℝ} (hlo : 0 ≤ lo) (hhi : hi ≤ 1 / 2) (h : ∀ fr fr', lo ≤ fr → fr < fr' → fr' ≤ hi →
      0 < crossForm n2 n1 n0 d2 d1 d0 (hP f0 fr) (hR f0 fr) (hP f0 fr') (hR f0 fr')) : Rises (Gain b) lo hi := by
  refine ⟨fun fr a c => ?_, fun fr fr' v v' a c e hv hv' => ?_⟩
  · obtain ⟨g, -, hg, -⟩ := quad_gain h0 h1 hd2 hd1 hd0 hb (hlo.trans a) (c.trans hhi)
    exact ⟨g, (hg g).2 rfl⟩
  · have a0 := hlo.trans a
    have e1 := e.trans hhi
    obtain ⟨g, g0, hg, hgs⟩ := quad_gain h0 h1 hd2 hd1 hd0 hb a0 (c.le.trans e1)
    obtain ⟨g', g0', hg', hgs'⟩ := quad_gain h0 h1 hd2 hd1 hd0 hb (a0.trans c.le) e1
    rw [(hg v).1 hv, (hg' v').1 hv']
    have hQ := h fr fr' a c e
    have hX := h_cross h0 h1 a0 c e1
    have k := cross_eq (n2 := n2) (n1 := n1) (n0 := n0) (d2 := d2) (d1 := d1) (d0 := d0) (hP f0 fr) (hR f0 fr) (hP f0 fr') (hR f0 fr')
    have D := homSq_pos hd2 hd1 hd0 (hP_nonneg f0 fr) (hR_nonneg f0 fr) (.inr (hR_pos h0 h1 a0 (c.trans_le e1)))
    have D' := homSq_pos hd2 hd1 hd0 (hP_nonneg f0 fr') (hR_nonneg f0 fr') (.inl (hP_pos h0 h1 (a0.trans_lt c) e1))
    rw [← hgs, ← hgs'] at k
    have hlt := mul_pos (sub_pos.2 hX) hQ
    refine lt_of_pow_lt_pow_left₀ 2 g0' ?_
    by_contra hle
    have := mul_nonneg (sub_nonneg.2 (not_lt.1 hle)) (mul_pos D D').le
    linarith

theorem quad_falls {lo hi : ℝ} (hlo : 0 ≤ lo) (hhi : hi ≤ 1 / 2) (h : ∀ fr fr', lo ≤ fr → fr < fr' → fr' ≤ hi →
      crossForm n2 n1 n0 d2 d1 d0 (hP f0 fr) (hR f0 fr) (hP f0 fr') (hR f0 fr') < 0) : Falls (Gain b) lo hi := by
  refine ⟨fun fr a c => ?_, fun fr fr' v v' a c e hv hv' => ?_⟩
  · obtain ⟨g, -, hg, -⟩ := quad_gain h0 h1 hd2 hd1 hd0 hb (hlo.trans a) (c.trans hhi)
    exact ⟨g, (hg g).2 rfl⟩
  · have a0 := hlo.trans a
    have e1 := e.trans hhi
    obtain ⟨g, g0, hg, hgs⟩ := quad_gain h0 h1 hd2 hd1 hd0 hb a0 (c.le.trans e1)
    obtain ⟨g', g0', hg', hgs'⟩ := quad_gain h0 h1 hd2 hd1 hd0 hb (a0.trans c.le) e1
    rw [(hg v).1 hv, (hg' v').1 hv']
    have hQ := h fr fr' a c e
    have hX := h_cross h0 h1 a0 c e1
    have k := cross_eq (n2 := n2) (n1 := n1) (n0 := n0) (d2 := d2) (d1 := d1) (d0 := d0) (hP f0 fr) (hR f0 fr) (hP f0 fr') (hR f0 fr')
    have D := homSq_pos hd2 hd1 hd0 (hP_nonneg f0 fr) (hR_nonneg f0 fr) (.inr (hR_pos h0 h1 a0 (c.trans_le e1)))
    have D' := homSq_pos hd2 hd1 hd0 (hP_nonneg f0 fr') (hR_nonneg f0 fr') (.inl (hP_pos h0 h1 (a0.trans_lt c) e1))
    rw [← hgs, ← hgs'] at k
    have hlt := mul_pos (sub_pos.2 hX) (neg_pos.2 hQ)
    refine lt_of_pow_lt_pow_left₀ 2 g0 ?_
    by_contra hle
    have := mul_nonneg (sub_nonneg.2 (not_lt.1 hle)) (mul_pos D D').le
    linarith

theorem quad_level (hn : ∀ P R, homSq n2 n1 n0 P R = homSq d2 d1 d0 P R) : Level (Gain b) 0 (1 / 2) 1 := by
  intro fr a c v
  obtain ⟨g, g0, hg, hgs⟩ := quad_gain h0 h1 hd2 hd1 hd0 hb a c
  have D : 0 < homSq d2 d1 d0 (hP f0 fr) (hR f0 fr) := by
    refine homSq_pos hd2 hd1 hd0 (hP_nonneg f0 fr) (hR_nonneg f0 fr) ?_
    rcases a.eq_or_lt with rfl | a
    · exact .inr (hR_pos h0 h1 le_rfl (by norm_num))
    · exact .inl (hP_pos h0 h1 a c)
  have : g ^ 2 = 1 := by
    rw [hn] at hgs
    exact mul_right_cancel₀ D.ne' (by rw [hgs, _root_.one_mul])
  have : g = 1 := by nlinarith
  rw [hg, this]

omit hd2 hd1 hd0 hb

theorem hprod_below {fr fr' : ℝ} (a : 0 ≤ fr) (b : fr < fr') (c : fr' ≤ f0) :
    hP f0 fr * hP f0 fr' < hR f0 fr * hR f0 fr' := by
  have p := h_below h0 h1 a (b.trans_le c)
  have r' := hR_pos h0 h1 (a.trans b.le) (c.trans_lt h1)
  have p' : hP f0 fr' ≤ hR f0 fr' := by
    rcases c.eq_or_lt with rfl | c
    · exact (h_self _).le
    · exact (h_below h0 h1 (a.trans b.le) c).le
  have := hP_nonneg f0 fr
  nlinarith

theorem hprod_above {fr fr' : ℝ} (a : f0 ≤ fr) (b : fr < fr') (c : fr' ≤ 1 / 2) :
    hR f0 fr * hR f0 fr' < hP f0 fr * hP f0 fr' := by
  have p := h_above h0 h1 (a.trans_lt b) c
  have r' := hP_pos h0 h1 (h0.trans_le a) (b.le.trans c)
  have p' : hR f0 fr ≤ hP f0 fr := by
    rcases a.eq_or_lt with rfl | a
    · exact (h_self _).ge
    · exact (h_above h0 h1 a (b.le.trans c)).le
  have := hR_nonneg f0 fr'
  nlinarith

theorem lowRatio_surj {s : ℝ} (hs : 0 < s) : ∃ fr, 0 < fr ∧ fr < 1 / 2 ∧ lowRatio f0 fr = s := by
  have ht := tanpi_pos h0 h1
  have hp := Real.pi_pos
  refine ⟨Real.arctan (s * Real.tan (Real.pi * f0)) / Real.pi, ?_, ?_, ?_⟩
  · exact div_pos (Real.arctan_pos.2 (by positivity)) hp
  · rw [div_lt_iff₀ hp]
    linarith [Real.arctan_lt_pi_div_two (s * Real.tan (Real.pi * f0))]
  · rw [lowRatio, mul_div_cancel₀ _ hp.ne', Real.tan_arctan]
    field_simp

theorem hP_ratio {fr : ℝ} (a : 0 ≤ fr) (c : fr < 1 / 2) : hP f0 fr = lowRatio f0 fr ^ 2 * hR f0 fr := by
  have hs := sinpi_pos h0 (by linarith)
  have hc := cospi_pos a c
  have hc0 := cospi_pos h0.le h1
  unfold hP hR lowRatio
  rw [Real.tan_eq_sin_div_cos, Real.tan_eq_sin_div_cos]
  field_simp

/-- below and above a frequency with a given ratio -/
theorem h_le {fr m : ℝ} (a : 0 ≤ fr) {fm : ℝ} (b : fr ≤ fm) (c : fm < 1 / 2) (hm : lowRatio f0 fm ^ 2 = m) :
    hP f0 fr ≤ m * hR f0 fr ∧ (fr < fm → hP f0 fr < m * hR f0 fr) := by
  have key : fr < fm → hP f0 fr < m * hR f0 fr := fun b => by
    have x := h_cross h0 h1 a b c.le
    have r := hR_pos h0 h1 (a.trans b.le) c
    rw [hP_ratio h0 h1 (a.trans b.le) c, hm] at x
    nlinarith
  refine ⟨?_, key⟩
  rcases b.eq_or_lt with rfl | b
  · rw [hP_ratio h0 h1 a c, hm]
  · exact (key b).le

theorem h_ge {fr m : ℝ} {fm : ℝ} (a : 0 ≤ fm) (b : fm ≤ fr) (c' : fm < 1 / 2) (c : fr ≤ 1 / 2) (hm : lowRatio f0 fm ^ 2 = m) :
    m * hR f0 fr ≤ hP f0 fr ∧ (fm < fr → m * hR f0 fr < hP f0 fr) := by
  have key : fm < fr → m * hR f0 fr < hP f0 fr := fun b => by
    have x := h_cross h0 h1 a b c
    have r := hR_pos h0 h1 a c'
    rw [hP_ratio h0 h1 a c', hm] at x
    nlinarith
  refine ⟨?_, key⟩
  rcases b.eq_or_lt with rfl | b
  · rw [hP_ratio h0 h1 a c', hm]
  · exact (key b).le

omit h0 h1

theorem lowPass_course {q : ℝ} (h0 : 0 < f0) (h1 : f0 < 1 / 2) (hq : 0 < q) (hb : QuadResponse f0 0 0 1 1 (1 / q) 1 b) :
    RBJCourse (Gain b) (.lowPass f0 q) := by
  have hq' : 0 < 1 / q := by positivity
  have e : ∀ P R P' R', crossForm 0 0 1 1 (1 / q) 1 P R P' R' = -(P * R' + P' * R) - (1 / q ^ 2 - 2) * (R * R') := by
    intro P R P' R'; unfold crossForm; field_simp; ring
  refine ⟨fun h => ?_, fun h => ?_⟩
  · refine quad_falls h0 h1 one_pos hq' one_pos hb le_rfl le_rfl fun fr fr' a c d => ?_
    rw [e]
    have x := h_cross h0 h1 a c d
    have r := mul_nonneg (hP_nonneg f0 fr) (hR_nonneg f0 fr')
    have r' := mul_nonneg (hR_nonneg f0 fr) (hR_nonneg f0 fr')
    have : 0 ≤ 1 / q ^ 2 - 2 := by
      rw [sub_nonneg, le_div_iff₀ (by positivity)]; linarith
    have := mul_nonneg this r'
    linarith
  · set m : ℝ := 1 - 1 / (2 * q ^ 2) with hm
    have m0 : 0 < m := by
      rw [hm, sub_pos, div_lt_one (by positivity)]; exact h
    have m1 : m < 1 := by
      rw [hm]; have : 0 < 1 / (2 * q ^ 2) := by positivity
      linarith
    have e' : 1 / q ^ 2 - 2 = -(2 * m) := by rw [hm]; field_simp; ring
    obtain ⟨fm, a0, a1, hr⟩ := lowRatio_surj h0 h1 (s := √m) (by positivity)
    have hr2 : lowRatio f0 fm ^ 2 = m := by rw [hr, Real.sq_sqrt m0.le]
    have hlt : fm < f0 := by
      by_contra hle
      have : 1 ≤ lowRatio f0 fm := by
        rcases (not_lt.1 hle).eq_or_lt with h | h
        · rw [← h, lowRatio_self h0 h1]
        · rw [← lowRatio_self h0 h1]; exact (lowRatio_lt h0 h1 h0.le h a1).le
      nlinarith
    refine ⟨fm, a0, hlt, hr, quad_rises h0 h1 one_pos hq' one_pos hb le_rfl a1.le fun fr fr' a c d => ?_,
      quad_falls h0 h1 one_pos hq' one_pos hb a0.le le_rfl fun fr fr' a c d => ?_⟩
    · rw [e, e']
      have k := (h_le h0 h1 a (c.le.trans d) a1 hr2).2 (c.trans_le d)
      have k' := (h_le h0 h1 (a.trans c.le) d a1 hr2).1
      have r := hR_nonneg f0 fr
      have r' := hR_pos h0 h1 (a.trans c.le) (d.trans_lt a1)
      nlinarith
    · rw [e, e']
      have k := (h_ge h0 h1 a0.le a a1 (c.le.trans d) hr2).1
      have k' := (h_ge h0 h1 a0.le (a.trans c.le) a1 d hr2).2 (a.trans_lt c)
      have r' := hR_nonneg f0 fr'
      have r := hR_pos h0 h1 (a0.le.trans a) (c.trans_le d)
      nlinarith

theorem highPass_course {q : ℝ} (h0 : 0 < f0) (h1 : f0 < 1 / 2) (hq : 0 < q) (hb : QuadResponse f0 1 0 0 1 (1 / q) 1 b) :
    RBJCourse (Gain b) (.highPass f0 q) := by
  have hq' : 0 < 1 / q := by positivity
  have e : ∀ P R P' R', crossForm 1 0 0 1 (1 / q) 1 P R P' R' = (P * R' + P' * R) + (1 / q ^ 2 - 2) * (P * P') := by
    intro P R P' R'; unfold crossForm; field_simp; ring
  refine ⟨fun h => ?_, fun h => ?_⟩
  · refine quad_rises h0 h1 one_pos hq' one_pos hb le_rfl le_rfl fun fr fr' a c d => ?_
    rw [e]
    have x := h_cross h0 h1 a c d
    have r := mul_nonneg (hP_nonneg f0 fr) (hR_nonneg f0 fr')
    have r' := mul_nonneg (hP_nonneg f0 fr) (hP_nonneg f0 fr')
    have : 0 ≤ 1 / q ^ 2 - 2 := by
      rw [sub_nonneg, le_div_iff₀ (by positivity)]; linarith
    have := mul_nonneg this r'
    linarith
  · set m : ℝ := 1 - 1 / (2 * q ^ 2) with hm
    have m0 : 0 < m := by
      rw [hm, sub_pos, div_lt_one (by positivity)]; exact h
    have m1 : m < 1 := by
      rw [hm]; have : 0 < 1 / (2 * q ^ 2) := by positivity
      linarith
    have e' : 1 / q ^ 2 - 2 = -(2 * m) := by rw [hm]; field_simp; ring
    obtain ⟨fm, a0, a1, hr⟩ := lowRatio_surj h0 h1 (s := (√m)⁻¹) (by positivity)
    have hr2 : lowRatio f0 fm ^ 2 = m⁻¹ := by rw [hr, inv_pow, Real.sq_sqrt m0.le]
    have hgt : f0 < fm := by
      by_contra hle
      have : lowRatio f0 fm ≤ 1 := by
        rcases (not_lt.1 hle).eq_or_lt with h | h
        · rw [h, lowRatio_self h0 h1]
        · rw [← lowRatio_self h0 h1]; exact (lowRatio_lt h0 h1 a0.le h h1).le
      have p := lowRatio_pos h0 h1 a0 a1
      have : lowRatio f0 fm ^ 2 ≤ 1 := by nlinarith
      rw [hr2] at this
      exact absurd ((one_lt_inv₀ m0).2 m1) (not_lt.2 this)
    have inv : ∀ x y : ℝ, x ≤ m⁻¹ * y ↔ m * x ≤ y := fun x y => by
      rw [inv_mul_eq_div, le_div_iff₀ m0, mul_comm]
    have inv' : ∀ x y : ℝ, x < m⁻¹ * y ↔ m * x < y := fun x y => by
      rw [inv_mul_eq_div, lt_div_iff₀ m0, mul_comm]
    have invg : ∀ x y : ℝ, m⁻¹ * y ≤ x ↔ y ≤ m * x := fun x y => by
      rw [inv_mul_eq_div, div_le_iff₀ m0, mul_comm]
    have invg' : ∀ x y : ℝ, m⁻¹ * y < x ↔ y < m * x := fun x y => by
      rw [inv_mul_eq_div, div_lt_iff₀ m0, mul_comm]
    refine ⟨fm, hgt, a1, by rw [highRatio_eq_inv, hr, inv_inv], quad_rises h0 h1 one_pos hq' one_pos hb le_rfl a1.le fun fr fr' a c d => ?_,
      quad_falls h0 h1 one_pos hq' one_pos hb a0.le le_rfl fun fr fr' a c d => ?_⟩
    · rw [e, e']
      have k := (inv' _ _).1 ((h_le h0 h1 a (c.le.trans d) a1 hr2).2 (c.trans_le d))
      have k' := (inv _ _).1 (h_le h0 h1 (a.trans c.le) d a1 hr2).1
      have r := hP_nonneg f0 fr
      have r' := hP_pos h0 h1 (a.trans_lt c) (d.trans a1.le)
      nlinarith
    · rw [e, e']
      have k := (invg _ _).1 (h_ge h0 h1 a0.le a a1 (c.le.trans d) hr2).1
      have k' := (invg' _ _).1 ((h_ge h0 h1 a0.le (a.trans c.le) a1 d hr2).2 (a.trans_lt c))
      have r' := hP_nonneg f0 fr'
      have r := hP_pos h0 h1 (a0.trans_le a) (c.le.trans d)
      nlinarith

theorem peaks_of {K : ℝ} (h0 : 0 < f0) (h1 : f0 < 1 / 2) (hd2 : 0 < d2) (hd1 : 0 < d1) (hd0 : 0 < d0)
    (hb : QuadResponse f0 n2 n1 n0 d2 d1 d0 b) (hK : 0 < K)
    (e : ∀ P R P' R', crossForm n2 n1 n0 d2 d1 d0 P R P' R' = K * (R * R' - P * P')) : Peaks (Gain b) f0 :=
  ⟨quad_rises h0 h1 hd2 hd1 hd0 hb le_rfl h1.le fun fr fr' a c d => by
      rw [e]; exact mul_pos hK (sub_pos.2 (hprod_below h0 h1 a c d)),
    quad_falls h0 h1 hd2 hd1 hd0 hb h0.le le_rfl fun fr fr' a c d => by
      rw [e]; exact mul_neg_of_pos_of_neg hK (sub_neg.2 (hprod_above h0 h1 a c d))⟩

theorem dips_of {K : ℝ} (h0 : 0 < f0) (h1 : f0 < 1 / 2) (hd2 : 0 < d2) (hd1 : 0 < d1) (hd0 : 0 < d0)
    (hb : QuadResponse f0 n2 n1 n0 d2 d1 d0 b) (hK : 0 < K)
    (e : ∀ P R P' R', crossForm n2 n1 n0 d2 d1 d0 P R P' R' = -(K * (R * R' - P * P'))) : Dips (Gain b) f0 :=
  ⟨quad_falls h0 h1 hd2 hd1 hd0 hb le_rfl h1.le fun fr fr' a c d => by
      rw [e]; exact neg_lt_zero.2 (mul_pos hK (sub_pos.2 (hprod_below h0 h1 a c d))),
    quad_rises h0 h1 hd2 hd1 hd0 hb h0.le le_rfl fun fr fr' a c d => by
      rw [e]; exact neg_pos.2 (mul_neg_of_pos_of_neg hK (sub_neg.2 (hprod_above h0 h1 a c d)))⟩

/-! ## Shelves -/

theorem ofDb_gt_one {g : ℝ} (h : 0 < g) : 1 < ofDb (g / 2) := by rw [← ofDb_zero]; exact ofDb_lt (by linarith)

theorem ofDb_lt_one {g : ℝ} (h : g < 0) : ofDb (g / 2) < 1 := by rw [← ofDb_zero]; exact ofDb_lt (by linarith)

theorem shelf_form_pos {f0 : ℝ} (h0 : 0 < f0) (h1 : f0 < 1 / 2) {κ A fr fr' : ℝ} (hκ : 0 ≤ κ) (a : 0 ≤ fr) (c : fr < fr') (d : fr' ≤ 1 / 2) :
    0 < κ * (hP f0 fr * hP f0 fr') + (1 + A ^ 2) * (hP f0 fr * hR f0 fr' + hP f0 fr' * hR f0 fr) + κ * (hR f0 fr * hR f0 fr') := by
  have x := h_cross h0 h1 a c d
  have r1 := mul_nonneg (hP_nonneg f0 fr) (hR_nonneg f0 fr')
  have r2 := mul_nonneg hκ (mul_nonneg (hP_nonneg f0 fr) (hP_nonneg f0 fr'))
  have r3 := mul_nonneg hκ (mul_nonneg (hR_nonneg f0 fr) (hR_nonneg f0 fr'))
  have r4 : 0 < (1 + A ^ 2) * (hP f0 fr * hR f0 fr' + hP f0 fr' * hR f0 fr) := mul_pos (by positivity) (by linarith)
  linarith

theorem shelf_c {A S : ℝ} (hA : 0 < A) (hS : 0 < S) (hS1 : S ≤ 1) :
    0 < √A * √((A + 1 / A) * (1 / S - 1) + 2) ∧ ∃ κ, 0 ≤ κ ∧ (√A * √((A + 1 / A) * (1 / S - 1) + 2)) ^ 2 = κ + 2 * A := by
  have h1 : 0 ≤ 1 / S - 1 := by rw [sub_nonneg, le_div_iff₀ hS]; linarith
  have h2 : 0 ≤ (A + 1 / A) * (1 / S - 1) := mul_nonneg (by positivity) h1
  have h3 : 0 < (A + 1 / A) * (1 / S - 1) + 2 := by linarith
  refine ⟨by positivity, A * ((A + 1 / A) * (1 / S - 1)), by positivity, ?_⟩
  rw [mul_pow, Real.sq_sqrt hA.le, Real.sq_sqrt h3.le]
  ring

theorem lowShelf_course {g S : ℝ} (h0 : 0 < f0) (h1 : f0 < 1 / 2) (hS : 0 < S) (hS1 : S ≤ 1) (hb : HasPrototype (.lowShelf f0 g S) b) :
    RBJCourse (Gain b) (.lowShelf f0 g S) := by
  have hA := ofDb_pos (g / 2)
  obtain ⟨hc, κ, hκ, hκe⟩ := shelf_c hA hS hS1
  have hb : QuadResponse f0 (ofDb (g / 2)) (ofDb (g / 2) * (√(ofDb (g / 2)) * √((ofDb (g / 2) + 1 / ofDb (g / 2)) * (1 / S - 1) + 2)))
    (ofDb (g / 2) * ofDb (g / 2)) (ofDb (g / 2)) (√(ofDb (g / 2)) * √((ofDb (g / 2) + 1 / ofDb (g / 2)) * (1 / S - 1) + 2)) 1 b := hb
  have k1 := @ofDb_gt_one g
  have k2 := @ofDb_lt_one g
  have k3 : g = 0 → ofDb (g / 2) = 1 := by rintro rfl; rw [zero_div, ofDb_zero]
  generalize √(ofDb (g / 2)) * √((ofDb (g / 2) + 1 / ofDb (g / 2)) * (1 / S - 1) + 2) = c at *
  generalize ofDb (g / 2) = A at *
  have e : ∀ P R P' R', crossForm A (A * c) (A * A) A c 1 P R P' R' =
      A ^ 2 * (1 - A ^ 2) * (κ * (P * P') + (1 + A ^ 2) * (P * R' + P' * R) + κ * (R * R')) := by
    intro P R P' R'
    unfold crossForm
    linear_combination (A ^ 2 * (1 - A ^ 2) * (P * P' + R * R')) * hκe
  refine ⟨fun h => ?_, fun h => ?_, fun h => ?_⟩
  · refine quad_falls h0 h1 hA hc one_pos hb le_rfl le_rfl fun fr fr' a c d => ?_
    rw [e]
    have : 0 < A ^ 2 * (A ^ 2 - 1) := mul_pos (by positivity) (by nlinarith [k1 h])
    have := mul_pos this (shelf_form_pos h0 h1 (A := A) hκ a c d)
    linarith
  · refine quad_rises h0 h1 hA hc one_pos hb le_rfl le_rfl fun fr fr' a c d => ?_
    rw [e]
    have : 0 < A ^ 2 * (1 - A ^ 2) := mul_pos (by positivity) (by nlinarith [k2 h])
    exact mul_pos this (shelf_form_pos h0 h1 (A := A) hκ a c d)
  · refine quad_level h0 h1 hA hc one_pos hb fun P R => ?_
    rw [k3 h]
    unfold homSq; ring

theorem highShelf_course {g S : ℝ} (h0 : 0 < f0) (h1 : f0 < 1 / 2) (hS : 0 < S) (hS1 : S ≤ 1) (hb : HasPrototype (.highShelf f0 g S) b) :
    RBJCourse (Gain b) (.highShelf f0 g S) := by
  have hA := ofDb_pos (g / 2)
  obtain ⟨hc, κ, hκ, hκe⟩ := shelf_c hA hS hS1
  have hb : QuadResponse f0 (ofDb (g / 2) * ofDb (g / 2)) (ofDb (g / 2) * (√(ofDb (g / 2)) * √((ofDb (g / 2) + 1 / ofDb (g / 2)) * (1 / S - 1) + 2)))
    (ofDb (g / 2)) 1 (√(ofDb (g / 2)) * √((ofDb (g / 2) + 1 / ofDb (g / 2)) * (1 / S - 1) + 2)) (ofDb (g / 2)) b := hb
  have k1 := @ofDb_gt_one g
  have k2 := @ofDb_lt_one g
  have k3 : g = 0 → ofDb (g / 2) = 1 := by rintro rfl; rw [zero_div, ofDb_zero]
  generalize √(ofDb (g / 2)) * √((ofDb (g / 2) + 1 / ofDb (g / 2)) * (1 / S - 1) + 2) = c at *
  generalize ofDb (g / 2) = A at *
  have e : ∀ P R P' R', crossForm (A * A) (A * c) A 1 c A P R P' R' =
      A ^ 2 * (A ^ 2 - 1) * (κ * (P * P') + (1 + A ^ 2) * (P * R' + P' * R) + κ * (R * R')) := by
    intro P R P' R'
    unfold crossForm
    linear_combination (A ^ 2 * (A ^ 2 - 1) * (P * P' + R * R')) * hκe
  refine ⟨fun h => ?_, fun h => ?_, fun h => ?_⟩
  · refine quad_rises h0 h1 one_pos hc hA hb le_rfl le_rfl fun fr fr' a c d => ?_
    rw [e]
    have : 0 < A ^ 2 * (A ^ 2 - 1) := mul_pos (by positivity) (by nlinarith [k1 h])
    exact mul_pos this (shelf_form_pos h0 h1 (A := A) hκ a c d)
  · refine quad_falls h0 h1 one_pos hc hA hb le_rfl le_rfl fun fr fr' a c d => ?_
    rw [e]
    have : 0 < A ^ 2 * (1 - A ^ 2) := mul_pos (by positivity) (by nlinarith [k2 h])
    have := mul_pos this (shelf_form_pos h0 h1 (A := A) hκ a c d)
    linarith
  · refine quad_level h0 h1 one_pos hc hA hb fun P R => ?_
    rw [k3 h]
    unfold homSq; ring

theorem invQ_pos {w : ℝ} (h0 : 0 < f0) (h1 : f0 < 1 / 2) (hw : 0 < w) : 0 < invQ f0 w := by
  have hs := (trig_facts h0 h1).1
  have := Real.log_pos (show (1 : ℝ) < 2 by norm_num)
  have := Real.pi_pos
  unfold invQ
  have : 0 < Real.sinh (Real.log 2 / 2 * w * (2 * Real.pi * f0) / Real.sin (2 * Real.pi * f0)) := Real.sinh_pos_iff.2 (by positivity)
  linarith

theorem bandShelf_course {g w : ℝ} (h0 : 0 < f0) (h1 : f0 < 1 / 2) (hw : 0 < w) (hb : HasPrototype (.bandShelf f0 g w) b) :
    RBJCourse (Gain b) (.bandShelf f0 g w) := by
  have hA := ofDb_pos (g / 2)
  have hi := invQ_pos h0 h1 hw
  have hb : QuadResponse f0 1 (ofDb (g / 2) * invQ f0 w) 1 1 (invQ f0 w / ofDb (g / 2)) 1 b := hb
  have k1 := @ofDb_gt_one g
  have k2 := @ofDb_lt_one g
  have k3 : g = 0 → ofDb (g / 2) = 1 := by rintro rfl; rw [zero_div, ofDb_zero]
  generalize invQ f0 w = i at *
  generalize ofDb (g / 2) = A at *
  have hc : 0 < i / A := by positivity
  have e : ∀ P R P' R', crossForm 1 (A * i) 1 1 (i / A) 1 P R P' R' = i ^ 2 * (A ^ 2 - 1 / A ^ 2) * (R * R' - P * P') := by
    intro P R P' R'
    unfold crossForm
    field_simp
    ring
  refine ⟨fun h => ?_, fun h => ?_, fun h => ?_⟩
  · have hA1 := k1 h
    have : 1 / A ^ 2 < A ^ 2 := by
      rw [div_lt_iff₀ (by positivity)]; nlinarith [sq_nonneg (A ^ 2 - 1), show 1 < A ^ 2 by nlinarith]
    exact peaks_of h0 h1 one_pos hc one_pos hb (mul_pos (by positivity) (sub_pos.2 this)) e
  · have hA1 := k2 h
    have : A ^ 2 < 1 / A ^ 2 := by
      have : A ^ 2 < 1 := by nlinarith
      have : 0 < A ^ 2 := by positivity
      rw [lt_div_iff₀ (by positivity)]; nlinarith
    exact dips_of h0 h1 one_pos hc one_pos hb (K := i ^ 2 * (1 / A ^ 2 - A ^ 2)) (mul_pos (by positivity) (sub_pos.2 this))
      fun P R P' R' => by rw [e]; ring
  · refine quad_level h0 h1 one_pos hc one_pos hb fun P R => ?_
    rw [k3 h]
    unfold homSq; ring

/-! ## The notch -/

theorem notch_form {c r X Y : ℝ} (hr0 : 0 < r) (hr1 : r < 1) (hc : -1 < c) (hc1 : c < 1) (hX : 0 ≤ X) (hY : 0 ≤ Y) (hXY : 0 < X + Y)
    (hX1 : X ≤ 1 - c) (hY1 : Y ≤ 1 - c) : 0 < ((1 + r) ^ 2 - 4 * r * c ^ 2) * (X + Y) - 4 * r * c * (X * Y) := by
  have hc2 : c ^ 2 < 1 := by nlinarith
  have h1 : 0 < (1 + r) ^ 2 - 4 * r * c ^ 2 := by nlinarith [sq_nonneg (1 - r)]
  rcases le_total c 0 with h | h
  · have : 0 ≤ -c * (X * Y) := mul_nonneg (by linarith) (mul_nonneg hX hY)
    have := mul_nonneg hr0.le this
    have := mul_pos h1 hXY
    nlinarith
  · have a1 : X * Y ≤ (1 - c) * (X + Y) / 2 := by nlinarith
    have a2 := mul_le_mul_of_nonneg_left a1 (show 0 ≤ 4 * r * c by positivity)
    have a3 : 0 < (1 + r) ^ 2 - 4 * r * c ^ 2 - 2 * r * c * (1 - c) := by nlinarith [sq_nonneg (1 - r), mul_pos hr0 (sub_pos.2 hc1)]
    have a4 := mul_pos a3 hXY
    nlinarith

theorem cospi_anti {x y : ℝ} (h0 : 0 ≤ x) (h : x < y) (h1 : y ≤ 1 / 2) : Real.cos (2 * Real.pi * y) < Real.cos (2 * Real.pi * x) := by
  have := Real.pi_pos
  exact Real.cos_lt_cos_of_nonneg_of_le_pi (by positivity) (by nlinarith) (by nlinarith)

theorem notch_course {q : ℝ} (h0 : 0 < f0) (h1 : f0 < 1 / 2) {r c : ℝ} (hr0 : 0 < r) (hr1 : r < 1) (hc : c = Real.cos (2 * Real.pi * f0))
    (hb : HasCoeffs b ⟨1, -2 * r * c, r * r, 1, -2 * c, 1⟩) : RBJCourse (Gain b) (.iirNotch f0 q) := by
  obtain ⟨-, hc1, hc2⟩ := trig_facts h0 h1
  rw [← hc] at hc1 hc2
  set x : ℝ → ℝ := fun f => Real.cos (2 * Real.pi * f) - c with hx
  set D : ℝ → ℝ := fun X => 4 * r ^ 2 * X ^ 2 - 4 * r * c * (1 - r) ^ 2 * X + (1 - r) ^ 2 * ((1 + r) ^ 2 - 4 * r * c ^ 2) with hD
  have eN : ∀ f, quadSq 1 (-2 * c) 1 f = 4 * x f ^ 2 := fun f => by rw [quadSq_cos]; simp only [hx]; ring
  have eD : ∀ f, quadSq 1 (-2 * r * c) (r * r) f = D (x f) := fun f => by rw [quadSq_cos]; simp only [hx, hD]; ring
  have Dpos : ∀ f, 0 < D (x f) := fun f => by
    rw [← eD, quadSq_cos]
    exact lt_of_lt_of_eq (notch_den_pos hr0 hr1 hc2 hc1 (Real.neg_one_le_cos (2 * Real.pi * f)) (Real.cos_le_one (2 * Real.pi * f))) (by ring)
  have hg : ∀ f, Gain b f √(4 * x f ^ 2 / D (x f)) := fun f => by
    refine gain_of hb (Real.sqrt_nonneg _) (by simp only; rw [eD]; exact (Dpos f).ne') ?_
    simp only
    have := Dpos f
    rw [eN, eD, Real.sq_sqrt (by positivity)]
    field_simp
  have lt_of : ∀ f f', x f ^ 2 * D (x f') < x f' ^ 2 * D (x f) → √(4 * x f ^ 2 / D (x f)) < √(4 * x f' ^ 2 / D (x f')) := fun f f' h => by
    have := Dpos f
    refine Real.sqrt_lt_sqrt (by positivity) ?_
    rw [div_lt_div_iff₀ (Dpos f) (Dpos f')]
    linarith
  have form : ∀ X Y, X ^ 2 * D Y - Y ^ 2 * D X = (X - Y) * ((1 - r) ^ 2 *
      (((1 + r) ^ 2 - 4 * r * c ^ 2) * (X + Y) - 4 * r * c * (X * Y))) := fun X Y => by simp only [hD]; ring
  have r2 : 0 < (1 - r) ^ 2 := by have : 0 < 1 - r := by linarith
                                  positivity
  have x0 : x f0 = 0 := by simp only [hx, hc]; ring
  have anti : ∀ f f', 0 ≤ f → f < f' → f' ≤ 1 / 2 → x f' < x f := fun f f' a b c => by
    have := cospi_anti a b c
    simp only [hx]; linarith
  refine ⟨⟨fun fr _ _ => ⟨_, hg fr⟩, fun fr fr' v v' a k d hv hv' => ?_⟩, ⟨fun fr _ _ => ⟨_, hg fr⟩, fun fr fr' v v' a k d hv hv' => ?_⟩⟩
  · rw [hv.unique (hg fr), hv'.unique (hg fr')]
    apply lt_of
    have l := anti fr fr' a k (d.trans h1.le)
    have l' : 0 ≤ x fr' := by
      rcases d.eq_or_lt with rfl | d
      · exact x0.ge
      · rw [← x0]; exact (anti _ _ (a.trans k.le) d h1.le).le
    have u : ∀ f, x f ≤ 1 - c := fun f => by simp only [hx]; linarith [Real.cos_le_one (2 * Real.pi * f)]
    have := mul_pos (sub_pos.2 l) (mul_pos r2 (notch_form hr0 hr1 hc2 hc1 (by linarith) l' (by linarith) (u fr) (u fr')))
    linarith [form (x fr) (x fr')]
  · rw [hv.unique (hg fr), hv'.unique (hg fr')]
    apply lt_of
    have l := anti fr fr' (h0.le.trans a) k d
    have l' : x fr ≤ 0 := by
      rcases a.eq_or_lt with rfl | a
      · exact x0.le
      · rw [← x0]; exact (anti _ _ h0.le a (k.le.trans d)).le
    have u : ∀ f, -x f ≤ 1 - -c := fun f => by simp only [hx]; linarith [Real.neg_one_le_cos (2 * Real.pi * f)]
    have := mul_pos (sub_pos.2 l) (mul_pos r2 (notch_form (c := -c) hr0 hr1 (by linarith) (by linarith) (X := -x fr) (Y := -x fr')
      (by linarith) (by linarith) (by linarith) (u fr) (u fr')))
    have e := form (x fr) (x fr')
    nlinarith

/-- **C94** for RBJ filters: between frequency 0 and half the sampling frequency a low pass falls (with a resonance, `Q² > 1/2`, it first
rises up to a frequency below the cutoff), a high pass rises (with a resonance it falls again beyond a frequency above the cutoff), band passes
rise up to the centre and fall from there, band stop and notch the other way round, an all pass is level, the shelves go from one level to the
other without overshoot. -/
theorem C94_rbj (d : RBJ.Design ℝ) (h : ValidRBJ d) : AfterRBJ (finRBJ d) fun b => RBJCourse (Gain b) d := by
  cases d with
  | iirNotch f0 q =>
    obtain ⟨h0, h1, hq⟩ := h
    obtain ⟨hr0, hr1⟩ := notch_r h0 hq
    exact afterRBJ_of ⟨_, _, _, _, _, _⟩ (by simp) (iirNotch_setup hq) fun b hb => notch_course h0 h1 hr0 hr1 rfl hb
  | lowPass f0 q =>
    intro f
    obtain ⟨f', e1, e2, e3⟩ := C66_rbj _ h f
    exact ⟨f', e1, e2, lowPass_course h.1 h.2.1 h.2.2 e3⟩
  | highPass f0 q =>
    intro f
    obtain ⟨f', e1, e2, e3⟩ := C66_rbj _ h f
    exact ⟨f', e1, e2, highPass_course h.1 h.2.1 h.2.2 e3⟩
  | bandPass1 f0 q =>
    intro f
    obtain ⟨f', e1, e2, e3⟩ := C66_rbj _ h f
    have hq : 0 < 1 / q := one_div_pos.2 h.2.2
    exact ⟨f', e1, e2, peaks_of h.1 h.2.1 one_pos hq one_pos e3 one_pos fun P R P' R' => by unfold crossForm; ring⟩
  | bandPass2 f0 q =>
    intro f
    obtain ⟨f', e1, e2, e3⟩ := C66_rbj _ h f
    have hq : 0 < 1 / q := one_div_pos.2 h.2.2
    exact ⟨f', e1, e2, peaks_of h.1 h.2.1 one_pos hq one_pos e3 (K := (1 / q) ^ 2) (by positivity) fun P R P' R' => by unfold crossForm; ring⟩
  | bandStop f0 q =>
    intro f
    obtain ⟨f', e1, e2, e3⟩ := C66_rbj _ h f
    have hq : 0 < 1 / q := one_div_pos.2 h.2.2
    exact ⟨f', e1, e2, dips_of h.1 h.2.1 one_pos hq one_pos e3 (K := (1 / q) ^ 2) (by positivity) fun P R P' R' => by unfold crossForm; ring⟩
  | allPass f0 q =>
    intro f
    obtain ⟨f', e1, e2, e3⟩ := C66_rbj _ h f
    have hq : 0 < 1 / q := one_div_pos.2 h.2.2
    exact ⟨f', e1, e2, quad_level h.1 h.2.1 one_pos hq one_pos e3 fun P R => by unfold homSq; ring⟩
  | lowShelf f0 g s =>
    intro f
    obtain ⟨f', e1, e2, e3⟩ := C66_rbj _ h f
    exact ⟨f', e1, e2, lowShelf_course h.1 h.2.1 h.2.2.1 h.2.2.2 e3⟩
  | highShelf f0 g s =>
    intro f
    obtain ⟨f', e1, e2, e3⟩ := C66_rbj _ h f
    exact ⟨f', e1, e2, highShelf_course h.1 h.2.1 h.2.2.1 h.2.2.2 e3⟩
  | bandShelf f0 g w =>
    intro f
    obtain ⟨f', e1, e2, e3⟩ := C66_rbj _ h f
    exact ⟨f', e1, e2, bandShelf_course h.1 h.2.1 h.2.2 e3⟩

/-- cases: a low pass without and one with a resonance, and a shelf -/
example : AfterRBJ (.lowPass (fin (1 / 8)) (fin (1 / 2))) (fun b => Falls (Gain b) 0 (1 / 2)) ∧
    AfterRBJ (.lowPass (fin (1 / 8)) (fin 5)) (fun b => ∃ fr, 0 < fr ∧ fr < 1 / 8 ∧ Peaks (Gain b) fr) ∧
    AfterRBJ (.highShelf (fin (1 / 8)) (fin (-6)) (fin 1)) (fun b => Falls (Gain b) 0 (1 / 2)) := by
  refine ⟨fun f => ?_, fun f => ?_, fun f => ?_⟩
  · obtain ⟨f', e1, e2, e3⟩ := C94_rbj (.lowPass (1 / 8) (1 / 2)) (by norm_num [ValidRBJ]) f
    exact ⟨f', e1, e2, e3.1 (by norm_num)⟩
  · obtain ⟨f', e1, e2, e3⟩ := C94_rbj (.lowPass (1 / 8) 5) (by norm_num [ValidRBJ]) f
    obtain ⟨fr, a, b, -, c⟩ := e3.2 (by norm_num)
    exact ⟨f', e1, e2, fr, a, b, c⟩
  · obtain ⟨f', e1, e2, e3⟩ := C94_rbj (.highShelf (1 / 8) (-6) 1) (by norm_num [ValidRBJ]) f
    exact ⟨f', e1, e2, e3.2.1 (by norm_num)⟩

/-! ## Butterworth filters -/

section bw
variable {S : Type → Type} [StateType S XR] {T : Type} [Sample T XR] {n o : ℕ} {call : Call XR} {fc fw g : ℝ}

theorem bwShelf_lt {x y : ℝ} (ho : 1 ≤ o) (h : |x| < |y|) :
    (0 < g → bwShelf o g y < bwShelf o g x) ∧ (g < 0 → bwShelf o g x < bwShelf o g y) := by
  have hp := ofDb_pos g
  have h2 : x ^ (2 * o) < y ^ (2 * o) := by
    rw [← (even_two_mul o).pow_abs, ← (even_two_mul o).pow_abs y]
    exact pow_lt_pow_left₀ h (abs_nonneg _) (by omega)
  have hx : 0 ≤ x ^ (2 * o) := (even_two_mul o).pow_nonneg x
  have hi : 0 < 1 / ofDb g := by positivity
  unfold bwShelf
  generalize x ^ (2 * o) = X at *
  generalize y ^ (2 * o) = Y at *
  constructor
  · intro hg
    have k : 1 < ofDb g := by rw [← ofDb_zero]; exact ofDb_lt hg
    have k' : 1 / ofDb g < 1 := by rw [div_lt_one hp]; exact k
    rw [div_lt_div_iff₀ (by linarith) (by linarith)]
    nlinarith
  · intro hg
    have k : ofDb g < 1 := by rw [← ofDb_zero]; exact ofDb_lt hg
    have k' : 1 < 1 / ofDb g := by rw [lt_div_iff₀ hp]; linarith
    rw [div_lt_div_iff₀ (by linarith) (by linarith)]
    nlinarith

theorem bwShelf_vs_one (x : ℝ) : (0 < g → 1 < bwShelf o g x) ∧ (g < 0 → bwShelf o g x < 1) ∧ (g = 0 → bwShelf o g x = 1) := by
  have hp := ofDb_pos g
  have hx : 0 ≤ x ^ (2 * o) := (even_two_mul o).pow_nonneg x
  have hi : 0 < 1 / ofDb g := by positivity
  unfold bwShelf
  refine ⟨fun hg => ?_, fun hg => ?_, fun hg => ?_⟩
  · have k : 1 < ofDb g := by rw [← ofDb_zero]; exact ofDb_lt hg
    have k' : 1 / ofDb g < 1 := by rw [div_lt_one hp]; exact k
    rw [lt_div_iff₀ (by linarith)]; linarith
  · have k : ofDb g < 1 := by rw [← ofDb_zero]; exact ofDb_lt hg
    have k' : 1 < 1 / ofDb g := by rw [lt_div_iff₀ hp]; linarith
    rw [div_lt_one (by linarith)]; linarith
  · rw [hg, ofDb_zero, div_one, div_self (by linarith)]

theorem gainSq_iff {f : PoleFilter S XR} {fr v : ℝ} (h : GainSq f fr v) (w : ℝ) : GainSq f fr w ↔ w = v :=
  ⟨fun h' => h'.unique h, fun e => e ▸ h⟩

/-- **C94**, Butterworth low shelf: the gain goes from the level at frequency 0 to 1 without overshoot. -/
theorem C94_lowshelf (h : Asks call n o (.bwLowShelf (fin fc) (fin g))) (h0 : 0 < fc) (h1 : fc < 1 / 2) :
    AfterSetup S T n call fun f => (0 < g → Falls (GainSq f) 0 (1 / 2)) ∧ (g < 0 → Rises (GainSq f) 0 (1 / 2)) ∧
      (g = 0 → Level (GainSq f) 0 (1 / 2) 1) := by
  have ho := h.pos
  refine (C34_lowshelf h h0 h1).mono fun f hf => ?_
  replace hf := hf.1
  have ex : ∀ fr, 0 ≤ fr → fr ≤ 1 / 2 → ∃ v, GainSq f fr v := fun fr a b => by
    rcases b.eq_or_lt with rfl | b
    · exact ⟨_, hf.nyquist⟩
    · exact ⟨_, hf.gain fr a b⟩
  have lt : ∀ fr fr', 0 ≤ fr → fr < fr' → fr' < 1 / 2 → |lowRatio fc fr| < |lowRatio fc fr'| := fun fr fr' a b c => by
    have k := lowRatio_nonneg h0 h1 a (b.trans c)
    have k' := lowRatio_lt h0 h1 a b c
    rwa [abs_of_nonneg k, abs_of_nonneg (k.trans k'.le)]
  refine ⟨fun hg => ⟨ex, fun fr fr' v v' a b c e e' => ?_⟩, fun hg => ⟨ex, fun fr fr' v v' a b c e e' => ?_⟩, fun hg fr a b v => ?_⟩
  · rw [e.unique (hf.gain fr a (by linarith))]
    rcases c.eq_or_lt with rfl | c
    · rw [e'.unique hf.nyquist]; exact (bwShelf_vs_one _).1 hg
    · rw [e'.unique (hf.gain fr' (by linarith) c)]; exact (bwShelf_lt ho (lt fr fr' a b c)).1 hg
  · rw [e.unique (hf.gain fr a (by linarith))]
    rcases c.eq_or_lt with rfl | c
    · rw [e'.unique hf.nyquist]; exact (bwShelf_vs_one _).2.1 hg
    · rw [e'.unique (hf.gain fr' (by linarith) c)]; exact (bwShelf_lt ho (lt fr fr' a b c)).2 hg
  · rcases b.eq_or_lt with rfl | b
    · exact gainSq_iff hf.nyquist v
    · have := hf.gain fr a b
      rw [(bwShelf_vs_one _).2.2 hg] at this
      exact gainSq_iff this v

/-- **C94**, Butterworth high shelf. -/
theorem C94_highshelf (h : Asks call n o (.bwHighShelf (fin fc) (fin g))) (h0 : 0 < fc) (h1 : fc < 1 / 2) :
    AfterSetup S T n call fun f => (0 < g → Rises (GainSq f) 0 (1 / 2)) ∧ (g < 0 → Falls (GainSq f) 0 (1 / 2)) ∧
      (g = 0 → Level (GainSq f) 0 (1 / 2) 1) := by
  have ho := h.pos
  refine (C34_highshelf h h0 h1).mono fun f hf => ?_
  replace hf := hf.1
  have gain : ∀ fr, 0 < fr → fr ≤ 1 / 2 → ∃ t, GainSq f fr (bwShelf o g t) ∧ 0 ≤ t ∧ (fr < 1 / 2 → t = highRatio fc fr) ∧
      (fr = 1 / 2 → t = 0) := fun fr a b => by
    rcases b.eq_or_lt with rfl | b
    · exact ⟨0, hf.nyquist, le_rfl, fun h => absurd h (lt_irrefl _), fun _ => rfl⟩
    · exact ⟨_, hf.gain fr a b, (highRatio_pos h0 h1 a b).le, fun _ => rfl, fun h => absurd h b.ne⟩
  have ex : ∀ fr, 0 ≤ fr → fr ≤ 1 / 2 → ∃ v, GainSq f fr v := fun fr a b => by
    rcases a.eq_or_lt with rfl | a
    · exact ⟨_, hf.dc⟩
    · obtain ⟨t, ht, -⟩ := gain fr a b
      exact ⟨_, ht⟩
  have lt : ∀ fr fr', 0 < fr → fr < fr' → fr' ≤ 1 / 2 → ∃ t t', GainSq f fr (bwShelf o g t) ∧ GainSq f fr' (bwShelf o g t') ∧ |t'| < |t| :=
    fun fr fr' a b c => by
      obtain ⟨t, ht, t0, t1, -⟩ := gain fr a (b.le.trans c)
      obtain ⟨t', ht', t0', t1', t2'⟩ := gain fr' (a.trans b) c
      refine ⟨t, t', ht, ht', ?_⟩
      rw [abs_of_nonneg t0, abs_of_nonneg t0', t1 (b.trans_le c)]
      rcases c.eq_or_lt with h | h
      · rw [t2' h]; exact highRatio_pos h0 h1 a (b.trans_le c)
      · rw [t1' h]; exact highRatio_lt h0 h1 a b h
  refine ⟨fun hg => ⟨ex, fun fr fr' v v' a b c e e' => ?_⟩, fun hg => ⟨ex, fun fr fr' v v' a b c e e' => ?_⟩, fun hg fr a b v => ?_⟩
  · rcases a.eq_or_lt with rfl | a
    · obtain ⟨t, ht, -⟩ := gain fr' b c
      rw [e.unique hf.dc, e'.unique ht]; exact (bwShelf_vs_one _).1 hg
    · obtain ⟨t, t', k, k', l⟩ := lt fr fr' a b c
      rw [e.unique k, e'.unique k']; exact (bwShelf_lt ho l).1 hg
  · rcases a.eq_or_lt with rfl | a
    · obtain ⟨t, ht, -⟩ := gain fr' b c
      rw [e.unique hf.dc, e'.unique ht]; exact (bwShelf_vs_one _).2.1 hg
    · obtain ⟨t, t', k, k', l⟩ := lt fr fr' a b c
      rw [e.unique k, e'.unique k']; exact (bwShelf_lt ho l).2 hg
  · rcases a.eq_or_lt with rfl | a
    · exact gainSq_iff hf.dc v
    · obtain ⟨t, ht, -⟩ := gain fr a b
      rw [(bwShelf_vs_one _).2.2 hg] at ht
      exact gainSq_iff ht v

/-- **C94**, Butterworth band shelf: 1 at the ends, the level at the centre of the (prewarped) band, no overshoot. -/
theorem C94_bandshelf (h : Asks call n o (.bwBandShelf (fin fc) (fin fw) (fin g))) (h0 : 0 ≤ fc) (h1 : fc < 1 / 2)
    (he : bandLo fc fw < bandHi fc fw)
    (hodd : o % 2 = 1 → Real.tan (Real.pi * (bandHi fc fw - bandLo fc fw)) ^ (2 * o) ≠ ofDb g ∧
      Real.tan (Real.pi * (bandHi fc fw - bandLo fc fw)) ^ (2 * o) ≠ 1 / ofDb g) :
    AfterSetup S T n call fun f => (0 < g → Peaks (GainSq f) (bandMid (bandLo fc fw) (bandHi fc fw))) ∧
      (g < 0 → Dips (GainSq f) (bandMid (bandLo fc fw) (bandHi fc fw))) ∧ (g = 0 → Level (GainSq f) 0 (1 / 2) 1) := by
  have ho := h.pos
  have hB := band_of he
  have hm := hB.mid_mem
  have hmono := hB.abs_ratio_mono
  refine (C34_bandshelf h h0 h1 he hodd).mono fun f hf => ?_
  replace hf := hf.1
  have ex : ∀ fr, 0 ≤ fr → fr ≤ 1 / 2 → ∃ v, GainSq f fr v := fun fr a b => by
    rcases a.eq_or_lt with rfl | a
    · exact ⟨_, hf.dc⟩
    rcases b.eq_or_lt with rfl | b
    · exact ⟨_, hf.nyquist⟩
    · exact ⟨_, hf.gain fr a b⟩
  refine ⟨fun hg => ⟨⟨fun fr a b => ex fr a (b.trans hm.2.le), fun fr fr' v v' a b c e e' => ?_⟩,
      ⟨fun fr a b => ex fr (hm.1.le.trans a) b, fun fr fr' v v' a b c e e' => ?_⟩⟩,
    fun hg => ⟨⟨fun fr a b => ex fr a (b.trans hm.2.le), fun fr fr' v v' a b c e e' => ?_⟩,
      ⟨fun fr a b => ex fr (hm.1.le.trans a) b, fun fr fr' v v' a b c e e' => ?_⟩⟩, fun hg fr a b v => ?_⟩
  · rw [e'.unique (hf.gain fr' (by linarith) (by linarith))]
    rcases a.eq_or_lt with rfl | a
    · rw [e.unique hf.dc]; exact (bwShelf_vs_one _).1 hg
    · rw [e.unique (hf.gain fr a (by linarith))]
      exact (bwShelf_lt ho (hmono.1 fr fr' a b c)).1 hg
  · rw [e.unique (hf.gain fr (by linarith) (by linarith))]
    rcases c.eq_or_lt with rfl | c
    · rw [e'.unique hf.nyquist]; exact (bwShelf_vs_one _).1 hg
    · rw [e'.unique (hf.gain fr' (by linarith) c)]
      exact (bwShelf_lt ho (hmono.2 fr fr' a b c)).1 hg
  · rw [e'.unique (hf.gain fr' (by linarith) (by linarith))]
    rcases a.eq_or_lt with rfl | a
    · rw [e.unique hf.dc]; exact (bwShelf_vs_one _).2.1 hg
    · rw [e.unique (hf.gain fr a (by linarith))]
      exact (bwShelf_lt ho (hmono.1 fr fr' a b c)).2 hg
  · rw [e.unique (hf.gain fr (by linarith) (by linarith))]
    rcases c.eq_or_lt with rfl | c
    · rw [e'.unique hf.nyquist]; exact (bwShelf_vs_one _).2.1 hg
    · rw [e'.unique (hf.gain fr' (by linarith) c)]
      exact (bwShelf_lt ho (hmono.2 fr fr' a b c)).2 hg
  · rcases a.eq_or_lt with rfl | a
    · exact gainSq_iff hf.dc v
    rcases b.eq_or_lt with rfl | b
    · exact gainSq_iff hf.nyquist v
    · have := hf.gain fr a b
      rw [(bwShelf_vs_one _).2.2 hg] at this
      exact gainSq_iff this v

/-- **C94**, Butterworth low, high and band pass and band stop ("Monotonic response", README.md). -/
theorem C94_bw :
    (∀ {fc}, Asks call n o (.bwLowPass (fin fc)) → 0 < fc → fc < 1 / 2 → AfterSetup S T n call fun f => Falls (GainSq f) 0 (1 / 2)) ∧
    (∀ {fc}, Asks call n o (.bwHighPass (fin fc)) → 0 < fc → fc < 1 / 2 → AfterSetup S T n call fun f => Rises (GainSq f) 0 (1 / 2)) ∧
    (∀ {fc fw}, Asks call n o (.bwBandPass (fin fc) (fin fw)) → 0 ≤ fc → fc < 1 / 2 → bandLo fc fw < bandHi fc fw →
      (o % 2 = 1 → bandHi fc fw - bandLo fc fw ≠ 1 / 4) →
      AfterSetup S T n call fun f => Peaks (GainSq f) (bandMid (bandLo fc fw) (bandHi fc fw))) ∧
    (∀ {fc fw}, Asks call n o (.bwBandStop (fin fc) (fin fw)) → 0 ≤ fc → fc < 1 / 2 → bandLo fc fw < bandHi fc fw →
      (o % 2 = 1 → bandHi fc fw - bandLo fc fw ≠ 1 / 4) →
      AfterSetup S T n call fun f => Dips (GainSq f) (bandMid (bandLo fc fw) (bandHi fc fw))) := by
  have band : ∀ {Φ v len f1 f2} {f : PoleFilter S XR}, BandShape Φ v len f1 f2 f → ∀ fr, 0 ≤ fr → fr ≤ 1 / 2 → ∃ w, GainSq f fr w :=
    fun hf fr a b => by
      rcases a.eq_or_lt with rfl | a
      · exact ⟨_, hf.dc⟩
      rcases b.eq_or_lt with rfl | b
      · exact ⟨_, hf.nyquist⟩
      · exact ⟨_, hf.gain fr a b⟩
  refine ⟨fun h h0 h1 => (C30_lowpass h h0 h1).mono fun f hf => ⟨fun fr a b => ?_, hf.2.2.2⟩,
    fun h h0 h1 => (C31_highpass h h0 h1).mono fun f hf => ⟨fun fr a b => ?_, hf.2.2.2⟩,
    fun {fc fw} h h0 h1 he ho => (C32_bandpass h h0 h1 he ho).mono fun f hf => ?_,
    fun {fc fw} h h0 h1 he ho => (C33_bandstop h h0 h1 he ho).mono fun f hf => ?_⟩
  · rcases b.eq_or_lt with rfl | b
    · exact ⟨_, hf.1.nyquist⟩
    · exact ⟨_, hf.1.gain fr a b⟩
  · rcases a.eq_or_lt with rfl | a
    · exact ⟨_, hf.1.dc⟩
    rcases b.eq_or_lt with rfl | b
    · exact ⟨_, hf.1.nyquist⟩
    · exact ⟨_, hf.1.gain fr a b⟩
  · have hm := (band_of he).mid_mem
    obtain ⟨hs, -, -, -, -, -, -, r, l⟩ := hf
    exact ⟨⟨fun fr a b => band hs fr a (b.trans hm.2.le), r⟩, fun fr a b => band hs fr (hm.1.le.trans a) b, l⟩
  · have hm := (band_of he).mid_mem
    obtain ⟨hs, -, -, -, -, -, -, r, l⟩ := hf
    exact ⟨⟨fun fr a b => band hs fr a (b.trans hm.2.le), r⟩, fun fr a b => band hs fr (hm.1.le.trans a) b, l⟩

/-- cases: a low pass and a band shelf -/
example : (AfterSetup S T 5 (.setup (fin 48000) (.bwLowPass (fin 1000))) fun f => Falls (GainSq f) 0 (1 / 2)) ∧
    AfterSetup S T 2 (.setupN (.bwBandShelf (fin (1 / 4)) (fin (1 / 8)) (fin 6))) fun f =>
      Peaks (GainSq f) (bandMid (3 / 16) (5 / 16)) := by
  refine ⟨(C94_bw (n := 5) (o := 5)).1 (fc := 1000 / 48000) ⟨rfl, congrArg _ (fin_div _ (by norm_num)), by norm_num, by norm_num, by norm_num⟩
    (by norm_num) (by norm_num), ?_⟩
  have h := C94_bandshelf (S := S) (T := T) (o := 2) (n := 2) (fc := 1 / 4) (fw := 1 / 8) (g := 6)
    (call := .setupN (.bwBandShelf (fin (1 / 4)) (fin (1 / 8)) (fin 6))) ⟨rfl, rfl, by norm_num, le_rfl, by norm_num⟩
    (by norm_num) (by norm_num) (by rw [band_ex.1, band_ex.2]; norm_num) (fun h => by norm_num at h)
  rw [band_ex.1, band_ex.2] at h
  exact h.mono fun f hf => hf.1 (by norm_num)

end bw

end Iir
