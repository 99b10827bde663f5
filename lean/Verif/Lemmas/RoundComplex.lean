import Verif.Spec.LibraryComplex
import Verif.Lemmas.RoundDesign
import Mathlib.Analysis.Complex.Norm

/-! # Rounding errors of the bilinear map -/

namespace Iir
open FArith Spec Cx

/-- `N'` and `D'` are `N` and `D` rounded, `q` is the rounded quotient. -/
theorem quot_near {N D N' D' q : ℂ} (hD : 1 ≤ ‖D‖) (hN : ‖N‖ ≤ ‖D‖) (h1 : ‖N' - N‖ ≤ ‖D‖ / 2 ^ 52)
    (h2 : ‖D' - D‖ ≤ ‖D‖ / 2 ^ 52) (hq : ‖q - N' / D'‖ ≤ ‖N' / D'‖ / 2 ^ 45 + 1 / 2 ^ 60) :
    ‖q - N / D‖ ≤ 1 / 2 ^ 43 := by
  have hD0 : D ≠ 0 := by rw [← norm_pos_iff]; linarith
  have hD' : ‖D‖ * (1 - 1 / 2 ^ 52) ≤ ‖D'‖ := by
    have : ‖D‖ ≤ ‖D'‖ + ‖D' - D‖ := by
      calc ‖D‖ = ‖D' - (D' - D)‖ := by ring_nf
        _ ≤ _ := norm_sub_le _ _
    norm_num at *
    linarith
  have hD'0 : 0 < ‖D'‖ := lt_of_lt_of_le (mul_pos (by linarith) (by norm_num)) hD'
  have hD'1 : D' ≠ 0 := norm_pos_iff.1 hD'0
  have e1 : N' / D' - N / D = ((N' - N) * D - N * (D' - D)) / (D * D') := by
    field_simp; ring
  have e2 : ‖N' / D' - N / D‖ ≤ 1 / 2 ^ 50 := by
    rw [e1, norm_div, norm_mul D D', div_le_iff₀ (mul_pos (by linarith) hD'0)]
    have e3 : ‖(N' - N) * D - N * (D' - D)‖ ≤ ‖D‖ / 2 ^ 52 * ‖D‖ + ‖D‖ * (‖D‖ / 2 ^ 52) := by
      refine (norm_sub_le _ _).trans (add_le_add ?_ ?_) <;> rw [norm_mul]
      · exact mul_le_mul_of_nonneg_right h1 (norm_nonneg _)
      · exact mul_le_mul hN h2 (norm_nonneg _) (norm_nonneg _)
    have e4 : ‖D‖ * (‖D‖ * (1 - 1 / 2 ^ 52)) ≤ ‖D‖ * ‖D'‖ := mul_le_mul_of_nonneg_left hD' (norm_nonneg _)
    have e5 : 0 ≤ ‖D‖ * ‖D‖ := mul_nonneg (norm_nonneg _) (norm_nonneg _)
    norm_num at *
    linarith
  have e6 : ‖N / D‖ ≤ 1 := by rw [norm_div, div_le_one (by linarith)]; exact hN
  have e7 : ‖N' / D'‖ ≤ ‖N' / D' - N / D‖ + ‖N / D‖ := by
    calc ‖N' / D'‖ = ‖(N' / D' - N / D) + N / D‖ := by ring_nf
      _ ≤ _ := norm_add_le _ _
  have e8 : ‖q - N / D‖ ≤ ‖q - N' / D'‖ + ‖N' / D' - N / D‖ := by
    calc ‖q - N / D‖ = ‖(q - N' / D') + (N' / D' - N / D)‖ := by ring_nf
      _ ≤ _ := norm_add_le _ _
  norm_num at *
  linarith

theorem one_le_norm_one_sub {w : ℂ} (h : w.re ≤ 0) : 1 ≤ ‖1 - w‖ := by
  have := Complex.re_le_norm (1 - w)
  simp at this
  linarith

theorem norm_one_add_le {w : ℂ} (h : w.re ≤ 0) : ‖1 + w‖ ≤ ‖1 - w‖ := by
  rw [Complex.norm_def, Complex.norm_def]
  apply Real.sqrt_le_sqrt
  rw [Complex.normSq_apply, Complex.normSq_apply]
  simp
  nlinarith

variable {R : Type} [FArith R] {u η Ω : ℝ} {r : Rounds R u η Ω}

theorem cval_re (z : Cx R) : (r.cval z).re = r.val z.re := rfl
theorem cval_im (z : Cx R) : (r.cval z).im = r.val z.im := rfl

section ops
variable (hl : r.Library)
include hl

/-- The quotient `(±(1 + c)) / (1 - c)` of the transforms. -/
theorem mobius_near {c num : Cx R} {s : ℂ} (hs : ‖s‖ = 1) (hc : r.CFin c) (hre : r.val c.re ≤ 0)
    (hn : ‖r.cval c‖ ≤ 2 ^ 100) (hnum : r.CFin num) (hnum' : ‖r.cval num - s * (1 + r.cval c)‖ ≤ ‖1 - r.cval c‖ / 2 ^ 52) :
    r.CFin (cdiv num (rsub 1 c)) ∧
      ‖r.cval (cdiv num (rsub 1 c)) - s * (1 + r.cval c) / (1 - r.cval c)‖ ≤ 1 / 2 ^ 43 := by
  have ha := hl.toAccurate
  have h1 := In.one ha (r := r)
  have hv1 : r.val (1 : R) = 1 := le_antisymm h1.2.2 h1.2.1
  have hD := one_le_norm_one_sub (w := r.cval c) hre
  have hN := norm_one_add_le (w := r.cval c) hre
  have hM : ‖1 - r.cval c‖ ≤ 2 ^ 101 := by
    refine (norm_sub_le _ _).trans ?_
    rw [norm_one]
    norm_num at *
    linarith
  have hd := Complex.abs_re_le_norm (1 - r.cval c)
  have e0 : (1 - r.cval c).re = r.val (1 : R) - r.val c.re := by rw [hv1]; simp [cval_re]
  rw [e0] at hd
  obtain ⟨f1, e1⟩ := raw_sub ha h1.1 hc.1 hd (hM.trans (by norm_num))
  obtain ⟨f2, e2⟩ := ha.neg _ hc.2
  have hcd : r.CFin (rsub 1 c) := ⟨f1, f2⟩
  have ed : ‖r.cval (rsub 1 c) - (1 - r.cval c)‖ ≤ ‖1 - r.cval c‖ / 2 ^ 52 := by
    refine (Complex.norm_le_abs_re_add_abs_im _).trans ?_
    have i1 : (r.cval (rsub 1 c) - (1 - r.cval c)).re = r.val (1 - c.re) - (r.val (1 : R) - r.val c.re) := by
      rw [← e0]; rfl
    have i2 : (r.cval (rsub 1 c) - (1 - r.cval c)).im = 0 := by
      show r.val (-c.im) - (1 - r.cval c).im = 0
      rw [e2]; simp [cval_im]
    rw [i1, i2, abs_zero, add_zero]
    norm_num at *
    linarith
  generalize hN' : s * (1 + r.cval c) = N at *
  have hNn : ‖N‖ ≤ ‖1 - r.cval c‖ := by rw [← hN', norm_mul, hs, one_mul]; exact hN
  generalize 1 - r.cval c = D at *
  generalize rsub 1 c = den at *
  have b1 : ‖r.cval num‖ ≤ 2 ^ 102 := by
    have : ‖r.cval num‖ ≤ ‖r.cval num - N‖ + ‖N‖ := by
      calc ‖r.cval num‖ = ‖(r.cval num - N) + N‖ := by ring_nf
        _ ≤ _ := norm_add_le _ _
    norm_num at *
    linarith
  have b2 : ‖r.cval den‖ ≤ 2 ^ 102 := by
    have : ‖r.cval den‖ ≤ ‖r.cval den - D‖ + ‖D‖ := by
      calc ‖r.cval den‖ = ‖(r.cval den - D) + D‖ := by ring_nf
        _ ≤ _ := norm_add_le _ _
    norm_num at *
    linarith
  have b3 : 1 / 2 ≤ ‖r.cval den‖ := by
    have : ‖D‖ ≤ ‖r.cval den‖ + ‖r.cval den - D‖ := by
      calc ‖D‖ = ‖r.cval den - (r.cval den - D)‖ := by ring_nf
        _ ≤ _ := norm_sub_le _ _
    norm_num at *
    linarith
  have p1 : (2 : ℝ) ^ 102 ≤ 2 ^ 400 := pow_le_pow_right₀ (by norm_num) (by norm_num)
  have p2 : (1 : ℝ) / 2 ^ 400 ≤ 1 / 2 := by
    refine one_div_le_one_div_of_le (by norm_num) ?_
    calc (2 : ℝ) = 2 ^ 1 := by norm_num
      _ ≤ _ := pow_le_pow_right₀ (by norm_num) (by norm_num)
  obtain ⟨f3, e3⟩ := hl.cdiv num den hnum hcd (b1.trans p1) (p2.trans b3) (b2.trans p1)
  refine ⟨f3, quot_near hD hNn hnum' ed (e3.trans ?_)⟩
  have := ha.η_le
  norm_num at *
  linarith

/-- `(1 + c) / (1 - c)` -/
theorem bilinear_near {c : Cx R} (hc : r.CFin c) (hre : r.val c.re ≤ 0) (hn : ‖r.cval c‖ ≤ 2 ^ 100) :
    r.CFin (bilinear c) ∧ ‖r.cval (bilinear c) - (1 + r.cval c) / (1 - r.cval c)‖ ≤ 1 / 2 ^ 43 := by
  have ha := hl.toAccurate
  have h1 := In.one ha (r := r)
  have hv1 : r.val (1 : R) = 1 := le_antisymm h1.2.2 h1.2.1
  have hN := norm_one_add_le (w := r.cval c) hre
  have hM : ‖1 - r.cval c‖ ≤ 2 ^ 101 := by
    refine (norm_sub_le _ _).trans ?_
    rw [norm_one]
    norm_num at *
    linarith
  have hD := one_le_norm_one_sub (w := r.cval c) hre
  have hd := (Complex.abs_re_le_norm (1 + r.cval c)).trans hN
  have e0 : (1 + r.cval c).re = r.val c.re + r.val (1 : R) := by rw [hv1]; simp [cval_re, add_comm]
  rw [e0] at hd
  obtain ⟨f1, e1⟩ := raw_add ha hc.1 h1.1 hd (hM.trans (by norm_num))
  have key := mobius_near hl (s := 1) (num := addR c 1) (by simp) hc hre hn ⟨f1, hc.2⟩ (by
    refine (Complex.norm_le_abs_re_add_abs_im _).trans ?_
    have i1 : (r.cval (addR c 1) - 1 * (1 + r.cval c)).re = r.val (c.re + 1) - (r.val c.re + r.val (1 : R)) := by
      rw [← e0, one_mul]; rfl
    have i2 : (r.cval (addR c 1) - 1 * (1 + r.cval c)).im = 0 := by
      rw [one_mul]
      show r.val c.im - (1 + r.cval c).im = 0
      simp [cval_im]
    rw [i1, i2, abs_zero, add_zero]
    norm_num at *
    linarith)
  rw [one_mul] at key
  exact key

/-- `-(1 + c) / (1 - c)` -/
theorem neg_bilinear_near {c : Cx R} (hc : r.CFin c) (hre : r.val c.re ≤ 0) (hn : ‖r.cval c‖ ≤ 2 ^ 100) :
    r.CFin (cdiv (cneg (addR c 1)) (rsub 1 c)) ∧
      ‖r.cval (cdiv (cneg (addR c 1)) (rsub 1 c)) - -((1 + r.cval c) / (1 - r.cval c))‖ ≤ 1 / 2 ^ 43 := by
  have ha := hl.toAccurate
  have h1 := In.one ha (r := r)
  have hv1 : r.val (1 : R) = 1 := le_antisymm h1.2.2 h1.2.1
  have hN := norm_one_add_le (w := r.cval c) hre
  have hM : ‖1 - r.cval c‖ ≤ 2 ^ 101 := by
    refine (norm_sub_le _ _).trans ?_
    rw [norm_one]
    norm_num at *
    linarith
  have hD := one_le_norm_one_sub (w := r.cval c) hre
  have hd := (Complex.abs_re_le_norm (1 + r.cval c)).trans hN
  have e0 : (1 + r.cval c).re = r.val c.re + r.val (1 : R) := by rw [hv1]; simp [cval_re, add_comm]
  rw [e0] at hd
  obtain ⟨f1, e1⟩ := raw_add ha hc.1 h1.1 hd (hM.trans (by norm_num))
  obtain ⟨g1, e2⟩ := ha.neg _ f1
  obtain ⟨g2, e3⟩ := ha.neg _ hc.2
  have key := mobius_near hl (s := -1) (num := cneg (addR c 1)) (by simp) hc hre hn ⟨g1, g2⟩ (by
    refine (Complex.norm_le_abs_re_add_abs_im _).trans ?_
    have i1 : (r.cval (cneg (addR c 1)) - -1 * (1 + r.cval c)).re = -(r.val (c.re + 1) - (r.val c.re + r.val (1 : R))) := by
      rw [← e0, neg_one_mul, sub_neg_eq_add]
      show r.val (-(c.re + 1)) + _ = _
      rw [e2]; ring
    have i2 : (r.cval (cneg (addR c 1)) - -1 * (1 + r.cval c)).im = 0 := by
      rw [neg_one_mul, sub_neg_eq_add]
      show r.val (-c.im) + (1 + r.cval c).im = 0
      rw [e3]; simp [cval_im]
    rw [i1, i2, abs_neg, abs_zero, add_zero]
    norm_num at *
    linarith)
  rw [neg_one_mul, neg_div] at key
  exact key

/-- real numbers stay real -/
theorem mobius_real {c num : Cx R} (hc : r.CFin c) (hre : r.val c.re ≤ 0) (hn : ‖r.cval c‖ ≤ 2 ^ 100)
    (hnum : r.CFin num) (h0 : r.val c.im = 0) (h1 : r.val num.im = 0) : r.val (cdiv num (rsub 1 c)).im = 0 := by
  have ha := hl.toAccurate
  have hone := In.one ha (r := r)
  have hv1 : r.val (1 : R) = 1 := le_antisymm hone.2.2 hone.2.1
  have hM := (Complex.abs_re_le_norm (r.cval c)).trans hn
  rw [cval_re, abs_le] at hM
  obtain ⟨f1, e1⟩ := raw_sub ha hone.1 hc.1 (M := 1 - r.val c.re)
    (by rw [hv1]; exact (abs_of_nonneg (by linarith)).le) (by norm_num at *; linarith)
  obtain ⟨g2, e3⟩ := ha.neg _ hc.2
  refine hl.cdiv_real num (rsub 1 c) hnum ⟨f1, g2⟩ ?_ h1 (by show r.val (-c.im) = 0; rw [e3, h0, neg_zero])
  intro h
  have h2 : r.val (1 - c.re) = 0 := congrArg Complex.re h
  rw [h2, hv1] at e1
  obtain ⟨e1, -⟩ := abs_le.1 e1
  norm_num at *
  linarith

end ops
end Iir
