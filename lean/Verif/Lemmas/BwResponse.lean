import Verif.Lemmas.BwChain
import Verif.Lemmas.RoundResponse

/-! # The response of the stored sections of a low or high pass against that of the ideal ones -/

set_option linter.unusedSectionVars false

namespace Iir
open FArith Spec Cx Biquad Cascade

variable {R : Type} [FArith R] {u η Ω : ℝ} {r : Rounds R u η Ω}

theorem denAt_poles {k : Coeffs} {p q : ℂ} (h1 : (k.a1 : ℂ) = -(p + q)) (h2 : (k.a2 : ℂ) = p * q) (w : ℂ) :
    denAt k w = (1 - p * w) * (1 - q * w) := by
  rw [denAt, h1, h2]; ring

theorem one_sub_le {p w : ℂ} (hw : ‖w‖ = 1) : 1 - ‖p‖ ≤ ‖1 - p * w‖ := by
  have := norm_sub_norm_le (1 : ℂ) (p * w)
  rwa [norm_one, norm_mul, hw, mul_one] at this

/-- distance of the poles to the points of the unit circle -/
theorem bw_denAt {s φ : ℝ} (hs : s = 1 ∨ s = -1) {o i : ℕ} (h16 : o ≤ 16) (hi : 2 * i < o) (h1 : 1 / 512 ≤ φ) (h2 : φ ≤ 512)
    {w : ℂ} (hw : ‖w‖ = 1) : 1 ≤ bwG φ o i * ‖denAt (bwK s φ o i) w‖ := by
  have hq := bwDigital_norm (φ := φ) (o := o) (i := i) h16 (by omega) h1 h2
  have hsn : |s| = 1 := by rcases hs with rfl | rfl <;> norm_num
  have hn : ‖(s : ℂ) * bwDigital φ o i‖ = ‖bwDigital φ o i‖ := by
    rw [norm_mul, Complex.norm_real, Real.norm_eq_abs, hsn, one_mul]
  have hd : 0 < 1 - ‖bwDigital φ o i‖ := by
    have : (0 : ℝ) < 1 / 2 ^ 13 := by positivity
    linarith
  have l1 := one_sub_le (p := s * bwDigital φ o i) hw
  have l2 := one_sub_le (p := starRingEnd ℂ (s * bwDigital φ o i)) hw
  rw [Complex.norm_conj] at l2
  rw [hn] at l1 l2
  unfold bwG bwK
  split_ifs with h
  · rw [denAt_poles (p := s * bwDigital φ o i) (q := starRingEnd ℂ (s * bwDigital φ o i)) (by
        rw [Complex.add_conj]; simp only [pairK]; push_cast; ring) (by
        rw [Complex.mul_conj, Complex.normSq_apply]; simp only [pairK]; push_cast; ring), norm_mul, one_div_mul_eq_div,
      le_div_iff₀ (by positivity), one_mul]
    exact mul_le_mul l1 l2 hd.le (norm_nonneg _)
  · obtain rfl : i = o / 2 := by omega
    rw [denAt_poles (p := s * bwDigital φ o (o / 2)) (q := 0) (oneK_real (by
        rw [Complex.im_ofReal_mul, bwDigital_mid_im (Nat.odd_iff.2 (by omega)), MulZeroClass.mul_zero])) (by simp [oneK]),
      norm_mul, one_div_mul_eq_div, le_div_iff₀ (by positivity), one_mul]
    simpa using l1

theorem numAt_norm (k : Coeffs) {w : ℂ} (hw : ‖w‖ = 1) : ‖numAt k w‖ ≤ k.forward := by
  unfold numAt Coeffs.forward
  refine (norm_add₃_le).trans ?_
  rw [norm_mul, norm_mul, norm_pow, hw, one_pow, mul_one, mul_one]
  simp only [Complex.norm_real, Real.norm_eq_abs, le_refl]

section ops
variable (hl : r.Library)
include hl

/-- a section that is not scaled -/
theorem resp_plain {s : ℝ} {b : Biquad R} {k' k : Coeffs} {G : ℝ} (hs : Sect r s b k') (h : CoefNear r b k) (hi : Ideal s k G) :
    RespNear r b k 1 (1 / 2 ^ 47) where
  a0 := ⟨hs.a0.1, by
    rw [le_antisymm hs.a0.2.2 hs.a0.2.1, abs_one, div_le_one (by positivity)]; exact one_le_pow₀ (by norm_num), by
    rw [le_antisymm hs.a0.2.2 hs.a0.2.1, abs_one]; exact one_le_pow₀ (by norm_num)⟩
  a1 := ⟨hs.a1.1, h.a1, hi.a1⟩
  a2 := ⟨hs.a2.1, h.a2, hi.a2⟩
  b0 := ⟨hs.b0.1, by rw [mul_one]; exact h.b0, by rw [hi.b0]; norm_num⟩
  b1 := ⟨hs.b1.1, by rw [mul_one]; exact h.b1, by rw [mul_one]; exact hi.b1⟩
  b2 := ⟨hs.b2.1, by rw [mul_one]; exact h.b2, hi.b2.trans (by norm_num)⟩
  lo := by rw [div_le_one (by positivity)]; exact one_le_pow₀ (by norm_num)
  hi := one_le_pow₀ (by norm_num)
  ε_le := by norm_num

/-- the scaled section -/
theorem resp_head {s : ℝ} {b : Biquad R} {k' k : Coeffs} {G c σ : ℝ} {f : R}
    (hs : Sect r s b k') (h : CoefNear r b k) (hi : Ideal s k G) (hf : r.Fin f) (hfb : |r.val f| ≤ 2 ^ 303)
    (hc : 1 / 2 ^ 228 ≤ c) (hc1 : c ≤ 1) (hσ : 1 ≤ σ) (hσ' : σ ≤ 2 ^ 29) (hr : Rel (r.val f) c (0.86 * σ / 2 ^ 32)) :
    RespNear r (scaled f b) (scaleK c k) (2 * c) (0.87 * σ / 2 ^ 32) := by
  have c0 : 0 < c := lt_of_lt_of_le (by positivity) hc
  have hη : η ≤ c / 2 ^ 60 := by
    have t := tiny_le hl (n := 288) (by norm_num)
    have e : (1 : ℝ) / 2 ^ 288 = 1 / 2 ^ 228 / 2 ^ 60 := by rw [div_div, ← pow_add]
    have := r.η_nonneg
    rw [e] at t
    have t2 := t.trans (div_le_div_of_nonneg_right hc (by positivity : (0 : ℝ) ≤ 2 ^ 60))
    clear t e hc
    linarith
  have key : ∀ {x : R}, r.In x (-9) 9 → r.Fin (x * f) ∧ |r.val (x * f) - r.val x * r.val f| ≤ 1 / 2 ^ 53 * |r.val x * r.val f| + η := by
    intro x hx
    obtain ⟨m1, m2⟩ := r.mul x f hx.1 hf (by
      rw [abs_mul]
      calc |r.val x| * |r.val f| ≤ 2 ^ 4 * 2 ^ 303 :=
            mul_le_mul ((abs_le.2 hx.2).trans (by norm_num)) hfb (abs_nonneg _) (by norm_num)
        _ = 2 ^ 307 := by rw [← pow_add]
        _ ≤ 2 ^ 1000 := pow_le_pow_right₀ (by norm_num) (by norm_num)
        _ ≤ Ω := hl.Ω_huge)
    refine ⟨m1, m2.trans ?_⟩
    have := mul_le_mul_of_nonneg_right hl.u_le (abs_nonneg (r.val x * r.val f))
    linarith
  have E1 : 0.86 * σ / 2 ^ 32 ≤ 1 := by norm_num at hσ' ⊢; linarith
  have fin : ∀ {v κ : ℝ}, |κ| ≤ 2 → |v - c * κ| ≤ c * (|κ| * (0.86 * σ / 2 ^ 32 + 1 / 2 ^ 52) + 1 / 2 ^ 45) →
      |v - c * κ| ≤ 0.87 * σ / 2 ^ 32 * (2 * c) ∧ |c * κ| ≤ 2 * (2 * c) := by
    intro v κ h1 h2
    refine ⟨h2.trans ?_, ?_⟩
    · have e : 0.87 * σ / 2 ^ 32 * (2 * c) = c * (2 * (0.87 * σ / 2 ^ 32)) := by ring
      rw [e]
      refine mul_le_mul_of_nonneg_left ?_ c0.le
      have := mul_le_mul_of_nonneg_right h1 (show 0 ≤ 0.86 * σ / 2 ^ 32 + 1 / 2 ^ 52 by positivity)
      refine (add_le_add_left this _).trans ?_
      norm_num
      linarith
    · rw [abs_mul, abs_of_pos c0]
      have := mul_le_mul_of_nonneg_left h1 c0.le
      linarith
  have p := resp_plain hl hs h hi
  have t1 : |k.b0| ≤ 2 := by rw [hi.b0]; norm_num
  have t3 : |k.b2| ≤ 2 := hi.b2.trans (by norm_num)
  exact {
    a0 := p.a0
    a1 := p.a1
    a2 := p.a2
    b0 := ⟨(key hs.b0).1, fin t1 (coef_scaled c0 E1 h.b0 hr hη (key hs.b0).2)⟩
    b1 := ⟨(key hs.b1).1, fin hi.b1 (coef_scaled c0 E1 h.b1 hr hη (key hs.b1).2)⟩
    b2 := ⟨(key hs.b2).1, fin t3 (coef_scaled c0 E1 h.b2 hr hη (key hs.b2).2)⟩
    lo := by
      have : (1 : ℝ) / 2 ^ 500 ≤ 1 / 2 ^ 228 := one_div_le_one_div_of_le (by positivity) (pow_le_pow_right₀ (by norm_num) (by norm_num))
      clear hfb
      linarith
    hi := by
      have : (2 : ℝ) ≤ 2 ^ 50 := by norm_num
      clear hfb hc
      linarith
    ε_le := by norm_num at hσ' ⊢; linarith }

open Finset in
/-- **The computed response against the ideal one.** -/
theorem chain_response {s : ℝ} {K : ℕ → Coeffs} {G : ℕ → ℝ} {m : ℕ} (hm : m + 1 ≤ 8)
    (hK : ∀ i < m + 1, Ideal s (K i) (G i)) {B : ℕ → Biquad R}
    (hB : ∀ i < m + 1, ∃ k', Sect r s (B i) k' ∧ CoefNear r (B i) (K i)) {f : R} (hf : r.Fin f) (hfb : |r.val f| ≤ 2 ^ 303)
    (hr : Rel (r.val f) (idealScale s K m) (0.86 * (∑ i ∈ Finset.range (m + 1), G i) / 2 ^ 32))
    {c' : Cascade R} (hn : c'.numStages = m + 1) {rest : List (Biquad R)}
    (hst : c'.stages = scaled f (B 0) :: ((List.range m).map (fun i => B (i + 1)) ++ rest)) {fr : R} (hfr : r.Fin fr)
    (h0 : 0 ≤ r.val fr) (h1 : r.val fr ≤ 1 / 2)
    (hden : ∀ i < m + 1, 1 ≤ G i * ‖denAt (K i) (circle (r.val fr))⁻¹‖) :
    ∃ h, c'.response fr = .ok h ∧ r.CFin h ∧
      ‖r.cval h - idealScale s K m * ∏ i ∈ range (m + 1), (numAt (K i) (circle (r.val fr))⁻¹ / denAt (K i) (circle (r.val fr))⁻¹)‖ ≤
        (∑ i ∈ range (m + 1), G i) / 2 ^ 28 * ∏ i ∈ range (m + 1), G i * (1 + s * (K i).a1 + (K i).a2) := by
  obtain ⟨c1, c2⟩ := idealScale_bounds hm hK
  have c0 : 0 < idealScale s K m := lt_of_lt_of_le (by positivity) c1
  obtain ⟨c, hc⟩ : ∃ c, c = idealScale s K m := ⟨_, rfl⟩
  obtain ⟨σ, hσ⟩ : ∃ σ, σ = ∑ i ∈ range (m + 1), G i := ⟨_, rfl⟩
  have hcF : c * (∏ i ∈ range (m + 1), (K i).forward) = ∏ i ∈ range (m + 1), (1 + s * (K i).a1 + (K i).a2) := by
    have e : ∏ i ∈ range (m + 1), (K i).forward = ∏ i ∈ range (m + 1), (1 + s * (K i).b1 + (K i).b2) :=
      prod_congr rfl fun i hi => (hK i (mem_range.1 hi)).fwd.symm
    rw [hc, e, idealScale, div_mul_cancel₀]
    rw [← e]
    refine (prod_pos fun i hi => ?_).ne'
    have := (hK i (mem_range.1 hi))
    rw [← this.fwd]; linarith [this.top]
  rw [← hc] at c0 c1 c2 hr ⊢
  rw [← hσ] at hr ⊢
  have g1 : ∀ i < m + 1, 1 ≤ G i := fun i hi => (hK i hi).one_le
  have σ1 : 1 ≤ σ := by
    rw [hσ, sum_range_succ']
    have : 0 ≤ ∑ i ∈ range m, G (i + 1) := sum_nonneg fun i hi => by
      have := g1 (i + 1) (by have := mem_range.1 hi; omega); linarith
    linarith [g1 0 (by omega)]
  have σ2 : σ ≤ 2 ^ 29 := by
    have : σ ≤ ∑ i ∈ range (m + 1), (2 ^ 26 : ℝ) := by
      rw [hσ]; exact sum_le_sum fun i hi => (hK i (mem_range.1 hi)).g_le
    refine this.trans ?_
    rw [sum_const, card_range, nsmul_eq_mul]
    have : ((m + 1 : ℕ) : ℝ) ≤ 8 := by exact_mod_cast hm
    norm_num at this ⊢
    linarith
  have hF : ∀ i < m + 1, 2 ≤ (K i).forward ∧ (K i).forward ≤ 4 := fun i hi =>
    ⟨by rw [← (hK i hi).fwd]; exact (hK i hi).top, (hK i hi).fwd_le⟩
  have hw : ‖(circle (r.val fr))⁻¹‖ = 1 := by rw [norm_inv, norm_circle, inv_one]
  obtain ⟨w, hwd⟩ : ∃ w, w = (circle (r.val fr))⁻¹ := ⟨_, rfl⟩
  rw [← hwd] at hw hden
  have prodM : ∀ j, ∏ i ∈ range (j + 1), (if i = 0 then c * (K 0).forward else (K i).forward) = c * ∏ i ∈ range (j + 1), (K i).forward := by
    intro j
    rw [prod_range_succ', prod_range_succ']
    simp only [if_true, Nat.succ_ne_zero, if_false]
    ring
  have l390 : (1 : ℝ) / 2 ^ 390 ≤ 1 / 2 ^ 224 := one_div_le_one_div_of_le (by positivity) (pow_le_pow_right₀ (by norm_num) (by norm_num))
  have l1 : (1 : ℝ) / 2 ^ 390 ≤ 1 := by rw [div_le_one (by positivity)]; exact one_le_pow₀ (by norm_num)
  obtain ⟨h, e1, e2, e3⟩ := response_rel hl (c := c') (K := fun i => if i = 0 then scaleK c (K 0) else K i)
    (μ := fun i => if i = 0 then 2 * c else 1) (ε := fun i => if i = 0 then 0.87 * σ / 2 ^ 32 else 1 / 2 ^ 47)
    (g := G) (M := fun i => if i = 0 then c * (K 0).forward else (K i).forward) hn hfr h0 h1
    (fun i hi => by
      obtain ⟨k', q1, q2⟩ := hB i hi
      rcases i with _ | i
      · exact ⟨_, by rw [hst]; rfl, resp_head hl q1 q2 (hK 0 hi) hf hfb
          ((one_div_le_one_div_of_le (by positivity) (pow_le_pow_right₀ (by norm_num) (by norm_num))).trans c1) c2 σ1 σ2 hr⟩
      · refine ⟨B (i + 1), ?_, resp_plain hl q1 q2 (hK _ hi)⟩
        rw [hst, List.getElem?_cons_succ, List.getElem?_append_left (by simp; omega)]
        rw [List.getElem?_map, List.getElem?_range (by omega)]; rfl)
    (fun i hi => by split_ifs <;> positivity)
    (fun i hi => by
      rw [← hwd]
      split_ifs with h
      · subst h
        refine ⟨(numAt_norm _ hw).trans (scaleK_forward c0.le _).le, ?_, ?_⟩
        · have := mul_le_mul_of_nonneg_left (hF 0 (by omega)).1 c0.le; linarith
        · have := mul_le_mul c2 (hF 0 (by omega)).2 (by linarith [(hF 0 (by omega)).1]) (by norm_num)
          exact this.trans (by norm_num)
      · exact ⟨numAt_norm _ hw, by linarith [(hF i hi).1], (hF i hi).2.trans (by norm_num)⟩)
    (fun i hi => by
      rw [← hwd]
      refine ⟨?_, g1 i hi, (hK i hi).g_le.trans (by norm_num)⟩
      split_ifs with h
      · subst h; exact hden 0 hi
      · exact hden i hi)
    (fun j hj => by
      rcases j with _ | j
      · rw [prod_range_zero]; exact l1
      · rw [prodM]
        have : 1 ≤ ∏ i ∈ range (j + 1), (K i).forward := by
          refine one_le_prod_range fun i hi => ?_
          have := (hF i (by omega)).1; linarith
        exact l390.trans (c1.trans (le_mul_of_one_le_right c0.le this)))
    (fun j hj => by
      rcases j with _ | j
      · rw [prod_range_zero]; exact one_le_pow₀ (by norm_num)
      · rw [prodM]
        have : ∏ i ∈ range (j + 1), (K i).forward ≤ ∏ _i ∈ range (j + 1), (4 : ℝ) :=
          prod_le_prod (fun i hi => by have := (hF i (by have := mem_range.1 hi; omega)).1; linarith)
            fun i hi => (hF i (by have := mem_range.1 hi; omega)).2
        rw [prod_const, card_range, show (4 : ℝ) = 2 ^ 2 by norm_num, ← pow_mul] at this
        have t : (2 : ℝ) ^ (2 * (j + 1)) ≤ 2 ^ 380 := pow_le_pow_right₀ (by norm_num) (by omega)
        refine le_trans ?_ (this.trans t)
        refine mul_le_of_le_one_left (prod_nonneg fun i hi => ?_) c2
        have := (hF i (by have := mem_range.1 hi; omega)).1; linarith)
    (by omega) (by
      rw [sum_range_succ']
      simp only [if_true, Nat.succ_ne_zero, if_false]
      rw [sum_const, card_range, nsmul_eq_mul]
      have : (m : ℝ) ≤ 8 := by exact_mod_cast (by omega : m ≤ 8)
      norm_num at σ2 ⊢
      linarith) (by
      rw [← sum_div, ← mul_sum, ← hσ]
      norm_num at σ2 ⊢
      linarith)
  refine ⟨h, e1, e2, ?_⟩
  rw [← hwd] at e3 ⊢
  have P1 : ∏ i ∈ range (m + 1), (numAt (if i = 0 then scaleK c (K 0) else K i) w / denAt (if i = 0 then scaleK c (K 0) else K i) w) =
      (c : ℂ) * ∏ i ∈ range (m + 1), (numAt (K i) w / denAt (K i) w) := by
    rw [prod_range_succ', prod_range_succ']
    simp only [if_true, Nat.succ_ne_zero, if_false]
    have : numAt (scaleK c (K 0)) w = c * numAt (K 0) w := by
      simp only [numAt, scaleK]; push_cast; ring
    rw [this, show denAt (scaleK c (K 0)) w = denAt (K 0) w from rfl]
    ring
  have P2 : ∏ i ∈ range (m + 1), ((if i = 0 then c * (K 0).forward else (K i).forward) / ‖denAt (if i = 0 then scaleK c (K 0) else K i) w‖) ≤
      ∏ i ∈ range (m + 1), G i * (1 + s * (K i).a1 + (K i).a2) := by
    have D : ∏ i ∈ range (m + 1), ‖denAt (if i = 0 then scaleK c (K 0) else K i) w‖ = ∏ i ∈ range (m + 1), ‖denAt (K i) w‖ := by
      refine prod_congr rfl fun i _ => ?_
      split_ifs with h
      · subst h; rfl
      · rfl
    rw [prod_div_distrib, prodM, hcF, prod_mul_distrib, D]
    have gD : 1 ≤ (∏ i ∈ range (m + 1), G i) * ∏ i ∈ range (m + 1), ‖denAt (K i) w‖ := by
      rw [← prod_mul_distrib]
      exact one_le_prod_range fun i hi => hden i hi
    have D0 : 0 < ∏ i ∈ range (m + 1), ‖denAt (K i) w‖ := prod_pos fun i hi => by
      have h1 := hden i (mem_range.1 hi)
      by_contra h
      have h2 := g1 i (mem_range.1 hi)
      have := mul_nonpos_of_nonneg_of_nonpos (by linarith : 0 ≤ G i) (not_lt.1 h)
      linarith
    have A0 : 0 ≤ ∏ i ∈ range (m + 1), (1 + s * (K i).a1 + (K i).a2) := by
      rw [← hcF]
      refine mul_nonneg c0.le (prod_nonneg fun i hi => ?_)
      have := (hF i (mem_range.1 hi)).1; linarith
    rw [div_le_iff₀ D0]
    have := mul_le_mul_of_nonneg_right gD A0
    linarith
  rw [P1] at e3
  refine e3.trans ?_
  have E : 4 * ∑ i ∈ range (m + 1), (3 * (if i = 0 then 0.87 * σ / 2 ^ 32 else 1 / 2 ^ 47) + 1 / 2 ^ 37) +
      4 * ∑ i ∈ range (m + 1), (1.1 * G i / 2 ^ 36) + 1 / 2 ^ 42 ≤ σ / 2 ^ 28 := by
    rw [← sum_div, ← mul_sum, ← hσ, sum_range_succ']
    simp only [if_true, Nat.succ_ne_zero, if_false]
    rw [sum_const, card_range, nsmul_eq_mul]
    have : (m : ℝ) ≤ 8 := by exact_mod_cast (by omega : m ≤ 8)
    norm_num at σ2 ⊢
    linarith
  refine mul_le_mul E P2 (prod_nonneg fun i hi => ?_) (by positivity)
  split_ifs
  · have := (hF 0 (by omega)).1; positivity
  · have := (hF i (mem_range.1 hi)).1; positivity

end ops
end Iir
