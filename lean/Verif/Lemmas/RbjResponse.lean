import Verif.Lemmas.BwResponse
import Verif.Lemmas.RoundNear

/-! # The response of a single section -/

set_option linter.unusedSectionVars false

namespace Iir
open FArith Spec Cx

variable {R : Type} [FArith R] {u η Ω : ℝ} {r : Rounds R u η Ω}

theorem two_ends {P Q U V : ℝ} (hP : 2 ≤ P) (hQ : 2 ≤ Q) (hU : 0 ≤ U) (hV : 1 ≤ V) :
    1 ≤ (P * U - Q * V) ^ 2 + 2.56 * P * (U * V) := by
  have hQV : 2 ≤ Q * V := by nlinarith
  have hPU : 0 ≤ P * U := by positivity
  obtain ⟨x, hx⟩ : ∃ x, x = P * U := ⟨_, rfl⟩
  obtain ⟨y, hy⟩ : ∃ y, y = Q * V := ⟨_, rfl⟩
  have e : 2.56 * P * (U * V) = 2.56 * (x * V) := by rw [hx]; ring
  rw [e]
  rw [← hx] at hPU ⊢
  rw [← hy] at hQV ⊢
  have n : 0 ≤ x * V := mul_nonneg hPU (by linarith)
  rcases le_or_gt x (y / 2) with h | h
  · have : 1 ≤ y - x := by linarith
    have : 1 ≤ (x - y) ^ 2 := by
      rw [show (x - y) ^ 2 = (y - x) ^ 2 by ring]; exact one_le_pow₀ this
    linarith
  · have h1 : 1 ≤ x := by linarith
    have : 1 ≤ x * V := one_le_mul_of_one_le_of_one_le h1 hV
    nlinarith [sq_nonneg (x - y)]

/-- The denominator on the unit circle, from its values at the ends and the product of the poles. -/
theorem denAt_lower {k : Coeffs} {σ : ℝ} (hσ : 0 < σ) (hp : 2 ≤ σ ^ 2 * (1 + k.a1 + k.a2)) (hq : 2 ≤ σ ^ 2 * (1 - k.a1 + k.a2))
    (ht : 8 / 5 ≤ σ * (1 - k.a2)) {w : ℂ} (hw : ‖w‖ = 1) : 1 ≤ 2 * σ ^ 2 * ‖denAt k w‖ := by
  have hσ2 : 0 < σ ^ 2 := by positivity
  have P0 : 0 < 1 + k.a1 + k.a2 := by
    by_contra h; have := mul_nonpos_of_nonneg_of_nonpos hσ2.le (not_lt.1 h); linarith
  have Q0 : 0 < 1 - k.a1 + k.a2 := by
    by_contra h; have := mul_nonpos_of_nonneg_of_nonpos hσ2.le (not_lt.1 h); linarith
  have T0 : 0 < 1 - k.a2 := by
    by_contra h; have := mul_nonpos_of_nonneg_of_nonpos hσ.le (not_lt.1 h); linarith
  have hn : w.re ^ 2 + w.im ^ 2 = 1 := by
    have := Complex.normSq_eq_norm_sq w
    rw [hw, Complex.normSq_apply] at this; nlinarith
  have e : ‖denAt k w‖ ^ 2 = ((1 + k.a2) * w.re + k.a1) ^ 2 + ((1 - k.a2) * w.im) ^ 2 := by
    have e1 : ‖denAt k w‖ = ‖denAt k w * starRingEnd ℂ w‖ := by rw [norm_mul, Complex.norm_conj, hw, mul_one]
    rw [e1, ← Complex.normSq_eq_norm_sq, Complex.normSq_apply]
    have re : (denAt k w * starRingEnd ℂ w).re = (1 + k.a2) * w.re + k.a1 := by
      unfold denAt
      simp [pow_two]
      linear_combination (k.a1 + k.a2 * w.re) * hn
    have im : (denAt k w * starRingEnd ℂ w).im = -(1 - k.a2) * w.im := by
      unfold denAt
      simp [pow_two]
      linear_combination (k.a2 * w.im) * hn
    rw [re, im]; ring
  have key : 1 ≤ (2 * σ ^ 2 * ‖denAt k w‖) ^ 2 := by
    rw [mul_pow, e]
    obtain ⟨U, hU⟩ : ∃ U, U = 1 + w.re := ⟨_, rfl⟩
    obtain ⟨V, hV⟩ : ∃ V, V = 1 - w.re := ⟨_, rfl⟩
    have UV : w.im ^ 2 = U * V := by rw [hU, hV]; linarith
    have U0 : 0 ≤ U := by rw [hU]; nlinarith [sq_nonneg w.im]
    have V0 : 0 ≤ V := by rw [hV]; nlinarith [sq_nonneg w.im]
    obtain ⟨P, hP⟩ : ∃ P, P = σ ^ 2 * (1 + k.a1 + k.a2) := ⟨_, rfl⟩
    obtain ⟨Q, hQ⟩ : ∃ Q, Q = σ ^ 2 * (1 - k.a1 + k.a2) := ⟨_, rfl⟩
    obtain ⟨t, htt⟩ : ∃ t, t = σ * (1 - k.a2) := ⟨_, rfl⟩
    have a2 : k.a2 ≤ 1 := by linarith
    have P4 : P ≤ 4 * σ ^ 2 := by rw [hP]; nlinarith
    have Q4 : Q ≤ 4 * σ ^ 2 := by rw [hQ]; nlinarith
    have e2 : (2 * σ ^ 2) ^ 2 * (((1 + k.a2) * w.re + k.a1) ^ 2 + ((1 - k.a2) * w.im) ^ 2) =
        (P * U - Q * V) ^ 2 + 4 * σ ^ 2 * t ^ 2 * (U * V) := by
      rw [← UV, hP, hQ, htt, hU, hV]; ring
    rw [e2]
    rw [← hP] at hp
    rw [← hQ] at hq
    rw [← htt] at ht
    have t2 : 2.56 ≤ t ^ 2 := by nlinarith
    have UV0 : 0 ≤ U * V := mul_nonneg U0 V0
    have s1 : 2.56 * P * (U * V) ≤ 4 * σ ^ 2 * t ^ 2 * (U * V) := by
      refine mul_le_mul_of_nonneg_right ?_ UV0
      nlinarith
    have s2 : 2.56 * Q * (U * V) ≤ 4 * σ ^ 2 * t ^ 2 * (U * V) := by
      refine mul_le_mul_of_nonneg_right ?_ UV0
      nlinarith
    rcases le_or_gt 1 V with h | h
    · exact (two_ends hp hq U0 h).trans (by linarith)
    · have h' : 1 ≤ U := by rw [hU]; rw [hV] at h; linarith
      refine (two_ends hq hp V0 h').trans ?_
      have : (Q * V - P * U) ^ 2 = (P * U - Q * V) ^ 2 := by ring
      rw [this, mul_comm V U]
      linarith
  have n0 : 0 ≤ 2 * σ ^ 2 * ‖denAt k w‖ := by positivity
  by_contra h
  have h1 := not_le.1 h
  nlinarith

section ops
variable (hl : r.Library)
include hl

/-- a single section as a cascade -/
theorem section_response {b : Biquad R} {f : R} (hf : r.Fin f) (h0 : 0 ≤ r.val f) (h1 : r.val f ≤ 1 / 2) :
    (Cascade.response { numStages := 1, maxStages := 1, stages := [b] } f) = b.response f := by
  have hz := r.zero
  have hh := hl.half
  unfold Cascade.response
  rw [if_neg, if_neg]
  · rfl
  · rw [hl.flt _ _ hf hz.1, hz.2]; linarith
  · rw [hl.flt _ _ hh.1 hf, hh.2]; linarith

theorem NearIdeal.response {σ : ℝ} {d : RBJ.Design R} {d0 : RBJ.Design XR} {k : Coeffs} (h : NearIdeal r σ d d0 k)
    (hσ : σ ≤ 2 ^ 10) (f : RBJ.Filter R) :
    ∃ f', RBJ.Filter.setupN d f = (.ok (), f') ∧ ∀ fr, r.Fin fr → 0 ≤ r.val fr → r.val fr ≤ 1 / 2 →
      ∃ v, f'.biquad.response fr = .ok v ∧ r.CFin v ∧ AfterRBJ d0 fun b =>
        ∃ H, SectionResponse b (r.val fr) H ∧ ‖r.cval v - H‖ ≤ σ ^ 4 / 2 ^ 29 := by
  obtain ⟨b', k', e, hv, hc, ha0⟩ := h.close f.biquad
  have hpos : 0 < k.a0 := lt_of_lt_of_le one_pos h.a0
  have hσ0 := h.pos
  refine ⟨{ f with biquad := b' }, ?_, fun fr g1 g2 g3 => ?_⟩
  · show ((d.setupN f.biquad).1, { f with biquad := (d.setupN f.biquad).2 }) = _
    rw [e]
  obtain ⟨K, hK⟩ : ∃ K : Coeffs, K = ⟨1, k.a1 / k.a0, k.a2 / k.a0, k.b0 / k.a0, k.b1 / k.a0, k.b2 / k.a0⟩ := ⟨_, rfl⟩
  have m1 : 2 ≤ σ ^ 2 * (1 + K.a1 + K.a2) := by
    rw [hK, show 1 + k.a1 / k.a0 + k.a2 / k.a0 = (k.a0 + k.a1 + k.a2) / k.a0 by field_simp, ← mul_div_assoc, le_div_iff₀ hpos]
    exact h.m1
  have m2 : 2 ≤ σ ^ 2 * (1 - K.a1 + K.a2) := by
    rw [hK, show 1 - k.a1 / k.a0 + k.a2 / k.a0 = (k.a0 - k.a1 + k.a2) / k.a0 by field_simp, ← mul_div_assoc, le_div_iff₀ hpos]
    exact h.m2
  have m3 : 8 / 5 ≤ σ * (1 - K.a2) := by
    rw [hK, show 1 - k.a2 / k.a0 = (k.a0 - k.a2) / k.a0 by field_simp, ← mul_div_assoc, le_div_iff₀ hpos]
    exact h.m3
  have a2 : 0 ≤ K.a2 := by rw [hK]; exact div_nonneg h.a2 hpos.le
  have fwd : K.forward ≤ 4 := by
    rw [hK]
    unfold Coeffs.forward
    simp only [abs_div, abs_of_pos hpos]
    rw [← add_div, ← add_div, div_le_iff₀ hpos]
    exact h.forward
  rw [← hK] at hc
  have hσ2 : 0 < σ ^ 2 := by positivity
  have P0 : 0 < 1 + K.a1 + K.a2 := by
    by_contra h; have := mul_nonpos_of_nonneg_of_nonpos hσ2.le (not_lt.1 h); linarith
  have Q0 : 0 < 1 - K.a1 + K.a2 := by
    by_contra h; have := mul_nonpos_of_nonneg_of_nonpos hσ2.le (not_lt.1 h); linarith
  have T0 : 0 < 1 - K.a2 := by
    by_contra h; have := mul_nonpos_of_nonneg_of_nonpos hσ0.le (not_lt.1 h); linarith
  have near : RespNear r b' K 2 (1 / 2 ^ 42) := by
    have n0 := abs_nonneg K.b0
    have n1 := abs_nonneg K.b1
    have n2 := abs_nonneg K.b2
    unfold Coeffs.forward at fwd
    obtain ⟨-, v1, v2, w0, w1, w2⟩ := hv
    obtain ⟨c1, c2, d0, d1, d2⟩ := hc
    obtain ⟨x1, x2⟩ := abs_le.1 ha0.2
    have ha := h.a0; have ha' := h.a0_le
    have pos : 0 < r.val b'.a0 := by linarith
    have l1 : (1 : ℝ) / 2 ^ 100 ≤ 1 / 2 := one_div_le_one_div_of_le (by norm_num) (by norm_num)
    have l2 : (4 : ℝ) ≤ 2 ^ 100 := by norm_num
    have l3 : (1 : ℝ) / 2 ^ 41 ≤ 1 / 2 ^ 38 := by norm_num
    have l4 : (1 : ℝ) / 2 ^ 41 = 1 / 2 ^ 42 * 2 := by norm_num
    rw [l4] at d0 d1 d2
    exact {
      a0 := ⟨ha0.1, by rw [abs_of_pos pos]; linarith, by rw [abs_of_pos pos]; linarith⟩
      a1 := ⟨v1.1, by rw [v1.2]; exact c1.trans l3, by rw [abs_le]; constructor <;> linarith⟩
      a2 := ⟨v2.1, by rw [v2.2]; exact c2.trans l3, by rw [abs_le]; constructor <;> linarith⟩
      b0 := ⟨w0.1, by rw [w0.2]; exact d0, by linarith⟩
      b1 := ⟨w1.1, by rw [w1.2]; exact d1, by linarith⟩
      b2 := ⟨w2.1, by rw [w2.2]; exact d2, by linarith⟩
      lo := by
        have : (1 : ℝ) / 2 ^ 500 ≤ 1 := by rw [div_le_one (by positivity)]; exact one_le_pow₀ (by norm_num)
        linarith
      hi := by norm_num
      ε_le := by norm_num }
  obtain ⟨w, hwd⟩ : ∃ w, w = (circle (r.val fr))⁻¹ := ⟨_, rfl⟩
  have hw : ‖w‖ = 1 := by rw [hwd, norm_inv, norm_circle, inv_one]
  have hden := denAt_lower hσ0 m1 m2 m3 hw
  have hσ2' : σ ^ 2 ≤ 2 ^ 20 := by
    have := pow_le_pow_left₀ hσ0.le hσ 2
    rwa [← pow_mul] at this
  have four : 4 ≤ σ ^ 2 := by have := h.two; nlinarith
  obtain ⟨v, e1, e2, e3⟩ := response_rel hl (c := { numStages := 1, maxStages := 1, stages := [b'] }) (K := fun _ => K)
    (μ := fun _ => 2) (ε := fun _ => 1 / 2 ^ 42) (g := fun _ => 2 * σ ^ 2) (M := fun _ => 4) (n := 1) rfl g1 g2 g3
    (fun i hi => by obtain rfl : i = 0 := by omega
                    exact ⟨b', rfl, near⟩)
    (fun i hi => by positivity)
    (fun i hi => by rw [← hwd]; exact ⟨(numAt_norm K hw).trans fwd, by norm_num, by norm_num⟩)
    (fun i hi => by rw [← hwd]; exact ⟨hden, by linarith, by norm_num at hσ2' ⊢; linarith⟩)
    (fun j hj => by
      rw [Finset.prod_const, Finset.card_range]
      have l : (1 : ℝ) / 2 ^ 390 ≤ 1 := by rw [div_le_one (by positivity)]; exact one_le_pow₀ (by norm_num)
      exact l.trans (one_le_pow₀ (by norm_num)))
    (fun j hj => by
      rw [Finset.prod_const, Finset.card_range, show (4 : ℝ) = 2 ^ 2 by norm_num, ← pow_mul]
      exact pow_le_pow_right₀ (by norm_num) (by omega))
    (by norm_num) (by rw [Finset.sum_range_one]; norm_num) (by rw [Finset.sum_range_one]; norm_num at hσ2' ⊢; linarith)
  rw [section_response hl g1 g2 g3] at e1
  refine ⟨v, e1, e2, afterRBJ_of k hpos.ne' h.ideal fun b hb => ⟨numAt K w / denAt K w, ?_, ?_⟩⟩
  · obtain ⟨rfl, hne⟩ := hasCoeffs_iff.1 hb
    have en : k.norm.numQ (circle (r.val fr))⁻¹ = numAt K w := by rw [hwd, hK]; rfl
    have ed : k.norm.denQ (circle (r.val fr))⁻¹ = denAt K w := by rw [hwd, hK]; rfl
    have nz : denAt K w ≠ 0 := fun h => by rw [h, norm_zero] at hden; linarith
    rw [SectionResponse, response_toX (b := k.norm) hne, en, ed, Cx.cdiv_ofC _ nz]
    rfl
  · rw [← hwd, Finset.prod_range_one, Finset.sum_range_one, Finset.sum_range_one, Finset.prod_range_one] at e3
    refine e3.trans ?_
    have d0 : 0 < ‖denAt K w‖ := by
      by_contra h
      have := mul_nonpos_of_nonneg_of_nonpos (by positivity : 0 ≤ 2 * σ ^ 2) (not_lt.1 h)
      linarith
    have i1 : 4 / ‖denAt K w‖ ≤ 8 * σ ^ 2 := by
      rw [div_le_iff₀ d0]; linarith
    have i2 : 4 * (3 * (1 / 2 ^ 42) + 1 / 2 ^ 37) + 4 * (1.1 * (2 * σ ^ 2) / 2 ^ 36) + 1 / 2 ^ 42 ≤ σ ^ 2 / 2 ^ 32 := by
      norm_num
      linarith
    refine (mul_le_mul i2 i1 (by positivity) (by positivity)).trans (le_of_eq ?_)
    ring

end ops
end Iir
