import Verif.Lemmas.ShelfNear
import Verif.Lemmas.RbjResponse

/-! # `response` of a single section whose coefficients have larger errors -/

set_option linter.unusedSectionVars false

namespace Iir
open FArith Spec Cx

variable {R : Type} [FArith R] {u η Ω : ℝ} {r : Rounds R u η Ω}

section ops
variable (hl : r.Library)
include hl

/-- the denominator of a section -/
theorem bot_gain {b : Biquad R} {k : Coeffs} {τ : ℝ} (a0 : r.Fin b.a0 ∧ 1 / 2 ^ 100 ≤ |r.val b.a0| ∧ |r.val b.a0| ≤ 2 ^ 100)
    (a1 : r.Fin b.a1 ∧ |r.val b.a1 - k.a1| ≤ τ ∧ |k.a1| ≤ 2) (a2 : r.Fin b.a2 ∧ |r.val b.a2 - k.a2| ≤ τ ∧ |k.a2| ≤ 1)
    (t0 : 1 / 2 ^ 40 ≤ τ) (t1 : τ ≤ 1 / 8) {z1 z2 : Cx R} {w : ℂ} (hz : AtPoint r z1 z2 w) :
    r.CFin (b.respBot z1 z2) ∧ ‖r.cval (b.respBot z1 z2) - denAt k w‖ ≤ 5.1 * τ := by
  have l1 : (1 : ℝ) / 2 ^ 500 ≤ 1 := by
    rw [div_le_one (by positivity)]; exact one_le_pow₀ (by norm_num)
  have l2 : (1 : ℝ) ≤ 2 ^ 50 := one_le_pow₀ (by norm_num)
  have hone := In.one hl.toAccurate (r := r)
  have hv1 : r.val (1 : R) = 1 := le_antisymm hone.2.2 hone.2.1
  have tpos : 0 < τ := lt_of_lt_of_le (by norm_num) t0
  have key : ∀ {v : R} {t : ℝ}, r.Fin v → |r.val v - t| ≤ τ → |t| ≤ 2 →
      r.Fin (v * b.a0 / b.a0) ∧ |r.val (v * b.a0 / b.a0) - t| ≤ (τ + 1 / 2 ^ 48) * 1 := by
    intro v t h1 h2 h3
    have h4 : |r.val v| ≤ 4 * 1 := by
      have := abs_sub_abs_le_abs_sub (r.val v) t
      linarith
    obtain ⟨f, e⟩ := ratio_rel hl h1 a0.1 a0.2.1 a0.2.2 l1 l2 h4
    refine ⟨f, (abs_sub_le _ (r.val v) _).trans ((add_le_add e h2).trans (le_of_eq ?_))⟩
    ring
  obtain ⟨f1, e1⟩ := key a1.1 a1.2.1 a1.2.2
  obtain ⟨f2, e2⟩ := key a2.1 a2.2.1 (a2.2.2.trans (by norm_num))
  have g1 := a1.2.2; have g2 := a2.2.2
  obtain ⟨p1, p2⟩ := quad_rel hl (x0 := ofR (1 : R)) (v1 := b.a1 * b.a0 / b.a0) (v2 := b.a2 * b.a0 / b.a0) (k0 := 1) l1 l2
    ⟨hone.1, r.zero.1⟩ f1 f2 hz.z1.1 hz.z2.1 (by norm_num; linarith) (by
      have e : r.cval (ofR (1 : R)) = ((1 : ℝ) : ℂ) := Complex.ext hv1 r.zero.2
      rw [e, sub_self, norm_zero]; positivity) e1 e2 hz.z1.2 hz.z2.2 hz.norm (by norm_num) (by linarith) (by linarith)
  refine ⟨p1, ?_⟩
  rw [denAt, ← Complex.ofReal_one]
  exact p2.trans (by norm_num at t0 ⊢; linarith)

/-- a single section -/
theorem one_response {b : Biquad R} {f : R} (hf : r.Fin f) (h0 : 0 ≤ r.val f) (h1 : r.val f ≤ 1 / 2) {k : Coeffs} {γ σ : ℝ}
    (hγ : 1 ≤ γ) (hγ' : γ ≤ 4) (σ2 : 2 ≤ σ) (hσ : σ ≤ 2 ^ 10)
    (a0 : r.Fin b.a0 ∧ 1 / 2 ^ 100 ≤ |r.val b.a0| ∧ |r.val b.a0| ≤ 2 ^ 100)
    (a1 : r.Fin b.a1 ∧ |r.val b.a1 - k.a1| ≤ γ ^ 3 / 2 ^ 40 ∧ |k.a1| ≤ 2)
    (a2 : r.Fin b.a2 ∧ |r.val b.a2 - k.a2| ≤ γ ^ 3 / 2 ^ 40 ∧ |k.a2| ≤ 1)
    (b0 : r.Fin b.b0 ∧ |r.val b.b0 - k.b0| ≤ γ ^ 5 / 2 ^ 40) (b1 : r.Fin b.b1 ∧ |r.val b.b1 - k.b1| ≤ γ ^ 5 / 2 ^ 40)
    (b2 : r.Fin b.b2 ∧ |r.val b.b2 - k.b2| ≤ γ ^ 5 / 2 ^ 40) (fwd : k.forward ≤ 4 * γ ^ 2)
    (hden : 1 ≤ 2 * σ ^ 2 * ‖denAt k (circle (r.val f))⁻¹‖) :
    ∃ v, b.response f = .ok v ∧ r.CFin v ∧
      ‖r.cval v - numAt k (circle (r.val f))⁻¹ / denAt k (circle (r.val f))⁻¹‖ ≤ γ ^ 5 * σ ^ 4 / 2 ^ 32 := by
  rw [← section_response hl hf h0 h1]
  obtain ⟨z1, z2, e1, e2, hz⟩ := points_any hl hf h0 h1
  generalize (circle (r.val f))⁻¹ = w at *
  have g0 : 0 < γ := by linarith
  have p2 : 1 ≤ γ ^ 2 := one_le_pow₀ hγ
  have p3 : 1 ≤ γ ^ 3 := one_le_pow₀ hγ
  have q2 : γ ^ 2 ≤ 4 ^ 2 := pow_le_pow_left₀ g0.le hγ' 2
  have q3 : γ ^ 3 ≤ 4 ^ 3 := pow_le_pow_left₀ g0.le hγ' 3
  norm_num at q2 q3
  have hσ0 : 0 < σ := by linarith
  have s4 : 4 ≤ σ ^ 2 := by nlinarith
  have s20 : σ ^ 2 ≤ 2 ^ 20 := by
    have := pow_le_pow_left₀ hσ0.le hσ 2
    rwa [← pow_mul] at this
  have D0 : 0 < ‖denAt k w‖ := by
    by_contra hc
    have := mul_nonpos_of_nonneg_of_nonpos (by positivity : 0 ≤ 2 * σ ^ 2) (not_lt.1 hc)
    linarith
  have D21 : 1 / 2 ^ 21 ≤ ‖denAt k w‖ := by
    have := mul_le_mul_of_nonneg_right s20 D0.le
    rw [div_le_iff₀ (by positivity)]
    norm_num at this ⊢
    linarith
  have D4 : ‖denAt k w‖ ≤ 4 := by
    refine (norm_add₃_le).trans ?_
    rw [norm_one, norm_mul, norm_mul, norm_pow, hz.norm, Complex.norm_real, Complex.norm_real, Real.norm_eq_abs, Real.norm_eq_abs]
    have := a1.2.2; have := a2.2.2
    norm_num; linarith
  have hM : ‖numAt k w‖ ≤ 4 * γ ^ 2 := (numAt_norm k hz.norm).trans fwd
  -- the section
  have e5 : γ ^ 5 / 2 ^ 40 = γ ^ 3 / 2 ^ 41 * (2 * γ ^ 2) := by ring
  have n0 := abs_nonneg k.b0
  have n1 := abs_nonneg k.b1
  have n2 := abs_nonneg k.b2
  unfold Coeffs.forward at fwd
  rw [e5] at b0 b1 b2
  have hz0 := r.zero
  have l500 : (1 : ℝ) / 2 ^ 500 ≤ 1 := by rw [div_le_one (by positivity)]; exact one_le_pow₀ (by norm_num)
  have near : RespNear r { b with a1 := 0, a2 := 0 } { k with a1 := 0, a2 := 0 } (2 * γ ^ 2) (γ ^ 3 / 2 ^ 41) := {
    a0 := a0
    a1 := ⟨hz0.1, by show |r.val 0 - 0| ≤ _; rw [hz0.2]; norm_num, by norm_num⟩
    a2 := ⟨hz0.1, by show |r.val 0 - 0| ≤ _; rw [hz0.2]; norm_num, by norm_num⟩
    b0 := ⟨b0.1, b0.2, by simp only; linarith⟩
    b1 := ⟨b1.1, b1.2, by simp only; linarith⟩
    b2 := ⟨b2.1, b2.2, by simp only; linarith⟩
    lo := by linarith
    hi := by norm_num; linarith
    ε_le := by norm_num; linarith }
  obtain ⟨t1, t2⟩ := top_rel hl near hz
  replace t1 : r.CFin (b.respTop z1 z2) := t1
  replace t2 : ‖r.cval (b.respTop z1 z2) - numAt k w‖ ≤ _ := t2
  obtain ⟨c1, c2⟩ := bot_gain hl a0 a1 a2 (by norm_num; linarith) (by norm_num; linarith) hz
  have hone := In.one hl.toAccurate (r := r)
  have hv1 : r.val (1 : R) = 1 := le_antisymm hone.2.2 hone.2.1
  have o0 : r.cval (ofR (1 : R)) = 1 := Complex.ext hv1 r.zero.2
  have o1 : r.CFin (ofR (1 : R)) := ⟨hone.1, r.zero.1⟩
  have o2 : ‖r.cval (ofR (1 : R)) - 1‖ ≤ 0 * 1 := by rw [o0]; norm_num
  have one400 : ((1 : ℝ) + 0) * 1 ≤ 2 ^ 400 := by rw [add_zero, mul_one]; exact one_le_pow₀ (by norm_num)
  have l900 : (1 : ℝ) / 2 ^ 900 ≤ 1 / 2 ^ 21 :=
    one_div_le_one_div_of_le (by positivity) (pow_le_pow_right₀ (by norm_num) (by norm_num))
  have l390 : (1 : ℝ) / 2 ^ 390 ≤ 1 / 2 ^ 21 :=
    one_div_le_one_div_of_le (by positivity) (pow_le_pow_right₀ (by norm_num) (by norm_num))
  have u380 : (2 : ℝ) ^ 7 ≤ 2 ^ 380 := pow_le_pow_right₀ (by norm_num) (by norm_num)
  have u400 : (2 : ℝ) ^ 7 ≤ 2 ^ 400 := pow_le_pow_right₀ (by norm_num) (by norm_num)
  have M0 : 1 ≤ 4 * γ ^ 2 := by linarith
  have M7 : 4 * γ ^ 2 ≤ 2 ^ 6 := by norm_num; linarith
  have i1 : (1 : ℝ) / 2 ^ 21 ≤ 1 := by norm_num
  have sg : γ ^ 3 * 4 ≤ γ ^ 3 * σ ^ 2 := mul_le_mul_of_nonneg_left s4 (by linarith)
  have sg' : γ ^ 3 * σ ^ 2 ≤ 64 * 2 ^ 20 := mul_le_mul q3 s20 (by positivity) (by norm_num)
  obtain ⟨h3, h4⟩ := cmul_abs hl o1 t1 (Z := 1) (A := 1) (a := 0) (B := 4 * γ ^ 2) (b := 2.75 * γ ^ 3 / 2 ^ 40) (by rw [norm_one]) hM
    one400 (by
      refine le_trans (mul_le_mul (by norm_num; linarith : 1 + 2.75 * γ ^ 3 / 2 ^ 40 ≤ 2) M7 (by linarith) (by norm_num)) ?_
      rw [← pow_succ']; exact u400)
    (by rw [one_mul]; exact l900.trans (i1.trans M0)) le_rfl (by positivity) o2 (t2.trans (by
      have e : (3 * (γ ^ 3 / 2 ^ 41) + 1 / 2 ^ 38) * (2 * γ ^ 2) = (3 * γ ^ 3 / 2 ^ 42 + 1 / 2 ^ 39) * (4 * γ ^ 2) := by ring
      rw [e]
      refine mul_le_mul_of_nonneg_right ?_ (by linarith)
      norm_num; linarith))
  obtain ⟨h5, h6⟩ := cmul_abs hl o1 c1 (Z := 1) (A := 1) (a := 0) (B := ‖denAt k w‖) (b := 10.2 * (γ ^ 3 * σ ^ 2) / 2 ^ 40)
    (by rw [norm_one]) le_rfl
    one400 (by
      refine le_trans (mul_le_mul (by norm_num at sg' ⊢; linarith : 1 + 10.2 * (γ ^ 3 * σ ^ 2) / 2 ^ 40 ≤ 2) D4 (norm_nonneg _) (by norm_num)) ?_
      exact le_trans (by norm_num) u400)
    (by rw [one_mul]; exact l900.trans D21) le_rfl (by positivity) o2 (c2.trans (by
      have e : 10.2 * (γ ^ 3 * σ ^ 2) / 2 ^ 40 * ‖denAt k w‖ = 5.1 * (γ ^ 3 / 2 ^ 40) * (2 * σ ^ 2 * ‖denAt k w‖) := by ring
      rw [e]
      exact le_mul_of_one_le_right (by positivity) hden))
  rw [one_mul, one_mul] at h4 h6
  obtain ⟨h7, h8⟩ := quot_rel hl h3 h5 (a := 2.9 * γ ^ 3 / 2 ^ 40) (b := 10.4 * (γ ^ 3 * σ ^ 2) / 2 ^ 40) (M := 4 * γ ^ 2)
    (by positivity) (by norm_num; linarith) (by positivity) (by norm_num at sg' ⊢; linarith)
    (h4.trans (mul_le_mul_of_nonneg_right (by norm_num; linarith) (by linarith)))
    (h6.trans (mul_le_mul_of_nonneg_right (by norm_num at sg' ⊢; linarith) (norm_nonneg _)))
    hM (l390.trans (i1.trans M0)) (M7.trans (le_trans (by norm_num) u380)) (l390.trans D21) (D4.trans (le_trans (by norm_num) u380))
  refine ⟨_, ?_, h7, h8.trans ?_⟩
  · have hh := hl.half
    unfold Cascade.response
    rw [if_neg, if_neg]
    · show (polarC 1 (-(2 * FArith.pi * f))).bind _ = _
      rw [e1]
      show (polarC 1 (-2 * (2 * FArith.pi * f))).bind _ = _
      rw [e2]; rfl
    · rw [hl.flt _ _ hf hz0.1, hz0.2]; linarith
    · rw [hl.flt _ _ hh.1 hf, hh.2]; linarith
  · have j1 : 4 * γ ^ 2 / ‖denAt k w‖ ≤ 4 * γ ^ 2 * (2 * σ ^ 2) := by
      rw [div_le_iff₀ D0, mul_assoc (4 * γ ^ 2)]
      exact le_mul_of_one_le_right (by linarith) hden
    have j2 : 2 * (2.9 * γ ^ 3 / 2 ^ 40) + 2 * (10.4 * (γ ^ 3 * σ ^ 2) / 2 ^ 40) + 1 / 2 ^ 42 ≤ 22.6 * (γ ^ 3 * σ ^ 2) / 2 ^ 40 := by
      norm_num; linarith
    refine (mul_le_mul j2 j1 (by positivity) (by positivity)).trans ?_
    have e : 22.6 * (γ ^ 3 * σ ^ 2) / 2 ^ 40 * (4 * γ ^ 2 * (2 * σ ^ 2)) = 180.8 / 2 ^ 40 * (γ ^ 5 * σ ^ 4) := by ring
    have e' : γ ^ 5 * σ ^ 4 / 2 ^ 32 = 1 / 2 ^ 32 * (γ ^ 5 * σ ^ 4) := by ring
    rw [e, e']
    exact mul_le_mul_of_nonneg_right (by norm_num) (by positivity)

theorem NearGain.response {σ γ : ℝ} {d : RBJ.Design R} {d0 : RBJ.Design XR} {k : Coeffs} (h : NearGain r σ γ d d0 k)
    (hσ : σ ≤ 2 ^ 10) (f : RBJ.Filter R) :
    ∃ f', RBJ.Filter.setupN d f = (.ok (), f') ∧ ∀ fr, r.Fin fr → 0 ≤ r.val fr → r.val fr ≤ 1 / 2 →
      ∃ v, f'.biquad.response fr = .ok v ∧ r.CFin v ∧ AfterRBJ d0 fun b =>
        ∃ H, SectionResponse b (r.val fr) H ∧ ‖r.cval v - H‖ ≤ γ ^ 5 * σ ^ 4 / 2 ^ 32 := by
  obtain ⟨b', k', e, hv, hc, ha0⟩ := h.close f.biquad
  have hpos : 0 < k.a0 := lt_of_lt_of_le (by norm_num) h.a0
  have hσ0 := h.pos
  refine ⟨{ f with biquad := b' }, ?_, fun fr g1 g2 g3 => ?_⟩
  · show ((d.setupN f.biquad).1, { f with biquad := (d.setupN f.biquad).2 }) = _
    rw [e]
  obtain ⟨K, hK⟩ : ∃ K : Coeffs, K = ⟨1, k.a1 / k.a0, k.a2 / k.a0, k.b0 / k.a0, k.b1 / k.a0, k.b2 / k.a0⟩ := ⟨_, rfl⟩
  have m1 : 2 ≤ σ ^ 2 * (1 + K.a1 + K.a2) := by
    rw [hK, show 1 + k.a1 / k.a0 + k.a2 / k.a0 = (k.a0 + k.a1 + k.a2) / k.a0 by field_simp, ← mul_div_assoc, le_div_iff₀ hpos]
    exact h.m1
  have m2 : 2 ≤ σ ^ 2 * (1 - K.a1 + K.a2) := by
    rw [hK, show 1 - k.a1 / k.a0 + k.a2 / k.a0 = (k.a0 - k.a1 + k.a2) / k.a0 by field_simp, ← mul_div_assoc, le_div_iff₀ hpos]
    exact h.m2
  have m3 : 8 / 5 ≤ σ * (1 - K.a2) := by
    rw [hK, show 1 - k.a2 / k.a0 = (k.a0 - k.a2) / k.a0 by field_simp, ← mul_div_assoc, le_div_iff₀ hpos]
    exact h.m3
  have a2 : 0 ≤ K.a2 := by rw [hK]; exact div_nonneg h.a2 hpos.le
  have fwd : K.forward ≤ 4 * γ ^ 2 := by
    rw [hK]
    unfold Coeffs.forward
    simp only [abs_div, abs_of_pos hpos]
    rw [← add_div, ← add_div, div_le_iff₀ hpos]
    exact h.forward
  rw [← hK] at hc
  have hσ2 : 0 < σ ^ 2 := by positivity
  have P0 : 0 < 1 + K.a1 + K.a2 := by
    by_contra h; have := mul_nonpos_of_nonneg_of_nonpos hσ2.le (not_lt.1 h); linarith
  have Q0 : 0 < 1 - K.a1 + K.a2 := by
    by_contra h; have := mul_nonpos_of_nonneg_of_nonpos hσ2.le (not_lt.1 h); linarith
  have T0 : 0 < 1 - K.a2 := by
    by_contra h; have := mul_nonpos_of_nonneg_of_nonpos hσ0.le (not_lt.1 h); linarith
  obtain ⟨-, v1, v2, w0, w1, w2⟩ := hv
  obtain ⟨c1, c2, d0, d1, d2⟩ := hc
  obtain ⟨x1, x2⟩ := abs_le.1 ha0.2
  have ha := h.a0; have ha' := h.a0_le
  have pos : 0 < r.val b'.a0 := by linarith
  have l1 : (1 : ℝ) / 2 ^ 100 ≤ 1 / 4 := one_div_le_one_div_of_le (by norm_num) (by norm_num)
  have l2 : (32 : ℝ) ≤ 2 ^ 100 := by norm_num
  have hw : ‖(circle (r.val fr))⁻¹‖ = 1 := by rw [norm_inv, norm_circle, inv_one]
  have hden := denAt_lower hσ0 m1 m2 m3 hw
  obtain ⟨v, e1, e2, e3⟩ := one_response hl (b := b') (k := K) g1 g2 g3 h.one h.four h.two hσ
    ⟨ha0.1, by rw [abs_of_pos pos]; linarith, by rw [abs_of_pos pos]; linarith⟩
    ⟨v1.1, by rw [v1.2]; exact c1, by rw [abs_le]; constructor <;> linarith⟩
    ⟨v2.1, by rw [v2.2]; exact c2, by rw [abs_le]; constructor <;> linarith⟩
    ⟨w0.1, by rw [w0.2]; exact d0⟩ ⟨w1.1, by rw [w1.2]; exact d1⟩ ⟨w2.1, by rw [w2.2]; exact d2⟩ fwd hden
  refine ⟨v, e1, e2, afterRBJ_of k hpos.ne' h.ideal fun b hb => ⟨_, ?_, e3⟩⟩
  obtain ⟨rfl, hne⟩ := hasCoeffs_iff.1 hb
  have en : k.norm.numQ (circle (r.val fr))⁻¹ = numAt K (circle (r.val fr))⁻¹ := by rw [hK]; rfl
  have ed : k.norm.denQ (circle (r.val fr))⁻¹ = denAt K (circle (r.val fr))⁻¹ := by rw [hK]; rfl
  have nz : denAt K (circle (r.val fr))⁻¹ ≠ 0 := fun h => by rw [h, norm_zero] at hden; linarith
  rw [SectionResponse, response_toX (b := k.norm) hne, en, ed, Cx.cdiv_ofC _ nz]
  rfl

end ops
end Iir
