import Verif.Lemmas.RoundBwLayout
import Verif.Props.Equivalent

/-! # The ideal sections of a digital Butterworth filter are those of the exact filter

Conjugate poles in pairs, response of the ideal sections, and what they amplify. -/

namespace Iir
open Spec

theorem prod_half {M : Type} [CommMonoid M] (o : ℕ) (g : ℕ → M) :
    ∏ k ∈ Finset.range o, g k =
      ∏ i ∈ Finset.range ((o + 1) / 2), if 2 * i + 1 < o then g i * g (o - 1 - i) else g i := by
  rcases Nat.even_or_odd' o with ⟨m, rfl | rfl⟩
  · rw [prod_pairs, show (2 * m + 1) / 2 = m by omega]
    refine Finset.prod_congr rfl fun i hi => ?_
    have := Finset.mem_range.1 hi
    rw [if_pos (by omega)]
  · rw [show (2 * m + 1 + 1) / 2 = m + 1 by omega, Finset.prod_range_succ _ m, if_neg (by omega),
      show 2 * m + 1 = m + (m + 1) by omega, Finset.prod_range_add, Finset.prod_range_succ', ← mul_assoc]
    congr 1
    rw [← Finset.prod_range_reflect (fun k => g (m + (k + 1))), ← Finset.prod_mul_distrib]
    refine Finset.prod_congr rfl fun i hi => ?_
    have := Finset.mem_range.1 hi
    rw [if_pos (by omega)]
    congr 2
    omega

theorem bwPole_conj' {o k : ℕ} (hk : k < o) : bwPole o (o - 1 - k) = starRingEnd ℂ (bwPole o k) := by
  have h := (bwPole_pair hk).1
  have hn : bwPole o k * starRingEnd ℂ (bwPole o k) = 1 := by
    rw [Complex.mul_conj, Complex.normSq_eq_norm_sq, bwPole_norm]; norm_num
  have h0 : bwPole o k ≠ 0 := by intro h0; rw [h0] at h; simp at h
  exact mul_left_cancel₀ h0 (h.trans hn.symm)

theorem bwDigital_conj {φ : ℝ} {o k : ℕ} (hk : k < o) : bwDigital φ o (o - 1 - k) = starRingEnd ℂ (bwDigital φ o k) := by
  simp only [bwDigital, bwPole_conj' hk, map_div₀, map_add, map_sub, map_mul, map_one, Complex.conj_ofReal]

theorem bwDigital_mid {φ : ℝ} {o : ℕ} (h : Odd o) : ((bwDigital φ o (o / 2)).re : ℂ) = bwDigital φ o (o / 2) :=
  Complex.ext (by simp) (by simp [bwDigital_mid_im h])

/-! ## Amplification -/

section gains
variable {s φ : ℝ} {o : ℕ}

theorem pairK_bot (hs : s = 1 ∨ s = -1) (q : ℂ) :
    1 + s * (pairK s (s * q)).a1 + (pairK s (s * q)).a2 = ‖1 - q‖ * ‖1 - starRingEnd ℂ q‖ := by
  have hs2 : s * s = 1 := by rcases hs with rfl | rfl <;> norm_num
  have e : ‖1 - starRingEnd ℂ q‖ = ‖1 - q‖ := by
    rw [← Complex.norm_conj (1 - q), map_sub, map_one]
  rw [e, ← sq, ← Complex.normSq_eq_norm_sq, Complex.normSq_apply]
  simp only [pairK, Complex.re_ofReal_mul, Complex.im_ofReal_mul, Complex.sub_re, Complex.sub_im, Complex.one_re,
    Complex.one_im]
  linear_combination (-2 * q.re + q.re ^ 2 + q.im ^ 2) * hs2

theorem oneK_bot (hs : s = 1 ∨ s = -1) {q : ℂ} (him : q.im = 0) (hq : ‖q‖ ≤ 1) :
    1 + s * (oneK s (s * q)).a1 + (oneK s (s * q)).a2 = ‖1 - q‖ := by
  have hs2 : s * s = 1 := by rcases hs with rfl | rfl <;> norm_num
  have hr := abs_le.1 (Complex.abs_re_le_norm q)
  have e : (1 : ℂ) - q = ((1 - q.re : ℝ) : ℂ) := Complex.ext (by simp) (by simp [him])
  rw [e, Complex.norm_real, Real.norm_eq_abs, abs_of_nonneg (by linarith)]
  simp only [oneK, Complex.re_ofReal_mul]
  linear_combination (-q.re) * hs2

theorem bw_amplifies (hs : s = 1 ∨ s = -1) (h16 : o ≤ 16) (h1 : 1 / 512 ≤ φ) (h2 : φ ≤ 512) :
    ∏ i ∈ Finset.range ((o + 1) / 2), bwG φ o i * (1 + s * (bwK s φ o i).a1 + (bwK s φ o i).a2) = bwAmplifies φ o := by
  rw [bwAmplifies, prod_half o]
  refine Finset.prod_congr rfl fun i hi => ?_
  have hi' := Finset.mem_range.1 hi
  have hq := bwDigital_norm (φ := φ) (o := o) (i := i) h16 (by omega) h1 h2
  unfold bwG bwK
  split_ifs with h
  · rw [pairK_bot hs, bwDigital_conj (by omega : i < o), Complex.norm_conj]
    rw [div_mul_div_comm, one_div_mul_eq_div]
  · obtain rfl : i = o / 2 := by omega
    rw [oneK_bot hs (bwDigital_mid_im (Nat.odd_iff.2 (by omega))) (hq.trans (by norm_num)), one_div_mul_eq_div]

theorem bwG_nonneg (h16 : o ≤ 16) (h1 : 1 / 512 ≤ φ) (h2 : φ ≤ 512) {i : ℕ} (hi : i < o) :
    0 ≤ bwG φ o i ∧ bwG φ o i ≤ 1 / (1 - ‖bwDigital φ o i‖) ^ 2 := by
  have hq := bwDigital_norm (φ := φ) (o := o) (i := i) h16 hi h1 h2
  have hq0 := norm_nonneg (bwDigital φ o i)
  have hd : 0 < 1 - ‖bwDigital φ o i‖ := by
    have : (0 : ℝ) < 1 / 2 ^ 13 := by positivity
    linarith
  unfold bwG
  split_ifs with h
  · rw [← sq]; exact ⟨by positivity, le_rfl⟩
  · refine ⟨by positivity, one_div_le_one_div_of_le (by positivity) ?_⟩
    nlinarith

theorem bw_sharp (h16 : o ≤ 16) (h1 : 1 / 512 ≤ φ) (h2 : φ ≤ 512) :
    ∑ i ∈ Finset.range ((o + 1) / 2), bwG φ o i ≤ bwSharp φ o := by
  refine (Finset.sum_le_sum fun i hi => (bwG_nonneg h16 h1 h2 ?_).2).trans ?_
  · have := Finset.mem_range.1 hi; omega
  · refine Finset.sum_le_sum_of_subset_of_nonneg (fun i hi => ?_) fun i _ _ => by positivity
    have := Finset.mem_range.1 hi
    exact Finset.mem_range.2 (by omega)

end gains

/-! ## Response -/

section response
variable {s φ : ℝ} {o : ℕ}

theorem secH_norm_one {k : Coeffs} (h : k.a0 = 1) (z : ℂ) :
    secH k.norm z = (k.b0 + k.b1 * z⁻¹ + k.b2 * z⁻¹ ^ 2) / (1 + k.a1 * z⁻¹ + k.a2 * z⁻¹ ^ 2) := by
  simp only [secH, Coeffs.norm, h, _root_.div_one]

theorem secH_scaleK {c : ℝ} {k : Coeffs} (h : k.a0 = 1) (z : ℂ) : secH (scaleK c k).norm z = c * secH k.norm z := by
  rw [secH_norm_one h, secH_norm_one (k := scaleK c k) h, ← mul_div_assoc]
  congr 1
  simp only [scaleK]; push_cast; ring

theorem secH_idK (z : ℂ) : secH idK.norm z = 1 := by
  rw [secH_norm_one rfl]; simp [idK]

/-- response of the ideal filter -/
theorem idealChain_secH {K : ℕ → Coeffs} {m j : ℕ} (h0 : ∀ i < m + 1, (K i).a0 = 1) (z : ℂ) :
    (((idealChain (idealScale s K m) K m j).map Coeffs.norm).map (secH · z)).prod =
      ∏ i ∈ Finset.range (m + 1), (((1 + s * (K i).a1 + (K i).a2) / (1 + s * (K i).b1 + (K i).b2) : ℝ) : ℂ) *
        secH (K i).norm z := by
  rw [Finset.prod_mul_distrib, ← Complex.ofReal_prod, Finset.prod_div_distrib]
  show (((idealChain (idealScale s K m) K m j).map Coeffs.norm).map (secH · z)).prod = (idealScale s K m : ℂ) * _
  simp only [idealChain, List.map_cons, List.prod_cons, List.map_append, List.prod_append, List.map_map,
    List.map_replicate, List.prod_replicate, secH_idK, one_pow, mul_one]
  rw [secH_scaleK (h0 0 (by omega)), mul_assoc]
  congr 1
  rw [Finset.prod_range_succ', mul_comm, ← prod_list_range]
  rfl

/-- what one pole contributes -/
noncomputable def poleFactor (q w : ℂ) : ℂ := (1 - q) / 2 * ((1 + w) / (1 - q * w))

theorem poleFactor_bw {P ζ w : ℂ} (hφ : (φ : ℂ) ≠ 0) (hP : 1 - φ * P ≠ 0) (hw : 1 + w ≠ 0) (hz : 1 - w = ζ * φ * (1 + w)) :
    poleFactor ((1 + φ * P) / (1 - φ * P)) w = -P / (ζ - P) := by
  have e1 : 1 - (1 + φ * P) / (1 - φ * P) * w = φ * (1 + w) * (ζ - P) / (1 - φ * P) := by
    rw [eq_div_iff hP, sub_mul, mul_right_comm, div_mul_cancel₀ _ hP]
    linear_combination hz
  have e2 : 1 - (1 + φ * P) / (1 - φ * P) = 2 * (φ * -P) / (1 - φ * P) := by
    rw [eq_div_iff hP, sub_mul, div_mul_cancel₀ _ hP]; ring
  rw [poleFactor, e1, e2]
  rcases eq_or_ne (ζ - P) 0 with h | h
  · rw [h]; simp
  · field_simp

theorem pair_factor (hs : s = 1 ∨ s = -1) (q z : ℂ) :
    (((1 + s * (pairK s (s * q)).a1 + (pairK s (s * q)).a2) /
      (1 + s * (pairK s (s * q)).b1 + (pairK s (s * q)).b2) : ℝ) : ℂ) * secH (pairK s (s * q)).norm z =
      poleFactor q (s * z⁻¹) * poleFactor (starRingEnd ℂ q) (s * z⁻¹) := by
  have hs2 : s * s = 1 := by rcases hs with rfl | rfl <;> norm_num
  have hs2' : (s : ℂ) * s = 1 := by exact_mod_cast hs2
  rw [secH_norm_one rfl]
  have m1 := Complex.mul_conj q
  rw [Complex.normSq_apply] at m1
  have m2 := Complex.add_conj q
  have e1 : (1 + s * (pairK s (s * q)).a1 + (pairK s (s * q)).a2 : ℂ) = (1 - q) * (1 - starRingEnd ℂ q) := by
    have := pairK_bot hs q
    simp only [pairK, Complex.re_ofReal_mul, Complex.im_ofReal_mul]
    push_cast at m1 m2 ⊢
    linear_combination (-2 * (q.re : ℂ) + q.re ^ 2 + q.im ^ 2) * hs2' + m2 - m1
  have e2 : (1 + s * (pairK s (s * q)).b1 + (pairK s (s * q)).b2 : ℂ) = 4 := by
    simp only [pairK]; push_cast; linear_combination 2 * hs2'
  have e3 : ((pairK s (s * q)).b0 + (pairK s (s * q)).b1 * z⁻¹ + (pairK s (s * q)).b2 * z⁻¹ ^ 2 : ℂ) =
      (1 + s * z⁻¹) * (1 + s * z⁻¹) := by
    simp only [pairK]; push_cast; linear_combination (-z⁻¹ ^ 2) * hs2'
  have e4 : (1 + (pairK s (s * q)).a1 * z⁻¹ + (pairK s (s * q)).a2 * z⁻¹ ^ 2 : ℂ) =
      (1 - q * (s * z⁻¹)) * (1 - starRingEnd ℂ q * (s * z⁻¹)) := by
    simp only [pairK, Complex.re_ofReal_mul, Complex.im_ofReal_mul]
    push_cast at m1 m2 ⊢
    linear_combination (s * z⁻¹) * m2 - (s * s * z⁻¹ ^ 2) * m1
  rw [e3, e4]
  push_cast
  rw [e1, e2, poleFactor, poleFactor]
  simp only [div_eq_mul_inv, mul_inv]
  ring

theorem one_factor (hs : s = 1 ∨ s = -1) {q : ℂ} (hq : (q.re : ℂ) = q) (z : ℂ) :
    (((1 + s * (oneK s (s * q)).a1 + (oneK s (s * q)).a2) /
      (1 + s * (oneK s (s * q)).b1 + (oneK s (s * q)).b2) : ℝ) : ℂ) * secH (oneK s (s * q)).norm z =
      poleFactor q (s * z⁻¹) := by
  have hs2 : s * s = 1 := by rcases hs with rfl | rfl <;> norm_num
  have hs2' : (s : ℂ) * s = 1 := by exact_mod_cast hs2
  rw [secH_norm_one rfl]
  have e1 : (1 + s * (oneK s (s * q)).a1 + (oneK s (s * q)).a2 : ℂ) = 1 - q := by
    simp only [oneK, Complex.re_ofReal_mul]
    push_cast; rw [hq]; linear_combination -q * hs2'
  have e2 : (1 + s * (oneK s (s * q)).b1 + (oneK s (s * q)).b2 : ℂ) = 2 := by
    simp only [oneK]; push_cast; linear_combination hs2'
  have e3 : ((oneK s (s * q)).b0 + (oneK s (s * q)).b1 * z⁻¹ + (oneK s (s * q)).b2 * z⁻¹ ^ 2 : ℂ) = 1 + s * z⁻¹ := by
    simp only [oneK]; push_cast; ring
  have e4 : (1 + (oneK s (s * q)).a1 * z⁻¹ + (oneK s (s * q)).a2 * z⁻¹ ^ 2 : ℂ) = 1 - q * (s * z⁻¹) := by
    simp only [oneK, Complex.re_ofReal_mul]
    push_cast; rw [hq]; ring
  rw [e3, e4]
  push_cast
  rw [e1, e2, poleFactor]

/-- **Response of the ideal Butterworth sections.** -/
theorem bwChain_secH (hs : s = 1 ∨ s = -1) {m : ℕ} (hm : (o + 1) / 2 = m + 1) (hφ : 0 < φ) {j : ℕ} {z ζ : ℂ}
    (hw : 1 + (s * z⁻¹) ≠ 0) (hz : 1 - s * z⁻¹ = ζ * φ * (1 + s * z⁻¹)) :
    (((idealChain (idealScale s (bwK s φ o) m) (bwK s φ o) m j).map Coeffs.norm).map (secH · z)).prod = bwLow o ζ := by
  rw [idealChain_secH (fun i _ => by unfold bwK; split_ifs <;> rfl), bwLow, prod_half o, ← hm]
  refine Finset.prod_congr rfl fun i hi => ?_
  have hi' := Finset.mem_range.1 hi
  have hP : ∀ k < o, 1 - φ * bwPole o k ≠ 0 := fun k hk h => by
    have := congrArg Complex.re h
    rw [Complex.sub_re, Complex.re_ofReal_mul, Complex.one_re, Complex.zero_re] at this
    have := bwPole_re hk
    nlinarith
  have hφ' : (φ : ℂ) ≠ 0 := by exact_mod_cast hφ.ne'
  unfold bwK
  split_ifs with h
  · rw [pair_factor hs, ← bwDigital_conj (by omega : i < o)]
    unfold bwDigital
    rw [poleFactor_bw hφ' (hP _ (by omega)) hw hz, poleFactor_bw hφ' (hP _ (by omega)) hw hz]
  · obtain rfl : i = o / 2 := by omega
    rw [one_factor hs (bwDigital_mid (Nat.odd_iff.2 (by omega)))]
    unfold bwDigital
    rw [poleFactor_bw hφ' (hP _ (by omega)) hw hz]

end response

/-! ## Stability -/

theorem stable_of_poles {k : Coeffs} {p q : ℂ} (h0 : k.a0 = 1) (h : k.StablePoles p q) : k.Stable := fun z hz => by
  have : (z - p) * (z - q) = 0 := by
    rw [h0, h.sum, h.prod] at hz
    push_cast at hz
    linear_combination hz
  rcases mul_eq_zero.1 this with e | e
  · rw [sub_eq_zero.1 e]; exact h.p_lt
  · rw [sub_eq_zero.1 e]; exact h.q_lt

theorem bwK_stable {s φ : ℝ} (hs : s = 1 ∨ s = -1) {o i : ℕ} (h16 : o ≤ 16) (hi : 2 * i < o) (h1 : 1 / 512 ≤ φ)
    (h2 : φ ≤ 512) : (bwK s φ o i).Stable := by
  have hq := bwDigital_norm (φ := φ) (o := o) (i := i) h16 (by omega) h1 h2
  have hsn : |s| = 1 := by rcases hs with rfl | rfl <;> norm_num
  have hn : ‖(s : ℂ) * bwDigital φ o i‖ < 1 := by
    rw [norm_mul, Complex.norm_real, Real.norm_eq_abs, hsn, one_mul]; exact hq.trans_lt (by norm_num)
  unfold bwK
  split_ifs with h
  · refine stable_of_poles rfl ⟨?_, ?_, hn, (Complex.norm_conj _).trans_lt hn⟩
    · rw [Complex.add_conj]; simp only [pairK]; push_cast; ring
    · rw [Complex.mul_conj, Complex.normSq_apply]; simp only [pairK]; push_cast; ring
  · obtain rfl : i = o / 2 := by omega
    refine stable_of_poles rfl ⟨oneK_real ?_, (by simp [oneK] : _ = _ * (0 : ℂ)), hn, by simp⟩
    rw [Complex.im_ofReal_mul, bwDigital_mid_im (Nat.odd_iff.2 (by omega)), MulZeroClass.mul_zero]

theorem idealChain_stable {s φ : ℝ} (hs : s = 1 ∨ s = -1) {o m j : ℕ} (hm : (o + 1) / 2 = m + 1) (h16 : o ≤ 16)
    (h1 : 1 / 512 ≤ φ) (h2 : φ ≤ 512) (c : ℝ) : ∀ k ∈ idealChain c (bwK s φ o) m j, k.a0 = 1 ∧ k.Stable := by
  have a0 : ∀ i, (bwK s φ o i).a0 = 1 := fun i => by unfold bwK; split_ifs <;> rfl
  intro k hk
  simp only [idealChain, List.mem_cons, List.mem_append, List.mem_map, List.mem_range, List.mem_replicate] at hk
  rcases hk with rfl | ⟨i, hi, rfl⟩ | ⟨-, rfl⟩
  · exact ⟨a0 0, bwK_stable hs h16 (by omega) h1 h2⟩
  · exact ⟨a0 _, bwK_stable hs h16 (by omega) h1 h2⟩
  · exact ⟨rfl, stable_of_poles rfl ⟨(by simp [idK] : _ = -((0 : ℂ) + 0)), by simp [idK], by simp, by simp⟩⟩

end Iir
