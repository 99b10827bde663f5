import Verif.Lemmas.RoundRBJ
import Verif.Lemmas.RoundChain

/-! # How far a filter designed and run with rounding errors is from the ideal filter -/

namespace Iir
open FArith Spec Exec

/-! ## Poles and margins -/

/-- Jury's inequalities with a margin keep the poles away from the unit circle. -/
theorem pole_margin {k : Coeffs} {p q : ℂ} (hk : k.StablePoles p q) {m : ℝ} (hm : 0 ≤ m) (h1 : 3 * m ≤ 1 + k.a1 + k.a2)
    (h2 : 3 * m ≤ 1 - k.a1 + k.a2) (h3 : 4 * m ≤ (1 - k.a2) ^ 2) (h4 : -(1 / 4) ≤ k.a2) :
    m ≤ (1 - ‖p‖) * (1 - ‖q‖) := by
  have es := hk.sum
  have ep := hk.prod
  have e1 := congrArg Complex.im es
  have e2 := congrArg Complex.re es
  have e3 := congrArg Complex.im ep
  have e4 := congrArg Complex.re ep
  simp only [Complex.ofReal_im, Complex.ofReal_re, Complex.neg_im, Complex.neg_re, Complex.add_im, Complex.add_re,
    Complex.mul_im, Complex.mul_re] at e1 e2 e3 e4
  have hp := hk.p_lt
  have hq := hk.q_lt
  have hq' : q.im = -p.im := by linarith
  by_cases hp0 : p.im = 0
  · have eP : ‖p‖ = |p.re| := by
      rw [show p = (p.re : ℂ) from Complex.ext rfl (by simpa using hp0), Complex.norm_real]; simp
    have eQ : ‖q‖ = |q.re| := by
      rw [show q = (q.re : ℂ) from Complex.ext rfl (by simpa [hp0] using hq'), Complex.norm_real]; simp
    rw [eP] at hp ⊢
    rw [eQ] at hq ⊢
    rw [hp0, zero_mul, sub_zero] at e4
    clear e1 e3 hq' hp0 es ep eP eQ hk
    generalize p.re = x at *
    generalize q.re = y at *
    rw [e4] at h1 h2 h4
    rw [show k.a1 = -(x + y) from e2] at h1 h2
    rcases le_total 0 x with hx | hx <;> rcases le_total 0 y with hy | hy
    · rw [abs_of_nonneg hx, abs_of_nonneg hy]; nlinarith
    · rw [abs_of_nonneg hx] at hp ⊢
      rw [abs_of_nonpos hy] at hq ⊢
      rcases le_total (-y) (1 / 2) with h | h
      · have : 2 * m ≤ 1 - x := by nlinarith
        nlinarith
      · have hx' : x ≤ 1 / 2 := by nlinarith
        have : 2 * m ≤ 1 - -y := by nlinarith
        nlinarith
    · rw [abs_of_nonpos hx] at hp ⊢
      rw [abs_of_nonneg hy] at hq ⊢
      rcases le_total (-x) (1 / 2) with h | h
      · have : 2 * m ≤ 1 - y := by nlinarith
        nlinarith
      · have hy' : y ≤ 1 / 2 := by nlinarith
        have : 2 * m ≤ 1 - -x := by nlinarith
        nlinarith
    · rw [abs_of_nonpos hx, abs_of_nonpos hy]; nlinarith
  · have hre : q.re = p.re := by
      have : p.im * (q.re - p.re) = 0 := by rw [hq'] at e3; linarith
      rcases mul_eq_zero.1 this with h | h
      · exact absurd h hp0
      · linarith
    have eq : ‖q‖ = ‖p‖ := by
      rw [show q = (starRingEnd ℂ) p from Complex.ext hre hq', Complex.norm_conj]
    have e5 : k.a2 = ‖p‖ ^ 2 := by
      rw [← Complex.normSq_eq_norm_sq, Complex.normSq_apply, e4, hre, hq']; ring
    rw [eq]
    rw [e5] at h3
    have h5 := norm_nonneg p
    generalize ‖p‖ = t at *
    have : (1 - t ^ 2) ^ 2 ≤ (2 * (1 - t)) ^ 2 := by
      apply pow_le_pow_left₀ <;> nlinarith
    nlinarith

theorem poleGain_le {k : Coeffs} {p q : ℂ} (hk : k.StablePoles p q) {m : ℝ} (hm : 0 < m) (h1 : 3 * m ≤ 1 + k.a1 + k.a2)
    (h2 : 3 * m ≤ 1 - k.a1 + k.a2) (h3 : 4 * m ≤ (1 - k.a2) ^ 2) (h4 : -(1 / 4) ≤ k.a2) : poleGain p q ≤ 1 / m :=
  one_div_le_one_div_of_le hm (pole_margin hk hm.le h1 h2 h3 h4)

/-! ## Coefficients that differ a little -/

/-- All coefficients differ by at most `δ`. -/
structure Spec.Coeffs.Close (δ : ℝ) (k' k : Coeffs) : Prop where
  a1 : |k'.a1 - k.a1| ≤ δ
  a2 : |k'.a2 - k.a2| ≤ δ
  b0 : |k'.b0 - k.b0| ≤ δ
  b1 : |k'.b1 - k.b1| ≤ δ
  b2 : |k'.b2 - k.b2| ≤ δ

theorem delayed_bound {x : ℕ → ℝ} {X : ℝ} (h : ∀ n, |x n| ≤ X) (j n : ℕ) : |delayed j x n| ≤ X := by
  unfold delayed
  split_ifs
  · exact h _
  · rw [abs_zero]; exact (abs_nonneg _).trans (h 0)

/-- Two sections with coefficients that are close, given the same input. -/
theorem diffEq_close {k k' : Coeffs} {p q p' q' : ℂ} (h0 : k.a0 = 1) (h0' : k'.a0 = 1) (hk : k.StablePoles p q)
    (hk' : k'.StablePoles p' q') {δ : ℝ} (hc : k'.Close δ k) {x y y' : ℕ → ℝ} (h : k.DiffEq x y) (h' : k'.DiffEq x y')
    {X : ℝ} (hx : ∀ n, |x n| ≤ X) (n : ℕ) :
    |y' n - y n| ≤ poleGain p q * (3 * δ * X + 2 * δ * (poleGain p' q' * (k'.forward * X))) := by
  have hy := diffEq_bound h0' hk' h' hx
  have hδ : 0 ≤ δ := (abs_nonneg _).trans hc.a1
  have hX : 0 ≤ X := (abs_nonneg _).trans (hx 0)
  generalize poleGain p' q' * (k'.forward * X) = Y at *
  refine deviation (StablePoles_gain hk) h0 h (fun n => ?_) n
  have e := h' n
  rw [h0', _root_.div_one] at e
  have key : ∀ {c v V : ℝ}, |c| ≤ δ → |v| ≤ V → |c * v| ≤ δ * V := fun {c v V} hc hv => by
    rw [abs_mul]; exact mul_le_mul hc hv (abs_nonneg _) hδ
  have t0 := key hc.b0 (hx n)
  have t1 := key hc.b1 (delayed_bound hx 1 n)
  have t2 := key hc.b2 (delayed_bound hx 2 n)
  have t3 := key hc.a1 (delayed_bound hy 1 n)
  have t4 := key hc.a2 (delayed_bound hy 2 n)
  have e2 : y' n + k.a1 * delayed 1 y' n + k.a2 * delayed 2 y' n -
      (k.b0 * x n + k.b1 * delayed 1 x n + k.b2 * delayed 2 x n) =
      (k'.b0 - k.b0) * x n + (k'.b1 - k.b1) * delayed 1 x n + (k'.b2 - k.b2) * delayed 2 x n -
        (k'.a1 - k.a1) * delayed 1 y' n - (k'.a2 - k.a2) * delayed 2 y' n := by
    linear_combination e
  rw [e2]
  rw [abs_le] at *
  constructor <;> linarith

/-! ## One section, designed and run with rounding errors -/

theorem close_arith1 {K F B X η M L : ℝ} (hK : 8 ≤ K) (hX : 0 ≤ X) (hη : 0 ≤ η) (hF0 : 0 ≤ F) (hF : F ≤ 4.01)
    (hB : B ≤ 3.01) (hB0 : 0 ≤ B) (hL : L = 1 + (B + F) * K) (hM : M = 2 * L * ((1 + F) * X + 9 * η)) :
    L ≤ 7.2 * K ∧ 0 ≤ M ∧ M ≤ 73 * K * X + 130 * K * η := by
  have hL' : L ≤ 7.2 * K := by rw [hL]; nlinarith
  have hL0 : 0 ≤ L := by rw [hL]; positivity
  refine ⟨hL', by rw [hM]; positivity, ?_⟩
  rw [hM]
  have h1 : (1 + F) * X + 9 * η ≤ 5.01 * X + 9 * η := by nlinarith
  have h2 : 0 ≤ 5.01 * X + 9 * η := by positivity
  calc 2 * L * ((1 + F) * X + 9 * η) ≤ 2 * L * (5.01 * X + 9 * η) := mul_le_mul_of_nonneg_left h1 (by positivity)
    _ ≤ 2 * (7.2 * K) * (5.01 * X + 9 * η) := mul_le_mul_of_nonneg_right (by linarith) h2
    _ ≤ _ := by nlinarith [mul_nonneg (by linarith : (0 : ℝ) ≤ K) hX, mul_nonneg (by linarith : (0 : ℝ) ≤ K) hη]

theorem close_arith2 {K F B X η M u G G' : ℝ} (hK : 8 ≤ K) (hX : 0 ≤ X) (hη : 0 ≤ η) (hF0 : 0 ≤ F) (hF : F ≤ 4.01)
    (hB : B ≤ 3.01) (hB0 : 0 ≤ B) (hG : G ≤ K) (hG0' : 0 ≤ G') (hG' : G' ≤ K) (hu0 : 0 ≤ u)
    (hu : u ≤ 1 / 2 ^ 53) (hM0 : 0 ≤ M) (hM : M ≤ 73 * K * X + 130 * K * η) :
    9 * G' * (1 + B + F) * (u * M + η) + G * (3 * (1 / 2 ^ 41) * X + 2 * (1 / 2 ^ 41) * (G' * (F * X))) ≤
      K ^ 2 / 2 ^ 37 * (X + 2 ^ 70 * η) := by
  have h1 : u * M + η ≤ 1 / 2 ^ 53 * (73 * K * X + 130 * K * η) + η :=
    add_le_add (mul_le_mul hu hM hM0 (by positivity)) le_rfl
  have h2 : 9 * G' * (1 + B + F) ≤ 9 * K * 8.02 := by
    refine mul_le_mul (by linarith) (by linarith) (by positivity) (by linarith)
  have h3 : 9 * G' * (1 + B + F) * (u * M + η) ≤ 9 * K * 8.02 * (1 / 2 ^ 53 * (73 * K * X + 130 * K * η) + η) :=
    mul_le_mul h2 h1 (by positivity) (by linarith)
  have h4 : G' * (F * X) ≤ K * (4.01 * X) :=
    mul_le_mul hG' (mul_le_mul_of_nonneg_right hF hX) (by positivity) (by linarith)
  have h5 : G * (3 * (1 / 2 ^ 41) * X + 2 * (1 / 2 ^ 41) * (G' * (F * X))) ≤
      K * (3 * (1 / 2 ^ 41) * X + 2 * (1 / 2 ^ 41) * (K * (4.01 * X))) :=
    mul_le_mul hG (by linarith) (by positivity) (by linarith)
  have h6 : 0 ≤ K * X := by positivity
  have h7 : 8 * (K * X) ≤ K * (K * X) := mul_le_mul_of_nonneg_right hK h6
  have h8 : 0 ≤ K * η := by positivity
  have h9 : 8 * (K * η) ≤ K * (K * η) := mul_le_mul_of_nonneg_right hK h8
  have e1 : 9 * K * 8.02 * (1 / 2 ^ 53 * (73 * K * X + 130 * K * η) + η) =
      9 * 8.02 * 73 / 2 ^ 53 * (K * (K * X)) + 9 * 8.02 * 130 / 2 ^ 53 * (K * (K * η)) + 9 * 8.02 * (K * η) := by ring
  have e2 : K * (3 * (1 / 2 ^ 41) * X + 2 * (1 / 2 ^ 41) * (K * (4.01 * X))) =
      3 / 2 ^ 41 * (K * X) + 8.02 / 2 ^ 41 * (K * (K * X)) := by ring
  have e3 : K ^ 2 / 2 ^ 37 * (X + 2 ^ 70 * η) = 1 / 2 ^ 37 * (K * (K * X)) + 2 ^ 33 * (K * (K * η)) := by ring
  rw [e1] at h3
  rw [e2] at h5
  rw [e3]
  have h10 : 0 ≤ K * (K * X) := by positivity
  have h11 : 0 ≤ K * (K * η) := by positivity
  generalize K * (K * X) = a at *
  generalize K * (K * η) = b at *
  norm_num at *
  linarith

section run
variable {R : Type} [FArith R] {u η Ω : ℝ} {r : Rounds R u η Ω}

/-- A section whose stored coefficients are close to those of an ideal section with margin `m`. -/
theorem run_close (S : Type → Type) [StateType S R] [DelayLine R S] (hu : u ≤ 1 / 2 ^ 53) {F : Option (R → R → R → R)}
    (hfm : ∀ fma ∈ F, r.Fused fma) {b : Biquad R} {k k' : Coeffs} {x out : ℕ → R} (hrun : SecC F S b x out) (hv : r.Values b k') (h0 : k.a0 = 1) (hc : k'.Close (1 / 2 ^ 41) k) {m : ℝ} (hm : 1 / 2 ^ 24 ≤ m) (hm' : m ≤ 1 / 8)
    (h1 : 4 * m ≤ 1 + k.a1 + k.a2) (h2 : 4 * m ≤ 1 - k.a1 + k.a2) (h3 : 5 * m ≤ (1 - k.a2) ^ 2) (h3' : k.a2 < 1)
    (h4 : 0 ≤ k.a2) (hF : k.forward ≤ 4) {X : ℝ} (hx : r.Input X x) (hΩ : 2 ^ 34 * (X + η) ≤ Ω)
    {y : ℕ → ℝ} (hy : k.DiffEq (fun n => r.val (x n)) y) :
    r.Within ((1 / m) ^ 2 / 2 ^ 37 * (X + 2 ^ 70 * η)) out y := by
  have hm0 : 0 < m := lt_of_lt_of_le (by positivity) hm
  have hX : 0 ≤ X := (abs_nonneg _).trans (hx 0).2
  have hη := r.η_nonneg
  obtain ⟨c1, c1'⟩ := abs_le.1 hc.a1
  obtain ⟨c2, c2'⟩ := abs_le.1 hc.a2
  obtain ⟨c3, c3'⟩ := abs_le.1 hc.b0
  obtain ⟨c4, c4'⟩ := abs_le.1 hc.b1
  obtain ⟨c5, c5'⟩ := abs_le.1 hc.b2
  have m1 : 3 * m ≤ 1 + k'.a1 + k'.a2 := by norm_num at *; linarith
  have m2 : 3 * m ≤ 1 - k'.a1 + k'.a2 := by norm_num at *; linarith
  have hgap : 1 / 2 ^ 12 ≤ 1 - k.a2 := by
    by_contra hlt
    have : (1 - k.a2) ^ 2 ≤ (1 / 2 ^ 12) ^ 2 := pow_le_pow_left₀ (by linarith) (by linarith) 2
    norm_num at *
    linarith
  have m3 : 4 * m ≤ (1 - k'.a2) ^ 2 := by
    have e : (1 - k.a2) ^ 2 - (1 - k'.a2) ^ 2 = (k'.a2 - k.a2) * ((1 - k.a2) + (1 - k'.a2)) := by ring
    have e' : (k'.a2 - k.a2) * ((1 - k.a2) + (1 - k'.a2)) ≤ 1 / 2 ^ 41 * 3 := by
      refine mul_le_mul c2' ?_ ?_ (by positivity) <;> norm_num at * <;> linarith
    norm_num at *
    linarith
  have m4 : -(1 / 4) ≤ k'.a2 := by norm_num at *; linarith
  have hst : k.Stable := by apply Coeffs.stable_of_jury <;> rw [h0] <;> linarith
  have hst' : k'.Stable := by apply Coeffs.stable_of_jury <;> rw [hv.a0] <;> norm_num at * <;> linarith
  obtain ⟨p, q, hk⟩ := Coeffs_exists_poles h0 hst
  obtain ⟨p', q', hk'⟩ := Coeffs_exists_poles hv.a0 hst'
  have hG := poleGain_le hk hm0 (by linarith) (by linarith) (by linarith) (by linarith)
  have hG' := poleGain_le hk' hm0 m1 m2 m3 m4
  have hG0' := poleGain_pos hk'.p_lt hk'.q_lt
  have hF0 := Coeffs_forward_nonneg k'
  have hB0 := Coeffs_back_nonneg k'
  have hF' : k'.forward ≤ 4.01 := by
    have a := abs_sub_abs_le_abs_sub k'.b0 k.b0
    have b := abs_sub_abs_le_abs_sub k'.b1 k.b1
    have c := abs_sub_abs_le_abs_sub k'.b2 k.b2
    have a' := hc.b0
    have b' := hc.b1
    have c' := hc.b2
    unfold Coeffs.forward at *
    norm_num at *
    linarith
  have hB' : k'.back ≤ 3.01 := by
    have a : |k.a1| ≤ 2 := abs_le.2 ⟨by linarith, by linarith⟩
    have b : |k.a2| ≤ 1 := abs_le.2 ⟨by linarith, by linarith⟩
    have a' := abs_sub_abs_le_abs_sub k'.a1 k.a1
    have b' := abs_sub_abs_le_abs_sub k'.a2 k.a2
    have a'' := hc.a1
    have b'' := hc.a2
    unfold Coeffs.back
    norm_num at *
    linarith
  obtain ⟨K, hK⟩ : ∃ K, K = 1 / m := ⟨_, rfl⟩
  rw [← hK] at hG hG' ⊢
  have hK8 : 8 ≤ K := by rw [hK, le_div_iff₀ hm0]; linarith
  have hK24 : K ≤ 2 ^ 24 := by rw [hK, div_le_iff₀ hm0]; norm_num at *; linarith
  obtain ⟨L, hL⟩ : ∃ L, L = 1 + (k'.back + k'.forward) * K := ⟨_, rfl⟩
  obtain ⟨M, hM⟩ : ∃ M, M = 2 * L * ((1 + k'.forward) * X + 9 * η) := ⟨_, rfl⟩
  obtain ⟨hL7, hM0, hM7⟩ := close_arith1 hK8 hX hη hF0 hF' hB' hB0 hL hM
  have hroom : Room u η Ω k' p' q' X M := by
    constructor
    · refine hM7.trans (le_trans ?_ hΩ)
      have : K * X ≤ 2 ^ 24 * X := mul_le_mul_of_nonneg_right hK24 hX
      have : K * η ≤ 2 ^ 24 * η := mul_le_mul_of_nonneg_right hK24 hη
      norm_num at *
      linarith
    · have hle : 1 + (k'.back + k'.forward) * poleGain p' q' ≤ L := by
        rw [hL]
        have := mul_le_mul_of_nonneg_left hG' (add_nonneg hB0 hF0)
        linarith
      have hu18 : u * (18 * L) ≤ 1 := by
        have h5 : u * (18 * L) ≤ 1 / 2 ^ 53 * (18 * (7.2 * 2 ^ 24)) := by
          have hL0 : 0 ≤ L := by rw [hL]; positivity
          exact mul_le_mul hu (by linarith) (by positivity) (by positivity)
        refine h5.trans (by norm_num)
      refine le_trans (mul_le_mul_of_nonneg_right hle ?_) (round_arith2 hM0 hu18 hM.symm)
      have := mul_nonneg r.u_nonneg hM0
      positivity
  have hy' : ∃ y', k'.DiffEq (fun n => r.val (x n)) y' := by
    obtain ⟨y', h⟩ : ∃ y', DiffChain [k'] (fun n => r.val (x n)) y' := ⟨_, chain_diffChain [k'] _⟩
    cases h with
    | cons h1 h2 => cases h2; exact ⟨_, h1⟩
  obtain ⟨y', hy'⟩ := hy'
  have hw := section_within S r hfm hrun hv hk' hx hM0 hroom hy'
  intro n
  refine ⟨(hw n).1, ?_⟩
  have hd := diffEq_close h0 hv.a0 hk hk' hc hy hy' (fun n => (hx n).2) n
  have ht := abs_sub_le (r.val (out n)) (y' n) (y n)
  refine ht.trans ((add_le_add (hw n).2 hd).trans ?_)
  exact close_arith2 hK8 hX hη hF0 hF' hB' hB0 hG (by linarith) hG' r.u_nonneg hu hM0 hM7

end run
end Iir
