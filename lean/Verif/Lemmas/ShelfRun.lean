import Verif.Lemmas.RoundClose

/-! # A section with a gain, designed and run with rounding errors -/

namespace Iir
open FArith Spec Exec

/-- The coefficients of the recursion differ by at most `α`, the others by at most `β`. -/
structure Spec.Coeffs.Close2 (α β : ℝ) (k' k : Coeffs) : Prop where
  a1 : |k'.a1 - k.a1| ≤ α
  a2 : |k'.a2 - k.a2| ≤ α
  b0 : |k'.b0 - k.b0| ≤ β
  b1 : |k'.b1 - k.b1| ≤ β
  b2 : |k'.b2 - k.b2| ≤ β

/-- Two sections with coefficients that are close, given the same input. -/
theorem diffEq_close2 {k k' : Coeffs} {p q p' q' : ℂ} (h0 : k.a0 = 1) (h0' : k'.a0 = 1) (hk : k.StablePoles p q)
    (hk' : k'.StablePoles p' q') {α β : ℝ} (hc : k'.Close2 α β k) {x y y' : ℕ → ℝ} (h : k.DiffEq x y) (h' : k'.DiffEq x y')
    {X : ℝ} (hx : ∀ n, |x n| ≤ X) (n : ℕ) :
    |y' n - y n| ≤ poleGain p q * (3 * β * X + 2 * α * (poleGain p' q' * (k'.forward * X))) := by
  have hy := diffEq_bound h0' hk' h' hx
  have hα : 0 ≤ α := (abs_nonneg _).trans hc.a1
  have hβ : 0 ≤ β := (abs_nonneg _).trans hc.b0
  have hX : 0 ≤ X := (abs_nonneg _).trans (hx 0)
  generalize poleGain p' q' * (k'.forward * X) = Y at *
  refine deviation (StablePoles_gain hk) h0 h (fun n => ?_) n
  have e := h' n
  rw [h0', _root_.div_one] at e
  have key : ∀ {c v V δ : ℝ}, 0 ≤ δ → |c| ≤ δ → |v| ≤ V → |c * v| ≤ δ * V := fun {c v V δ} hδ hc hv => by
    rw [abs_mul]; exact mul_le_mul hc hv (abs_nonneg _) hδ
  have t0 := key hβ hc.b0 (hx n)
  have t1 := key hβ hc.b1 (delayed_bound hx 1 n)
  have t2 := key hβ hc.b2 (delayed_bound hx 2 n)
  have t3 := key hα hc.a1 (delayed_bound hy 1 n)
  have t4 := key hα hc.a2 (delayed_bound hy 2 n)
  have e2 : y' n + k.a1 * delayed 1 y' n + k.a2 * delayed 2 y' n -
      (k.b0 * x n + k.b1 * delayed 1 x n + k.b2 * delayed 2 x n) =
      (k'.b0 - k.b0) * x n + (k'.b1 - k.b1) * delayed 1 x n + (k'.b2 - k.b2) * delayed 2 x n -
        (k'.a1 - k.a1) * delayed 1 y' n - (k'.a2 - k.a2) * delayed 2 y' n := by
    linear_combination e
  rw [e2]
  rw [abs_le] at *
  constructor <;> linarith

theorem gain_arith1 {K F B X η M L g : ℝ} (hK : 8 ≤ K) (hX : 0 ≤ X) (hη : 0 ≤ η) (hg : 1 ≤ g) (hF0 : 0 ≤ F) (hF : F ≤ 4.01 * g)
    (hB : B ≤ 3.01) (hB0 : 0 ≤ B) (hL : L = 1 + (B + F) * K) (hM : M = 2 * L * ((1 + F) * X + 9 * η)) :
    L ≤ 7.2 * (g * K) ∧ 0 ≤ M ∧ M ≤ 73 * (g ^ 2 * (K * X)) + 130 * (g * (K * η)) := by
  have hgK : K ≤ g * K := by nlinarith
  have hL' : L ≤ 7.2 * (g * K) := by
    rw [hL]
    have : (B + F) * K ≤ (3.01 + 4.01 * g) * K := mul_le_mul_of_nonneg_right (by linarith) (by linarith)
    linarith
  have hL0 : 0 ≤ L := by rw [hL]; positivity
  refine ⟨hL', by rw [hM]; positivity, ?_⟩
  rw [hM]
  have h1 : (1 + F) * X + 9 * η ≤ 5.01 * g * X + 9 * η :=
    add_le_add (mul_le_mul_of_nonneg_right (by linarith) hX) le_rfl
  have h2 : 0 ≤ 5.01 * g * X + 9 * η := by positivity
  calc 2 * L * ((1 + F) * X + 9 * η) ≤ 2 * L * (5.01 * g * X + 9 * η) := mul_le_mul_of_nonneg_left h1 (by positivity)
    _ ≤ 2 * (7.2 * (g * K)) * (5.01 * g * X + 9 * η) := mul_le_mul_of_nonneg_right (by linarith) h2
    _ ≤ _ := by
      have n1 : 0 ≤ g ^ 2 * (K * X) := by positivity
      have n2 : 0 ≤ g * (K * η) := by positivity
      have e : 2 * (7.2 * (g * K)) * (5.01 * g * X + 9 * η) = 14.4 * 5.01 * (g ^ 2 * (K * X)) + 129.6 * (g * (K * η)) := by ring
      rw [e]
      generalize g ^ 2 * (K * X) = a at *
      generalize g * (K * η) = b at *
      norm_num at *
      linarith

theorem gain_arith2 {K F B X η M u G G' γ : ℝ} (hK : 8 ≤ K) (hX : 0 ≤ X) (hη : 0 ≤ η) (hγ : 1 ≤ γ) (hγ' : γ ≤ 4) (hF0 : 0 ≤ F)
    (hF : F ≤ 4.01 * γ ^ 2)
    (hB : B ≤ 3.01) (hB0 : 0 ≤ B) (hG : G ≤ K) (hG0' : 0 ≤ G') (hG' : G' ≤ K) (hu0 : 0 ≤ u)
    (hu : u ≤ 1 / 2 ^ 53) (hM0 : 0 ≤ M) (hM : M ≤ 73 * ((γ ^ 2) ^ 2 * (K * X)) + 130 * (γ ^ 2 * (K * η))) :
    9 * G' * (1 + B + F) * (u * M + η) + G * (3 * (γ ^ 5 / 2 ^ 40) * X + 2 * (γ ^ 3 / 2 ^ 40) * (G' * (F * X))) ≤
      γ ^ 5 * K ^ 2 / 2 ^ 36 * (X + 2 ^ 70 * η) := by
  have h1 : u * M + η ≤ 1 / 2 ^ 53 * (73 * ((γ ^ 2) ^ 2 * (K * X)) + 130 * (γ ^ 2 * (K * η))) + η :=
    add_le_add (mul_le_mul hu hM hM0 (by positivity)) le_rfl
  have hγ2 : 1 ≤ γ ^ 2 := one_le_pow₀ hγ
  have h2 : 9 * G' * (1 + B + F) ≤ 9 * K * (8.02 * γ ^ 2) := by
    refine mul_le_mul (by linarith) (by linarith) (by positivity) (by linarith)
  have h3 := mul_le_mul h2 h1 (by positivity) (by positivity)
  have h4 : G' * (F * X) ≤ K * (4.01 * γ ^ 2 * X) :=
    mul_le_mul hG' (mul_le_mul_of_nonneg_right hF hX) (by positivity) (by linarith)
  have h5 : G * (3 * (γ ^ 5 / 2 ^ 40) * X + 2 * (γ ^ 3 / 2 ^ 40) * (G' * (F * X))) ≤
      K * (3 * (γ ^ 5 / 2 ^ 40) * X + 2 * (γ ^ 3 / 2 ^ 40) * (K * (4.01 * γ ^ 2 * X))) := by
    refine mul_le_mul hG ?_ (by positivity) (by linarith)
    exact add_le_add le_rfl (mul_le_mul_of_nonneg_left h4 (by positivity))
  obtain ⟨a, ea⟩ : ∃ a, a = γ ^ 5 * (K * (K * X)) := ⟨_, rfl⟩
  obtain ⟨b, eb⟩ : ∃ b, b = γ ^ 5 * (K * (K * η)) := ⟨_, rfl⟩
  have hp4 : γ ^ 4 ≤ γ ^ 5 := pow_le_pow_right₀ hγ (by norm_num)
  have hp2 : γ ^ 2 ≤ γ ^ 5 := pow_le_pow_right₀ hγ (by norm_num)
  have hp6 : γ ^ 6 ≤ 4 * γ ^ 5 := by
    rw [pow_succ γ 5, mul_comm]; exact mul_le_mul_of_nonneg_right hγ' (by positivity)
  have k1 : γ ^ 6 * (K * (K * X)) ≤ 4 * a := by
    rw [ea, ← mul_assoc 4]; exact mul_le_mul_of_nonneg_right hp6 (by positivity)
  have k2 : γ ^ 4 * (K * (K * η)) ≤ b := by rw [eb]; exact mul_le_mul_of_nonneg_right hp4 (by positivity)
  have k3 : 8 * (γ ^ 2 * (K * η)) ≤ b := by
    have : 8 * (K * η) ≤ K * (K * η) := mul_le_mul_of_nonneg_right hK (by positivity)
    rw [eb]
    calc 8 * (γ ^ 2 * (K * η)) = γ ^ 2 * (8 * (K * η)) := by ring
      _ ≤ γ ^ 5 * (K * (K * η)) := mul_le_mul hp2 this (by positivity) (by positivity)
  have k4 : 8 * (γ ^ 5 * (K * X)) ≤ a := by
    have : 8 * (K * X) ≤ K * (K * X) := mul_le_mul_of_nonneg_right hK (by positivity)
    rw [ea]
    calc 8 * (γ ^ 5 * (K * X)) = γ ^ 5 * (8 * (K * X)) := by ring
      _ ≤ γ ^ 5 * (K * (K * X)) := mul_le_mul_of_nonneg_left this (by positivity)
  have a0 : 0 ≤ a := by rw [ea]; positivity
  have b0 : 0 ≤ b := by rw [eb]; positivity
  have e1 : 9 * K * (8.02 * γ ^ 2) * (1 / 2 ^ 53 * (73 * ((γ ^ 2) ^ 2 * (K * X)) + 130 * (γ ^ 2 * (K * η))) + η) =
      9 * 8.02 * 73 / 2 ^ 53 * (γ ^ 6 * (K * (K * X))) + 9 * 8.02 * 130 / 2 ^ 53 * (γ ^ 4 * (K * (K * η))) +
        9 * 8.02 * (γ ^ 2 * (K * η)) := by ring
  have e2 : K * (3 * (γ ^ 5 / 2 ^ 40) * X + 2 * (γ ^ 3 / 2 ^ 40) * (K * (4.01 * γ ^ 2 * X))) =
      3 / 2 ^ 40 * (γ ^ 5 * (K * X)) + 8.02 / 2 ^ 40 * a := by rw [ea]; ring
  have e3 : γ ^ 5 * K ^ 2 / 2 ^ 36 * (X + 2 ^ 70 * η) = 1 / 2 ^ 36 * a + 2 ^ 34 * b := by rw [ea, eb]; ring
  rw [e1] at h3
  rw [e2] at h5
  rw [e3]
  generalize γ ^ 6 * (K * (K * X)) = x1 at *
  generalize γ ^ 4 * (K * (K * η)) = x2 at *
  generalize γ ^ 2 * (K * η) = x3 at *
  generalize γ ^ 5 * (K * X) = x4 at *
  clear h1 h2 h4 e1 e2 e3 hp2 hp4 hp6 hM ea eb hF hγ2
  norm_num at *
  linarith

section run
variable {R : Type} [FArith R] {u η Ω : ℝ} {r : Rounds R u η Ω}

/-- A section whose stored coefficients are close to those of an ideal section with margin `m` and gain up to `γ²`. -/
theorem run_gain (S : Type → Type) [StateType S R] [DelayLine R S] (hu : u ≤ 1 / 2 ^ 53) {F : Option (R → R → R → R)}
    (hfm : ∀ fma ∈ F, r.Fused fma) {b : Biquad R} {k k' : Coeffs} {x out : ℕ → R} (hrun : SecC F S b x out) (hv : r.Values b k')
    (h0 : k.a0 = 1) {γ : ℝ} (hγ : 1 ≤ γ) (hγ' : γ ≤ 4) (hc : k'.Close2 (γ ^ 3 / 2 ^ 40) (γ ^ 5 / 2 ^ 40) k) {m : ℝ}
    (hm : 1 / 2 ^ 24 ≤ m) (hm' : m ≤ 1 / 8)
    (h1 : 4 * m ≤ 1 + k.a1 + k.a2) (h2 : 4 * m ≤ 1 - k.a1 + k.a2) (h3 : 5 * m ≤ (1 - k.a2) ^ 2) (h3' : k.a2 < 1)
    (h4 : 0 ≤ k.a2) (hF : k.forward ≤ 4 * γ ^ 2) {X : ℝ} (hx : r.Input X x) (hΩ : 2 ^ 40 * (X + η) ≤ Ω)
    {y : ℕ → ℝ} (hy : k.DiffEq (fun n => r.val (x n)) y) :
    r.Within (γ ^ 5 * (1 / m) ^ 2 / 2 ^ 36 * (X + 2 ^ 70 * η)) out y := by
  have hm0 : 0 < m := lt_of_lt_of_le (by positivity) hm
  have hX : 0 ≤ X := (abs_nonneg _).trans (hx 0).2
  have hη := r.η_nonneg
  have p2 : 1 ≤ γ ^ 2 := one_le_pow₀ hγ
  have p2' : γ ^ 2 ≤ 4 ^ 2 := pow_le_pow_left₀ (by linarith) hγ' 2
  have p3 : γ ^ 3 / 2 ^ 40 ≤ 1 / 2 ^ 34 := by
    have : γ ^ 3 ≤ 4 ^ 3 := pow_le_pow_left₀ (by linarith) hγ' 3
    norm_num at *
    linarith
  have p5 : γ ^ 5 / 2 ^ 40 ≤ 1 / 2 ^ 30 := by
    have : γ ^ 5 ≤ 4 ^ 5 := pow_le_pow_left₀ (by linarith) hγ' 5
    norm_num at *
    linarith
  obtain ⟨c1, c1'⟩ := abs_le.1 (hc.a1.trans p3)
  obtain ⟨c2, c2'⟩ := abs_le.1 (hc.a2.trans p3)
  obtain ⟨c3, c3'⟩ := abs_le.1 (hc.b0.trans p5)
  obtain ⟨c4, c4'⟩ := abs_le.1 (hc.b1.trans p5)
  obtain ⟨c5, c5'⟩ := abs_le.1 (hc.b2.trans p5)
  have m1 : 3 * m ≤ 1 + k'.a1 + k'.a2 := by norm_num at c1 c2 hm; linarith
  have m2 : 3 * m ≤ 1 - k'.a1 + k'.a2 := by norm_num at c1' c2 hm; linarith
  have hgap : 1 / 2 ^ 12 ≤ 1 - k.a2 := by
    by_contra hlt
    have : (1 - k.a2) ^ 2 ≤ (1 / 2 ^ 12) ^ 2 := pow_le_pow_left₀ (by linarith) (by linarith) 2
    norm_num at this hm
    linarith
  have m3 : 4 * m ≤ (1 - k'.a2) ^ 2 := by
    have e : (1 - k.a2) ^ 2 - (1 - k'.a2) ^ 2 = (k'.a2 - k.a2) * ((1 - k.a2) + (1 - k'.a2)) := by ring
    have e' : (k'.a2 - k.a2) * ((1 - k.a2) + (1 - k'.a2)) ≤ 1 / 2 ^ 34 * 3 := by
      refine mul_le_mul c2' ?_ ?_ (by positivity) <;> norm_num at c2 c2' hgap <;> linarith
    norm_num at e' hm
    linarith
  have m4 : -(1 / 4) ≤ k'.a2 := by norm_num at c2; linarith
  have hst : k.Stable := by apply Coeffs.stable_of_jury <;> rw [h0] <;> linarith
  have hst' : k'.Stable := by
    apply Coeffs.stable_of_jury <;> rw [hv.a0] <;> norm_num at c2' hgap <;> linarith
  obtain ⟨p, q, hk⟩ := Coeffs_exists_poles h0 hst
  obtain ⟨p', q', hk'⟩ := Coeffs_exists_poles hv.a0 hst'
  have hG := poleGain_le hk hm0 (by linarith) (by linarith) (by linarith) (by linarith)
  have hG' := poleGain_le hk' hm0 m1 m2 m3 m4
  have hG0' := poleGain_pos hk'.p_lt hk'.q_lt
  have hF0 := Coeffs_forward_nonneg k'
  have hB0 := Coeffs_back_nonneg k'
  have hF' : k'.forward ≤ 4.01 * γ ^ 2 := by
    have a := abs_sub_abs_le_abs_sub k'.b0 k.b0
    have b := abs_sub_abs_le_abs_sub k'.b1 k.b1
    have c := abs_sub_abs_le_abs_sub k'.b2 k.b2
    have a' := hc.b0.trans p5
    have b' := hc.b1.trans p5
    have c' := hc.b2.trans p5
    unfold Coeffs.forward at *
    norm_num at a' b' c' ⊢
    linarith
  have hB' : k'.back ≤ 3.01 := by
    have a : |k.a1| ≤ 2 := abs_le.2 ⟨by linarith, by linarith⟩
    have b : |k.a2| ≤ 1 := abs_le.2 ⟨by linarith, by linarith⟩
    have a' := abs_sub_abs_le_abs_sub k'.a1 k.a1
    have b' := abs_sub_abs_le_abs_sub k'.a2 k.a2
    have a'' := hc.a1.trans p3
    have b'' := hc.a2.trans p3
    unfold Coeffs.back
    norm_num at a'' b'' ⊢
    linarith
  obtain ⟨K, hK⟩ : ∃ K, K = 1 / m := ⟨_, rfl⟩
  rw [← hK] at hG hG' ⊢
  have hK8 : 8 ≤ K := by rw [hK, le_div_iff₀ hm0]; linarith
  have hK24 : K ≤ 2 ^ 24 := by rw [hK, div_le_iff₀ hm0]; norm_num at hm ⊢; linarith
  obtain ⟨L, hL⟩ : ∃ L, L = 1 + (k'.back + k'.forward) * K := ⟨_, rfl⟩
  obtain ⟨M, hM⟩ : ∃ M, M = 2 * L * ((1 + k'.forward) * X + 9 * η) := ⟨_, rfl⟩
  obtain ⟨hL7, hM0, hM7⟩ := gain_arith1 hK8 hX hη p2 hF0 hF' hB' hB0 hL hM
  have hgK : γ ^ 2 * K ≤ 4 ^ 2 * 2 ^ 24 := mul_le_mul p2' hK24 (by linarith) (by norm_num)
  have hroom : Room u η Ω k' p' q' X M := by
    constructor
    · refine hM7.trans (le_trans ?_ hΩ)
      have i1 : (γ ^ 2) ^ 2 * (K * X) ≤ 2 ^ 32 * X := by
        have : (γ ^ 2) ^ 2 * (K * X) = γ ^ 2 * (γ ^ 2 * K) * X := by ring
        rw [this]
        refine mul_le_mul_of_nonneg_right ((mul_le_mul p2' hgK (by positivity) (by norm_num)).trans (by norm_num)) hX
      have i2 : γ ^ 2 * (K * η) ≤ 2 ^ 28 * η := by
        rw [← mul_assoc]; exact mul_le_mul_of_nonneg_right (hgK.trans (by norm_num)) hη
      norm_num at i1 i2 ⊢
      linarith
    · have hle : 1 + (k'.back + k'.forward) * poleGain p' q' ≤ L := by
        rw [hL]
        have := mul_le_mul_of_nonneg_left hG' (add_nonneg hB0 hF0)
        linarith
      have hu18 : u * (18 * L) ≤ 1 := by
        have h5 : u * (18 * L) ≤ 1 / 2 ^ 53 * (18 * (7.2 * (4 ^ 2 * 2 ^ 24))) := by
          have hL0 : 0 ≤ L := by rw [hL]; positivity
          exact mul_le_mul hu (by linarith) (by positivity) (by positivity)
        refine h5.trans (by norm_num)
      refine le_trans (mul_le_mul_of_nonneg_right hle ?_) (round_arith2 hM0 hu18 hM.symm)
      have := mul_nonneg r.u_nonneg hM0
      positivity
  have hy' : ∃ y', k'.DiffEq (fun n => r.val (x n)) y' := by
    obtain ⟨y', h⟩ : ∃ y', DiffChain [k'] (fun n => r.val (x n)) y' := ⟨_, chain_diffChain [k'] _⟩
    cases h with
    | cons h1 h2 => cases h2; exact ⟨_, h1⟩
  obtain ⟨y', hy'⟩ := hy'
  have hw := section_within S r hfm hrun hv hk' hx hM0 hroom hy'
  intro n
  refine ⟨(hw n).1, ?_⟩
  have hd := diffEq_close2 h0 hv.a0 hk hk' hc hy hy' (fun n => (hx n).2) n
  have ht := abs_sub_le (r.val (out n)) (y' n) (y n)
  refine ht.trans ((add_le_add (hw n).2 hd).trans ?_)
  exact gain_arith2 hK8 hX hη hγ hγ' hF0 hF' hB' hB0 hG (by linarith) hG' r.u_nonneg hu hM0 hM7

end run
end Iir
