import Verif.Lemmas.RoundStages
import Verif.Lemmas.RoundAt

/-! # Sections with given poles and zeros in floating point arithmetic -/

namespace Iir
open FArith Spec Cx Biquad Exec

variable {R : Type} [FArith R] {u η Ω : ℝ} {r : Rounds R u η Ω}

/-- `setCoefficients` with `a0 = b0 = 1`, and `applyScale`. -/
theorem stored_scaled (ha : r.Accurate) {a1 a2 b1 b2 s : R} {A1 A2 B1 B2 : ℝ} (h1 : r.At a1 A1 (1 / 2 ^ 43))
    (h2 : r.At a2 A2 (1 / 2 ^ 43)) (h3 : r.At b1 B1 (1 / 2 ^ 42)) (h4 : r.At b2 B2 (1 / 2 ^ 42)) (v1 : |A1| ≤ 3) (v2 : |A2| ≤ 3)
    (w1 : |B1| ≤ 3) (w2 : |B2| ≤ 3) (hs : r.Fin s) (s1 : 1 / 2 ^ 100 ≤ |r.val s|) (s2 : |r.val s| ≤ 2 ^ 100) (b : Biquad R) :
    ∃ b' k', (setCoefficients 1 a1 a2 1 b1 b2 >>= fun _ => applyScale s) b = (.ok (), b') ∧ r.Values b' k' ∧
      Nearby (1 / 2 ^ 41) (1 / 2 ^ 39) k' ⟨1, A1, A2, r.val s, r.val s * B1, r.val s * B2⟩ := by
  have hone := At.one ha (r := r)
  have quot : ∀ {x : R} {v δ : ℝ}, r.At x v δ → |v| ≤ 3 → δ ≤ 1 / 2 ^ 42 → r.At (x / 1) v (δ + 1 / 2 ^ 50) := by
    intro x v δ hx hv hδ
    have := At.div ha hx hone (V := 3) (e := δ) (ω := 1) (γ := δ + 1 / 2 ^ 50) le_rfl (by norm_num) (by rwa [div_one])
      (by linarith) (by norm_num at *; linarith) (by norm_num at *; linarith)
    rwa [div_one] at this
  have scal : ∀ {x : R} {v : ℝ}, r.At x v (1.1 / 2 ^ 42) → |v| ≤ 3 → r.Fin (x * s) ∧ |r.val (x * s) - r.val s * v| ≤ |r.val s| * (1 / 2 ^ 41) := by
    intro x v hx hv
    have hS := abs_nonneg (r.val s)
    have hxv : |r.val x| ≤ 4 := by
      have := hx.2
      have := abs_sub_abs_le_abs_sub (r.val x) v
      norm_num at *
      linarith
    obtain ⟨f, e⟩ := raw_mul ha hx.1 hs (M := 4 * |r.val s|) (by rw [abs_mul]; exact mul_le_mul_of_nonneg_right hxv hS)
      (le_trans (mul_le_mul_of_nonneg_left s2 (by norm_num)) (by norm_num))
    refine ⟨f, ?_⟩
    have e2 : |r.val x * r.val s - r.val s * v| ≤ |r.val s| * (1.1 / 2 ^ 42) := by
      rw [show r.val x * r.val s - r.val s * v = r.val s * (r.val x - v) by ring, abs_mul]
      exact mul_le_mul_of_nonneg_left hx.2 hS
    have e3 := abs_sub_le (r.val (x * s)) (r.val x * r.val s) (r.val s * v)
    norm_num at *
    linarith
  have weak : ∀ {x : R} {v δ γ : ℝ}, r.At x v δ → δ ≤ γ → r.At x v γ := fun h hle => ⟨h.1, h.2.trans hle⟩
  obtain ⟨c1, d1⟩ := quot h1 v1 (by norm_num)
  obtain ⟨c2, d2⟩ := quot h2 v2 (by norm_num)
  obtain ⟨c0, d0⟩ := scal (v := 1) (weak (quot hone (by norm_num) (by norm_num)) (by norm_num)) (by norm_num)
  obtain ⟨c3, d3⟩ := scal (weak (quot h3 w1 le_rfl) (by norm_num)) w1
  obtain ⟨c4, d4⟩ := scal (weak (quot h4 w2 le_rfl) (by norm_num)) w2
  refine ⟨{ a0 := 1, a1 := a1 / 1, a2 := a2 / 1, b0 := 1 / 1 * s, b1 := b1 / 1 * s, b2 := b2 / 1 * s },
    ⟨1, r.val (a1 / 1), r.val (a2 / 1), r.val (1 / 1 * s), r.val (b1 / 1 * s), r.val (b2 / 1 * s)⟩, ?_,
    ⟨rfl, ⟨c1, rfl⟩, ⟨c2, rfl⟩, ⟨c0, rfl⟩, ⟨c3, rfl⟩, ⟨c4, rfl⟩⟩, rfl, rfl, d1.trans (by norm_num), d2.trans (by norm_num), ?_⟩
  · have n := ha.not_nan
    simp [bind_def, setCoefficients, Exec.throwIf, n _ h1.1, n _ h2.1, n _ hone.1, n _ h3.1, n _ h4.1, applyScale]
  · rw [mul_one] at d0
    have hF : |r.val s| ≤ Coeffs.forward ⟨1, A1, A2, r.val s, r.val s * B1, r.val s * B2⟩ := by
      unfold Coeffs.forward
      have := abs_nonneg (r.val s * B1)
      have := abs_nonneg (r.val s * B2)
      simp only
      linarith
    have hS := abs_nonneg (r.val s)
    simp only
    norm_num at *
    linarith

/-- Running such a section. -/
theorem custom_run (hl : r.Library) (S : Type → Type) [StateType S R] [DelayLine R S] {F : Option (R → R → R → R)}
    (hfm : ∀ fma ∈ F, r.Fused fma) {b : Biquad R} {k k' : Coeffs} {x out : ℕ → R} (hrun : SecC F S b x out) (hv : r.Values b k')
    {K : ℝ} (hg : GainBound k K) (hn : Nearby (1 / 2 ^ 41) (1 / 2 ^ 39) k' k) (hK : K ≤ 2 ^ 38) (hF1 : 1 / 2 ^ 100 ≤ k.forward)
    (hF2 : k.forward ≤ 2 ^ 110) (hB : k.back ≤ 3) {X : ℝ} (hx : r.Input X x) (hlo : 1 / 2 ^ 400 ≤ X) (hhi : X ≤ 2 ^ 400)
    {y : ℕ → ℝ} (hy : k.DiffEq (fun n => r.val (x n)) y) : r.Within (K ^ 2 * k.forward / 2 ^ 37 * X) out y := by
  have hG0 := hg.pos
  have hG1 := hg.one_le
  have hF0 := Coeffs_forward_nonneg k
  have hX : 0 ≤ X := le_trans (by positivity) hlo
  have hη := tiny_le hl (n := 940) (by norm_num)
  have hη0 := r.η_nonneg
  have key : ∀ {f : ℝ}, 1 / 2 ^ 100 ≤ f → 2 ^ 4 * (1 / 2 ^ 940 : ℝ) ≤ (1 / 2 ^ 60) * (f * X) := by
    intro f hf
    have h1 : (1 : ℝ) / 2 ^ 100 * (1 / 2 ^ 400) ≤ f * X := mul_le_mul hf hlo (by positivity) (le_trans (by positivity) hf)
    refine le_trans ?_ (mul_le_mul_of_nonneg_left h1 (by positivity))
    rw [one_div_mul_one_div, one_div_mul_one_div, ← pow_add, ← pow_add, mul_one_div,
      div_le_div_iff₀ (by positivity) (by positivity), one_mul, ← pow_add]
    exact pow_le_pow_right₀ (by norm_num) (by norm_num)
  have k1 := key hF1
  have k2 := key (f := 1) (by rw [div_le_one (by positivity)]; exact one_le_pow₀ (by norm_num))
  rw [one_mul] at k2
  have w := section_nearby S (r.coarse hl.u_le) (fun fma h => (hfm fma h).coarse hl.u_le) hrun (b := b) (k' := k') (k := k)
    ⟨hv.a0, hv.a1, hv.a2, hv.b0, hv.b1, hv.b2⟩ hg hn (by norm_num at hK ⊢; linarith) (by norm_num) (by norm_num) hB hx
    (by norm_num at hK ⊢; linarith) ?_ ?_ ?_ hy
  · intro n
    refine ⟨(w n).1, (w n).2.trans (mul_le_mul_of_nonneg_right ?_ hX)⟩
    have e1 : 4 * (1 / 2 ^ 41 * K) + 2 * (1 / 2 ^ 39) + 560 * (1 / 2 ^ 53 * K) ≤ K / 2 ^ 37 := by norm_num; linarith
    calc K * k.forward * (4 * (1 / 2 ^ 41 * K) + 2 * (1 / 2 ^ 39) + 560 * (1 / 2 ^ 53 * K)) ≤ K * k.forward * (K / 2 ^ 37) :=
          mul_le_mul_of_nonneg_left e1 (by positivity)
      _ = K ^ 2 * k.forward / 2 ^ 37 := by ring
  · have : 0 ≤ k.forward * X := by positivity
    generalize k.forward * X = Y at *
    generalize (1 : ℝ) / 2 ^ 940 = Z at *
    clear key hlo hhi hF1 hF2
    norm_num at *
    linarith
  · generalize (1 : ℝ) / 2 ^ 940 = Z at *
    clear key hlo hhi hF1 hF2
    norm_num at *
    linarith
  · have h1 : (1 + 2 * k.forward) * X ≤ 2 ^ 112 * 2 ^ 400 := mul_le_mul (by norm_num at *; linarith) hhi hX (by positivity)
    have h2 : K * ((1 + 2 * k.forward) * X) ≤ 2 ^ 38 * (2 ^ 112 * 2 ^ 400) := mul_le_mul hK h1 (by positivity) (by positivity)
    refine le_trans ?_ hl.Ω_huge
    calc 12 * (K * ((1 + 2 * k.forward) * X)) ≤ 2 ^ 4 * (2 ^ 38 * (2 ^ 112 * 2 ^ 400)) :=
          mul_le_mul (by norm_num) h2 (by positivity) (by positivity)
      _ = 2 ^ 554 := by rw [← pow_add, ← pow_add, ← pow_add]
      _ ≤ 2 ^ 1000 := pow_le_pow_right₀ (by norm_num) (by norm_num)

/-- A pair of conjugate roots given in polar coordinates. -/
theorem polar_pair (hl : r.Library) (e : Err) {ρ θ : R} (hρ : r.Fin ρ) (hθ : r.Fin θ) (h0 : 0 ≤ r.val ρ) (h1 : r.val ρ ≤ 3 / 2) :
    ∃ z a, polarC ρ θ = .ok z ∧ pairCoeffs e z (conj z) = .ok a ∧
      r.At a.1 (-(2 * r.val ρ * Real.cos (r.val θ))) (2 * r.val ρ / 2 ^ 45 + 1.1 / 2 ^ 48) ∧
      r.At a.2 (r.val ρ ^ 2) (2.01 * r.val ρ ^ 2 / 2 ^ 45 + 1.1 / 2 ^ 48) := by
  obtain ⟨z, hz, hf, hd⟩ := hl.polar ρ θ hρ hθ h0 (h1.trans ((by norm_num : (3 / 2 : ℝ) ≤ 2 ^ 1).trans (pow_le_pow_right₀ (by norm_num) (by norm_num))))
  have hη : 16 * η ≤ 1 / 2 ^ 60 := by
    have := tiny_le hl (n := 64) (by norm_num)
    norm_num at *
    linarith
  have hd' : ‖r.cval z - r.val ρ * Complex.exp (r.val θ * Complex.I)‖ ≤ r.val ρ / 2 ^ 45 + 1 / 2 ^ 60 := by linarith
  have hw : ‖(r.val ρ : ℂ) * Complex.exp (r.val θ * Complex.I)‖ = r.val ρ := by
    rw [norm_mul, Complex.norm_exp_ofReal_mul_I, mul_one, Complex.norm_real, Real.norm_of_nonneg h0]
  have hre : ((r.val ρ : ℂ) * Complex.exp (r.val θ * Complex.I)).re = r.val ρ * Real.cos (r.val θ) := by
    rw [Complex.re_ofReal_mul, Complex.exp_ofReal_mul_I_re]
  generalize (r.val ρ : ℂ) * Complex.exp (r.val θ * Complex.I) = w at *
  have e1 : |r.val z.re - r.val ρ * Real.cos (r.val θ)| ≤ r.val ρ / 2 ^ 45 + 1 / 2 ^ 60 := by
    have := (Complex.abs_re_le_norm (r.cval z - w)).trans hd'
    rwa [Complex.sub_re, hre, cval_re] at this
  have e2 : |‖r.cval z‖ - r.val ρ| ≤ r.val ρ / 2 ^ 45 + 1 / 2 ^ 60 := by
    have := (abs_norm_sub_norm_le (r.cval z) w).trans hd'
    rwa [hw] at this
  have e3 : r.val z.re ^ 2 + r.val z.im ^ 2 = ‖r.cval z‖ ^ 2 := by
    rw [← Complex.normSq_eq_norm_sq, Complex.normSq_apply, cval_re, cval_im]; ring
  generalize r.val ρ = p at *
  have hN := norm_nonneg (r.cval z)
  generalize ‖r.cval z‖ = N at *
  have e4 : |N ^ 2 - p ^ 2| ≤ 2.01 * p ^ 2 / 2 ^ 45 + 0.05 / 2 ^ 48 := by
    have e5 := abs_le.1 e2
    have : |N ^ 2 - p ^ 2| = |N - p| * (N + p) := by
      rw [show N ^ 2 - p ^ 2 = (N - p) * (N + p) by ring, abs_mul, abs_of_nonneg (add_nonneg hN h0)]
    rw [this]
    have h5 : N + p ≤ 2 * p + p / 2 ^ 45 + 1 / 2 ^ 60 := by linarith
    refine (mul_le_mul e2 h5 (by positivity) (by positivity)).trans ?_
    norm_num
    nlinarith
  obtain ⟨a, ea, f1, f2, g1, g2⟩ := pairCoeffs_near hl e hf (by
    rw [e3]
    have := abs_le.1 e4
    norm_num at *
    nlinarith)
  refine ⟨z, a, ?_, ea, ⟨f1, ?_⟩, f2, ?_⟩
  · unfold polarC; rw [hz]
  · rw [abs_le] at *
    norm_num at *
    constructor <;> linarith
  · rw [e3] at g2
    have := abs_sub_le (r.val a.2) (N ^ 2) (p ^ 2)
    norm_num at *
    linarith

end Iir
