import Verif.Lemmas.RoundClose
import Verif.Spec.Accuracy

/-! # Absolute errors of the RBJ formulas -/

namespace Iir
open FArith Spec Exec

variable {R : Type} [FArith R] {u η Ω : ℝ} {r : Rounds R u η Ω} {x y : R} {v w δ ε γ : ℝ}

/-- `x` is finite and within `δ` of `v`. -/
def Spec.Rounds.At (r : Rounds R u η Ω) (x : R) (v δ : ℝ) : Prop := r.Fin x ∧ |r.val x - v| ≤ δ

theorem At.mono (h : r.At x v δ) (hd : δ ≤ γ) : r.At x v γ := ⟨h.1, h.2.trans hd⟩

theorem At.nonneg (h : r.At x v δ) : 0 ≤ δ := (abs_nonneg _).trans h.2

theorem At.exact (h : r.Fin x) : r.At x (r.val x) 0 := ⟨h, by simp⟩

section ops
variable (ha : r.Accurate)
include ha

theorem At.one : r.At (1 : R) 1 0 := ⟨(In.one ha).1, by
  rw [le_antisymm (In.one ha).2.2 (In.one ha).2.1]; simp⟩

theorem At.two : r.At (2 : R) 2 0 := ⟨(In.two ha).1, by
  rw [le_antisymm (In.two ha).2.2 (In.two ha).2.1]; simp⟩

theorem At.zero : r.At (0 : R) 0 0 := by
  have h := In.lit ha (r := r) 0 (by norm_num)
  exact ⟨h.1, by rw [le_antisymm h.2.2 h.2.1]; simp⟩

theorem At.neg (h : r.At x v δ) : r.At (-x) (-v) δ := by
  obtain ⟨h1, h2⟩ := ha.neg x h.1
  refine ⟨h1, ?_⟩
  rw [h2, neg_sub_neg, abs_sub_comm]
  exact h.2

theorem At.negTwo : r.At (-2 : R) (-2) 0 := At.neg ha (At.two ha)

theorem At.add (hx : r.At x v δ) (hy : r.At y w ε) {M : ℝ} (hM : |v + w| ≤ M) (hM' : M + δ + ε ≤ 2 ^ 200)
    (hγ : δ + ε + (M + δ + ε) / 2 ^ 53 + 1 / 2 ^ 200 ≤ γ) : r.At (x + y) (v + w) γ := by
  obtain ⟨a1, a2⟩ := abs_le.1 hx.2
  obtain ⟨b1, b2⟩ := abs_le.1 hy.2
  obtain ⟨c1, c2⟩ := abs_le.1 hM
  obtain ⟨h1, h2⟩ := raw_add ha hx.1 hy.1 (M := M + δ + ε) (abs_le.2 ⟨by linarith, by linarith⟩) hM'
  obtain ⟨d1, d2⟩ := abs_le.1 h2
  exact ⟨h1, abs_le.2 ⟨by linarith, by linarith⟩⟩

theorem At.sub (hx : r.At x v δ) (hy : r.At y w ε) {M : ℝ} (hM : |v - w| ≤ M) (hM' : M + δ + ε ≤ 2 ^ 200)
    (hγ : δ + ε + (M + δ + ε) / 2 ^ 53 + 1 / 2 ^ 200 ≤ γ) : r.At (x - y) (v - w) γ := by
  obtain ⟨a1, a2⟩ := abs_le.1 hx.2
  obtain ⟨b1, b2⟩ := abs_le.1 hy.2
  obtain ⟨c1, c2⟩ := abs_le.1 hM
  obtain ⟨h1, h2⟩ := raw_sub ha hx.1 hy.1 (M := M + δ + ε) (abs_le.2 ⟨by linarith, by linarith⟩) hM'
  obtain ⟨d1, d2⟩ := abs_le.1 h2
  exact ⟨h1, abs_le.2 ⟨by linarith, by linarith⟩⟩

/-- Product; `e` bounds the error carried over from the factors. -/
theorem At.mul (hx : r.At x v δ) (hy : r.At y w ε) {V W M e : ℝ} (hV : |v| ≤ V) (hW : |w| ≤ W) (hM : |v * w| ≤ M)
    (he : δ * W + V * ε + δ * ε ≤ e) (hM' : M + e ≤ 2 ^ 200) (hγ : e + (M + e) / 2 ^ 53 + 1 / 2 ^ 200 ≤ γ) :
    r.At (x * y) (v * w) γ := by
  have h0 := (At.nonneg hx)
  have h1 : |r.val x * r.val y - v * w| ≤ e := by
    have e1 : r.val x * r.val y - v * w = (r.val x - v) * w + v * (r.val y - w) + (r.val x - v) * (r.val y - w) := by ring
    rw [e1]
    refine (abs_add_three _ _ _).trans (le_trans ?_ he)
    rw [abs_mul, abs_mul, abs_mul]
    refine add_le_add (add_le_add ?_ ?_) ?_
    · exact mul_le_mul hx.2 hW (abs_nonneg _) h0
    · exact mul_le_mul hV hy.2 (abs_nonneg _) ((abs_nonneg _).trans hV)
    · exact mul_le_mul hx.2 hy.2 (abs_nonneg _) h0
  obtain ⟨a1, a2⟩ := abs_le.1 h1
  obtain ⟨c1, c2⟩ := abs_le.1 hM
  obtain ⟨h2, h3⟩ := raw_mul ha hx.1 hy.1 (M := M + e) (abs_le.2 ⟨by linarith, by linarith⟩) hM'
  obtain ⟨d1, d2⟩ := abs_le.1 h3
  exact ⟨h2, abs_le.2 ⟨by linarith, by linarith⟩⟩

/-- Quotient; `e` bounds the error carried over. -/
theorem At.div (hx : r.At x v δ) (hy : r.At y w ε) {V e ω : ℝ} (hw : ω ≤ w) (hω : 0 < ω - ε) (hV : |v / w| ≤ V)
    (he : δ + V * ε ≤ e * (ω - ε)) (hM' : V + e ≤ 2 ^ 200) (hγ : e + (V + e) / 2 ^ 53 + 1 / 2 ^ 200 ≤ γ) :
    r.At (x / y) (v / w) γ := by
  obtain ⟨b1, b2⟩ := abs_le.1 hy.2
  have hε := (At.nonneg hy)
  have hw0 : 0 < w := by linarith
  have hy0 : ω - ε ≤ r.val y := by linarith
  have hy1 : 0 < r.val y := hω.trans_le hy0
  have hV0 := (abs_nonneg _).trans hV
  have he0 : 0 ≤ e := by
    by_contra h
    have := mul_neg_of_neg_of_pos (not_le.1 h) hω
    have := mul_nonneg hV0 hε
    linarith [(At.nonneg hx)]
  have h1 : |r.val x / r.val y - v / w| ≤ e := by
    have e1 : r.val x / r.val y - v / w = ((r.val x - v) + v / w * (w - r.val y)) / r.val y := by field_simp; ring
    rw [e1, abs_div, abs_of_pos hy1, div_le_iff₀ hy1]
    refine (abs_add_le _ _).trans (le_trans ?_ (mul_le_mul_of_nonneg_left hy0 he0))
    refine le_trans (add_le_add hx.2 ?_) he
    rw [abs_mul, abs_sub_comm]
    exact mul_le_mul hV hy.2 (abs_nonneg _) hV0
  obtain ⟨a1, a2⟩ := abs_le.1 h1
  obtain ⟨c1, c2⟩ := abs_le.1 hV
  obtain ⟨h2, h3⟩ := raw_div ha hx.1 hy.1 hy1.ne' (M := V + e) (abs_le.2 ⟨by linarith, by linarith⟩) hM'
  obtain ⟨d1, d2⟩ := abs_le.1 h3
  exact ⟨h2, abs_le.2 ⟨by linarith, by linarith⟩⟩

/-! ## `w0`, its cosine and sine -/

theorem At.w0 {f : R} {f0 : ℝ} (hf : r.At f f0 (1 / 2 ^ 50)) (h0 : 0 ≤ f0) (h1 : f0 ≤ 1 / 2) :
    r.At (2 * pi * f) (2 * Real.pi * f0) (0.65 / 2 ^ 44) := by
  have hp := Real.pi_gt_d2
  have hp' := Real.pi_lt_d2
  have h2 : r.At (2 * pi : R) (2 * Real.pi) (1.02 / 2 ^ 44) := by
    refine At.mul ha (At.two ha) (v := 2) (w := Real.pi) (V := 2) (W := 3.15) (M := 6.3) (e := 1 / 2 ^ 44) ha.pi
      ?_ ?_ ?_ ?_ ?_ ?_
    · norm_num
    · rw [abs_of_pos Real.pi_pos]; linarith
    · rw [abs_of_pos (by positivity)]; linarith
    · norm_num
    · norm_num
    · norm_num
  refine At.mul ha h2 hf (V := 6.3) (W := 1 / 2) (M := 3.15) (e := 0.63 / 2 ^ 44) ?_ ?_ ?_ ?_ ?_ ?_
  · rw [abs_of_pos (by positivity)]; linarith
  · rw [abs_of_nonneg h0]; exact h1
  · rw [abs_of_nonneg (by positivity)]; nlinarith
  · norm_num
  · norm_num
  · norm_num

theorem At.cos {x : R} {w : ℝ} (h : r.At x w (0.65 / 2 ^ 44)) : r.At (FArith.cos x) (Real.cos w) (1.2 / 2 ^ 44) := by
  obtain ⟨h1, h2⟩ := ha.cos x h.1
  refine ⟨h1, ?_⟩
  have h3 := Real.abs_cos_sub_cos_le (r.val x) w
  have h4 := Real.abs_cos_le_one (r.val x)
  have h5 := abs_sub_le (r.val (FArith.cos x)) (Real.cos (r.val x)) (Real.cos w)
  have h6 := ha.η_le
  have h7 := h.2
  norm_num at *
  linarith

theorem At.sin {x : R} {w : ℝ} (h : r.At x w (0.65 / 2 ^ 44)) : r.At (FArith.sin x) (Real.sin w) (1.2 / 2 ^ 44) := by
  obtain ⟨h1, h2⟩ := ha.sin x h.1
  refine ⟨h1, ?_⟩
  have h3 := Real.abs_sin_sub_sin_le (r.val x) w
  have h4 := Real.abs_sin_le_one (r.val x)
  have h5 := abs_sub_le (r.val (FArith.sin x)) (Real.sin (r.val x)) (Real.sin w)
  have h6 := ha.η_le
  have h7 := h.2
  norm_num at *
  linarith

/-! ## Division by `a0` -/

omit ha in
theorem Coeffs_normal {k : Coeffs} {x y : ℕ → ℝ} (h : k.DiffEq x y) :
    Coeffs.DiffEq ⟨1, k.a1 / k.a0, k.a2 / k.a0, k.b0 / k.a0, k.b1 / k.a0, k.b2 / k.a0⟩ x y := by
  intro n
  rw [h n]
  simp only
  ring

/-- The stored coefficients are close to the ideal ones divided by the ideal `a0`. -/
theorem stored_close {a0 a1 a2 b0 b1 b2 : R} (f : Biquad R) {k0 k1 k2 m0 m1 m2 δ0 δ : ℝ} (h0 : r.At a0 k0 δ0)
    (h1 : r.At a1 k1 δ) (h2 : r.At a2 k2 δ) (hb0 : r.At b0 m0 δ) (hb1 : r.At b1 m1 δ) (hb2 : r.At b2 m2 δ) (h : 1 ≤ k0)
    (v1 : |k1| ≤ 2) (v2 : |k2| ≤ 2) (w0 : |m0| ≤ 2) (w1 : |m1| ≤ 2) (w2 : |m2| ≤ 2)
    (hδ : δ + 2 * δ0 ≤ 7 / 2 ^ 44) :
    ∃ f' k', Biquad.setCoefficients a0 a1 a2 b0 b1 b2 f = (.ok (), f') ∧ r.Values f' k' ∧
      Coeffs.Close (1 / 2 ^ 41) k' ⟨1, k1 / k0, k2 / k0, m0 / k0, m1 / k0, m2 / k0⟩ ∧ r.At f'.a0 k0 (1 / 4) := by
  have p0 := At.nonneg h0
  have p1 := At.nonneg h1
  have hpos : 0 < k0 := by linarith
  have key : ∀ {b : R} {v : ℝ}, r.At b v δ → |v| ≤ 2 → r.At (b / a0) (v / k0) (1 / 2 ^ 41) := fun {b v} hb hv => by
    refine At.div ha hb h0 (V := 2) (e := 7.1 / 2 ^ 44) h ?_ ?_ ?_ ?_ ?_
    · norm_num at *; linarith
    · rw [abs_div, abs_of_pos hpos, div_le_iff₀ hpos]; linarith
    · norm_num at *; linarith
    · norm_num
    · norm_num
  obtain ⟨c1, d1⟩ := key h1 v1
  obtain ⟨c2, d2⟩ := key h2 v2
  obtain ⟨e0, g0⟩ := key hb0 w0
  obtain ⟨e1, g1⟩ := key hb1 w1
  obtain ⟨e2, g2⟩ := key hb2 w2
  refine ⟨{ a0 := a0, a1 := a1 / a0, a2 := a2 / a0, b0 := b0 / a0, b1 := b1 / a0, b2 := b2 / a0 },
    ⟨1, r.val (a1 / a0), r.val (a2 / a0), r.val (b0 / a0), r.val (b1 / a0), r.val (b2 / a0)⟩, ?_,
    ⟨rfl, ⟨c1, rfl⟩, ⟨c2, rfl⟩, ⟨e0, rfl⟩, ⟨e1, rfl⟩, ⟨e2, rfl⟩⟩, ⟨d1, d2, g0, g1, g2⟩,
    At.mono h0 (by norm_num at *; linarith)⟩
  have n := ha.not_nan
  simp [Biquad.setCoefficients, Exec.throwIf, n _ h0.1, n _ h1.1, n _ h2.1, n _ hb0.1, n _ hb1.1, n _ hb2.1]
  rfl

/-! ## `AL` -/

theorem At.al {sn q : R} {s q0 : ℝ} (hs : r.At sn s (1.2 / 2 ^ 44)) (hq : r.Fin q) (eq : r.val q = q0) (h1 : 1 / 2 ≤ q0)
    (h2 : q0 ≤ 2 ^ 10) (hs0 : 0 ≤ s) (hs1 : s ≤ 1) :
    r.At (sn / (2 * q)) (s / (2 * q0)) (1.3 / 2 ^ 44 / (2 * q0)) := by
  have hq' : r.At q q0 0 := ⟨hq, by rw [eq]; simp⟩
  have hq0 : 0 < q0 := by linarith
  have h3 : r.At (2 * q) (2 * q0) (q0 / 2 ^ 51) := by
    refine At.mul ha (At.two ha) hq' (V := 2) (W := q0) (M := 2 * q0) (e := 0) ?_ ?_ ?_ ?_ ?_ ?_
    · norm_num
    · rw [abs_of_pos hq0]
    · rw [abs_of_pos (by positivity)]
    · norm_num
    · norm_num at *; linarith
    · norm_num at *; linarith
  have h4 : s / (2 * q0) ≤ 1 / (2 * q0) := div_le_div_of_nonneg_right hs1 (by positivity)
  have h5 : (1 : ℝ) / (2 * q0) ≤ 1 := by rw [div_le_one (by positivity)]; linarith
  have h6 : 1 / 2 ^ 12 ≤ (1 : ℝ) / (2 * q0) := one_div_le_one_div_of_le (by positivity) (by norm_num at *; linarith)
  have h7 : (1 : ℝ) / (2 * q0) * q0 = 1 / 2 := by field_simp
  refine At.div ha hs h3 (V := 1 / (2 * q0)) (e := 1.25 / 2 ^ 44 * (1 / (2 * q0))) le_rfl ?_ ?_ ?_ ?_ ?_
  · norm_num at *; linarith
  · rw [abs_of_nonneg (by positivity)]; exact h4
  · generalize 1 / (2 * q0) = t at *
    have e1 : 1.25 / 2 ^ 44 * t * (2 * q0 - q0 / 2 ^ 51) = 1.25 / 2 ^ 44 * (2 - 1 / 2 ^ 51) * (t * q0) := by ring
    have e2 : t * (q0 / 2 ^ 51) = t * q0 / 2 ^ 51 := by ring
    rw [e1, e2, h7]
    norm_num
  · norm_num at *; linarith
  · rw [show (1.3 : ℝ) / 2 ^ 44 / (2 * q0) = 1.3 / 2 ^ 44 * (1 / (2 * q0)) by ring]
    norm_num at *
    linarith

theorem At.al' {sn q : R} {s q0 : ℝ} (hs : r.At sn s (1.2 / 2 ^ 44)) (hq : r.Fin q) (eq : r.val q = q0) (h1 : 1 / 2 ≤ q0)
    (h2 : q0 ≤ 2 ^ 10) (hs0 : 0 ≤ s) (hs1 : s ≤ 1) : r.At (sn / (2 * q)) (s / (2 * q0)) (1.3 / 2 ^ 44) :=
  At.mono (At.al ha hs hq eq h1 h2 hs0 hs1) (by
    rw [div_le_iff₀ (by linarith)]
    norm_num at *
    linarith)

/-- the gain of `BandPass1` -/
theorem At.qal {sn q : R} {s q0 : ℝ} (hs : r.At sn s (1.2 / 2 ^ 44)) (hq : r.Fin q) (eq : r.val q = q0) (h1 : 1 / 2 ≤ q0)
    (h2 : q0 ≤ 2 ^ 10) (hs0 : 0 ≤ s) (hs1 : s ≤ 1) :
    r.At (q * (sn / (2 * q))) (q0 * (s / (2 * q0))) (1.3 / 2 ^ 44) ∧
      r.At (-q * (sn / (2 * q))) (-q0 * (s / (2 * q0))) (1.3 / 2 ^ 44) := by
  have hal := At.al ha hs hq eq h1 h2 hs0 hs1
  have hq' : r.At q q0 0 := ⟨hq, by rw [eq]; simp⟩
  have hq0 : 0 < q0 := by linarith
  have e : q0 * (s / (2 * q0)) = s / 2 := by field_simp
  have e' : q0 * (1.3 / 2 ^ 44 / (2 * q0)) = 1.3 / 2 ^ 45 := by field_simp
  constructor
  · refine At.mul ha hq' hal (V := q0) (W := |s / (2 * q0)|) (M := 1 / 2) (e := 1.3 / 2 ^ 45) ?_ le_rfl ?_ ?_ ?_ ?_
    · rw [abs_of_pos hq0]
    · rw [e, abs_of_nonneg (by positivity)]; linarith
    · rw [e']; norm_num
    · norm_num
    · norm_num
  · refine At.mul ha (At.neg ha hq') hal (V := q0) (W := |s / (2 * q0)|) (M := 1 / 2) (e := 1.3 / 2 ^ 45) ?_ le_rfl ?_ ?_ ?_ ?_
    · rw [abs_neg, abs_of_pos hq0]
    · rw [neg_mul, e, abs_neg, abs_of_nonneg (by positivity)]; linarith
    · rw [e']; norm_num
    · norm_num
    · norm_num

theorem At.m2 {c : R} {c0 : ℝ} (hc : r.At c c0 (1.2 / 2 ^ 44)) (h : |c0| ≤ 1) : r.At (-2 * c) (-2 * c0) (2.5 / 2 ^ 44) := by
  refine At.mul ha (At.negTwo ha) hc (V := 2) (W := 1) (M := 2) (e := 2.4 / 2 ^ 44) ?_ h ?_ ?_ ?_ ?_
  · norm_num
  · rw [abs_mul]; norm_num; exact h
  · norm_num
  · norm_num
  · norm_num

theorem At.one_sub {c : R} {c0 : ℝ} (hc : r.At c c0 (1.3 / 2 ^ 44)) (h : |c0| ≤ 1) : r.At (1 - c) (1 - c0) (1.4 / 2 ^ 44) := by
  obtain ⟨h1, h2⟩ := abs_le.1 h
  exact At.sub ha (At.one ha) hc (M := 2) (abs_le.2 ⟨by linarith, by linarith⟩) (by norm_num) (by norm_num)

theorem At.one_add {c : R} {c0 : ℝ} (hc : r.At c c0 (1.3 / 2 ^ 44)) (h : |c0| ≤ 1) : r.At (1 + c) (1 + c0) (1.4 / 2 ^ 44) := by
  obtain ⟨h1, h2⟩ := abs_le.1 h
  exact At.add ha (At.one ha) hc (M := 2) (abs_le.2 ⟨by linarith, by linarith⟩) (by norm_num) (by norm_num)

theorem At.half {c : R} {c0 : ℝ} (hc : r.At c c0 (1.4 / 2 ^ 44)) (h : |c0| ≤ 2) : r.At (c / 2) (c0 / 2) (1.4 / 2 ^ 44) := by
  refine At.div ha hc (At.two ha) (ω := 2) (V := 1) (e := 0.7 / 2 ^ 44) le_rfl (by norm_num) ?_ (by norm_num) (by norm_num) (by norm_num)
  rw [abs_div, div_le_iff₀ (by norm_num)]
  norm_num
  exact h

end ops
end Iir
