import Verif.Lemmas.RoundAt
import Verif.Lemmas.ShelfRun
import Verif.Lemmas.RoundCheby

/-! # Absolute errors of the formulas of the RBJ shelves -/

namespace Iir
open FArith Spec Exec

variable {R : Type} [FArith R] {u η Ω : ℝ} {r : Rounds R u η Ω} {x y : R} {v w δ ε γ : ℝ}

section ops
variable (ha : r.Accurate)
include ha

theorem stored_gain {a0 a1 a2 b0 b1 b2 : R} (f : Biquad R) {k0 k1 k2 m0 m1 m2 δ0 δ1 δ β1 β ω : ℝ} (hγ : 1 ≤ γ) (hγ' : γ ≤ 4)
    (h0 : r.At a0 k0 δ0) (h1 : r.At a1 k1 δ1) (h2 : r.At a2 k2 δ) (hb0 : r.At b0 m0 β) (hb1 : r.At b1 m1 β1) (hb2 : r.At b2 m2 β)
    (h : ω ≤ k0) (hω : 0 < ω - δ0) (hδ0 : δ0 ≤ 1 / 8)
    (v1 : |k1| ≤ 2 * k0) (v2 : |k2| ≤ k0) (w0 : |m0| ≤ γ ^ 2 * k0) (w1 : |m1| ≤ 2 * γ ^ 2 * k0) (w2 : |m2| ≤ γ ^ 2 * k0)
    (hδ1 : δ1 + 2 * δ0 ≤ 15.9 * γ ^ 3 / 2 ^ 44 * (ω - δ0)) (hδ : δ + 1 * δ0 ≤ 15.9 * γ ^ 3 / 2 ^ 44 * (ω - δ0))
    (hβ1 : β1 + 2 * γ ^ 2 * δ0 ≤ 15.9 * γ ^ 5 / 2 ^ 44 * (ω - δ0)) (hβ : β + γ ^ 2 * δ0 ≤ 15.9 * γ ^ 5 / 2 ^ 44 * (ω - δ0)) :
    ∃ f' k', Biquad.setCoefficients a0 a1 a2 b0 b1 b2 f = (.ok (), f') ∧ r.Values f' k' ∧
      Coeffs.Close2 (γ ^ 3 / 2 ^ 40) (γ ^ 5 / 2 ^ 40) k' ⟨1, k1 / k0, k2 / k0, m0 / k0, m1 / k0, m2 / k0⟩ ∧
      r.At f'.a0 k0 (1 / 8) := by
  have p0 := At.nonneg h0
  have hpos : 0 < k0 := by linarith
  have p2 : 1 ≤ γ ^ 2 := one_le_pow₀ hγ
  have p3 : 1 ≤ γ ^ 3 := one_le_pow₀ hγ
  have p5 : γ ^ 2 ≤ γ ^ 5 := pow_le_pow_right₀ hγ (by norm_num)
  have q2 : γ ^ 2 ≤ 4 ^ 2 := pow_le_pow_left₀ (by linarith) hγ' 2
  have q3 : γ ^ 3 ≤ 4 ^ 3 := pow_le_pow_left₀ (by linarith) hγ' 3
  have q5 : γ ^ 5 ≤ 4 ^ 5 := pow_le_pow_left₀ (by linarith) hγ' 5
  norm_num at q2 q3 q5
  have key : ∀ {b : R} {v V δ : ℝ}, r.At b v δ → V ≤ 2 → δ + V * δ0 ≤ 15.9 * γ ^ 3 / 2 ^ 44 * (ω - δ0) → |v| ≤ V * k0 →
      r.At (b / a0) (v / k0) (γ ^ 3 / 2 ^ 40) := fun {b v V δ} hb hV hd hv => by
    refine At.div ha hb h0 (V := V) (e := 15.9 * γ ^ 3 / 2 ^ 44) h hω ?_ hd ?_ ?_
    · rw [abs_div, abs_of_pos hpos, div_le_iff₀ hpos]; exact hv
    · clear hδ hβ hδ1 hβ1 hd; norm_num; linarith
    · clear hδ hβ hδ1 hβ1 hd; norm_num; linarith
  have key' : ∀ {b : R} {v V δ : ℝ}, r.At b v δ → V ≤ 2 * γ ^ 2 → δ + V * δ0 ≤ 15.9 * γ ^ 5 / 2 ^ 44 * (ω - δ0) → |v| ≤ V * k0 →
      r.At (b / a0) (v / k0) (γ ^ 5 / 2 ^ 40) := fun {b v V δ} hb hV hd hv => by
    refine At.div ha hb h0 (V := V) (e := 15.9 * γ ^ 5 / 2 ^ 44) h hω ?_ hd ?_ ?_
    · rw [abs_div, abs_of_pos hpos, div_le_iff₀ hpos]; exact hv
    · clear hδ hβ hδ1 hβ1 hd; norm_num; linarith
    · clear hδ hβ hδ1 hβ1 hd; norm_num; linarith
  obtain ⟨c1, d1⟩ := key h1 le_rfl hδ1 v1
  obtain ⟨c2, d2⟩ := key h2 (V := 1) (by norm_num) hδ (by rw [one_mul]; exact v2)
  obtain ⟨e0, g0⟩ := key' hb0 (by linarith) hβ w0
  obtain ⟨e1, g1⟩ := key' hb1 le_rfl hβ1 w1
  obtain ⟨e2, g2⟩ := key' hb2 (by linarith) hβ w2
  refine ⟨{ a0 := a0, a1 := a1 / a0, a2 := a2 / a0, b0 := b0 / a0, b1 := b1 / a0, b2 := b2 / a0 },
    ⟨1, r.val (a1 / a0), r.val (a2 / a0), r.val (b0 / a0), r.val (b1 / a0), r.val (b2 / a0)⟩, ?_,
    ⟨rfl, ⟨c1, rfl⟩, ⟨c2, rfl⟩, ⟨e0, rfl⟩, ⟨e1, rfl⟩, ⟨e2, rfl⟩⟩, ⟨d1, d2, g0, g1, g2⟩,
    At.mono h0 hδ0⟩
  have n := ha.not_nan
  simp [Biquad.setCoefficients, Exec.throwIf, n _ h0.1, n _ h1.1, n _ h2.1, n _ hb0.1, n _ hb1.1, n _ hb2.1]
  rfl

/-! ## `A` -/

omit ha in
theorem pow_bounds {g : ℝ} (h : |g| ≤ 24) : 1 ≤ (10 : ℝ) ^ (|g| / 40) ∧ (10 : ℝ) ^ (|g| / 40) ≤ 4 ∧
    (10 : ℝ) ^ (g / 40) ≤ (10 : ℝ) ^ (|g| / 40) ∧ 1 ≤ (10 : ℝ) ^ (g / 40) * (10 : ℝ) ^ (|g| / 40) := by
  refine ⟨Real.one_le_rpow (by norm_num) (by positivity), ?_, ?_, ?_⟩
  · refine (Real.rpow_le_rpow_of_exponent_le (by norm_num) (show |g| / 40 ≤ 3 / 5 by linarith)).trans ?_
    have e : (10 : ℝ) ^ (3 / 5 : ℝ) = ((10 : ℝ) ^ 3) ^ (1 / 5 : ℝ) := by
      rw [← Real.rpow_natCast, ← Real.rpow_mul (by norm_num)]; norm_num
    have e' : (4 : ℝ) = ((4 : ℝ) ^ 5) ^ (1 / 5 : ℝ) := by
      rw [← Real.rpow_natCast, ← Real.rpow_mul (by norm_num)]; norm_num
    rw [e, e']
    exact Real.rpow_le_rpow (by positivity) (by norm_num) (by norm_num)
  · exact Real.rpow_le_rpow_of_exponent_le (by norm_num) (by linarith [le_abs_self g])
  · rw [← Real.rpow_add (by norm_num)]
    exact Real.one_le_rpow (by norm_num) (by linarith [neg_abs_le g])

/-- `A = pow (10, gainDb / 40)` -/
theorem At.gainA {g : R} (hg : r.Fin g) (h : |r.val g| ≤ 24) :
    r.At (pow 10 (g / 40)) ((10 : ℝ) ^ (r.val g / 40)) (0.52 * (10 : ℝ) ^ (r.val g / 40) / 2 ^ 44) := by
  obtain ⟨b1, b2, b3, b4⟩ := pow_bounds h
  obtain ⟨g1, g2⟩ := abs_le.1 h
  have i40 := In.lit ha (r := r) 40 (by norm_num)
  have v40 : r.val (40 : R) = 40 := by
    have := le_antisymm i40.2.2 i40.2.1
    simpa using this
  have i10 := In.lit ha (r := r) 10 (by norm_num)
  have v10 : r.val (10 : R) = 10 := by
    have := le_antisymm i10.2.2 i10.2.1
    simpa using this
  obtain ⟨d0, d1⟩ := raw_div ha hg i40.1 (by rw [show r.val (OfNat.ofNat 40 : R) = 40 from v40]; norm_num) (M := 0.6)
    (by rw [show r.val (OfNat.ofNat 40 : R) = 40 from v40]; exact abs_le.2 ⟨by norm_num; linarith, by norm_num; linarith⟩) (by norm_num)
  rw [show r.val (OfNat.ofNat 40 : R) = 40 from v40] at d1
  change |r.val (g / 40) - _| ≤ _ at d1
  change r.Fin (g / 40) at d0
  have hA : 0 < (10 : ℝ) ^ (r.val g / 40) := by positivity
  have A4 : 1 / 4 ≤ (10 : ℝ) ^ (r.val g / 40) := by
    have : (10 : ℝ) ^ (r.val g / 40) * (10 : ℝ) ^ (|r.val g| / 40) ≤ (10 : ℝ) ^ (r.val g / 40) * 4 :=
      mul_le_mul_of_nonneg_left b2 hA.le
    linarith
  have l1 := log_ten_gt
  have l2 := log_ten_lt
  obtain ⟨t, ht⟩ : ∃ t, t = Real.log 10 * (r.val (g / 40) - r.val g / 40) := ⟨_, rfl⟩
  have t1 : |t| ≤ 3 * (0.6 / 2 ^ 53 + 1 / 2 ^ 200) := by
    rw [ht, abs_mul, abs_of_pos (by linarith)]
    exact mul_le_mul l2 d1 (abs_nonneg _) (by norm_num)
  have e1 : (10 : ℝ) ^ r.val (g / 40) - (10 : ℝ) ^ (r.val g / 40) = (10 : ℝ) ^ (r.val g / 40) * (Real.exp t - 1) := by
    rw [mul_sub, mul_one, Real.rpow_def_of_pos (by norm_num), Real.rpow_def_of_pos (by norm_num), ← Real.exp_add, ht]
    congr 2; ring
  have e2 := Real.abs_exp_sub_one_le (x := t) (t1.trans (by norm_num))
  have e3 : |(10 : ℝ) ^ r.val (g / 40) - (10 : ℝ) ^ (r.val g / 40)| ≤ (10 : ℝ) ^ (r.val g / 40) * (0.01 / 2 ^ 44) := by
    rw [e1, abs_mul, abs_of_pos hA]
    refine mul_le_mul_of_nonneg_left (e2.trans ?_) hA.le
    refine (mul_le_mul_of_nonneg_left t1 zero_le_two).trans (by norm_num)
  have A5 : (10 : ℝ) ^ (r.val g / 40) ≤ 4 := b3.trans b2
  obtain ⟨e4, e5⟩ := abs_le.1 e3
  obtain ⟨w0, w1⟩ := ha.pow (10 : R) (g / 40) i10.1 d0 (by rw [v10]; norm_num)
    (by rw [v10]; have := ha.le_Ω; norm_num at this e5; linarith)
  rw [v10] at w1
  obtain ⟨w1, w2⟩ := abs_le.1 w1
  have := ha.η_le
  refine ⟨w0, ?_⟩
  clear e1 e2 e3 ht t1 d1 b1 b2 b3 b4
  generalize (10 : ℝ) ^ r.val (g / 40) = z at *
  generalize (10 : ℝ) ^ (r.val g / 40) = A at *
  rw [abs_le]
  norm_num at w1 w2 e4 e5 this ⊢
  constructor <;> linarith

/-! ## The terms of the low and the high shelf -/

omit ha in
/-- what is known of `A` and `γ` -/
structure GainBounds (A γ : ℝ) : Prop where
  pos : 0 < A
  one : 1 ≤ γ
  four : γ ≤ 4
  le : A ≤ γ
  inv : 1 ≤ A * γ

omit ha in
theorem GainBounds.pows {A : ℝ} (h : GainBounds A γ) : γ ≤ γ ^ 2 ∧ γ ^ 2 ≤ γ ^ 3 ∧ γ ^ 2 ≤ 16 ∧ γ ^ 3 ≤ 64 := by
  have h1 := h.one
  have h2 := h.four
  refine ⟨by nlinarith, pow_le_pow_right₀ h1 (by norm_num), ?_, ?_⟩
  · exact (pow_le_pow_left₀ (by linarith) h2 2).trans (by norm_num)
  · exact (pow_le_pow_left₀ (by linarith) h2 3).trans (by norm_num)

theorem At.gainC {A c : R} {A0 c0 : ℝ} (hA : r.At A A0 (0.52 * A0 / 2 ^ 44)) (hc : r.At c c0 (1.2 / 2 ^ 44)) (hg : GainBounds A0 γ)
    (hc1 : |c0| ≤ 1) :
    (r.At (A + 1 + (A - 1) * c) (A0 + 1 + (A0 - 1) * c0) (2.32 * γ / 2 ^ 44) ∧
      r.At (A + 1 - (A - 1) * c) (A0 + 1 - (A0 - 1) * c0) (2.32 * γ / 2 ^ 44)) ∧
    r.At (A - 1 + (A + 1) * c) (A0 - 1 + (A0 + 1) * c0) (3.52 * γ / 2 ^ 44) ∧
      r.At (A - 1 - (A + 1) * c) (A0 - 1 - (A0 + 1) * c0) (3.52 * γ / 2 ^ 44) := by
  obtain ⟨g0, g1, g2, g3, g4⟩ := hg
  obtain ⟨c1, c2⟩ := abs_le.1 hc1
  have hA' : r.At A A0 (0.52 * γ / 2 ^ 44) := At.mono hA (by norm_num; linarith)
  have s1 : r.At (A + 1) (A0 + 1) (0.54 * γ / 2 ^ 44) :=
    At.add ha hA' (At.one ha) (M := 2 * γ) (abs_le.2 ⟨by linarith, by linarith⟩) (by norm_num; linarith) (by norm_num; linarith)
  have s2 : r.At (A - 1) (A0 - 1) (0.54 * γ / 2 ^ 44) :=
    At.sub ha hA' (At.one ha) (M := γ) (abs_le.2 ⟨by linarith, by linarith⟩) (by norm_num; linarith) (by norm_num; linarith)
  have p1 : |A0 - 1| ≤ γ := abs_le.2 ⟨by linarith, by linarith⟩
  have p2 : |A0 + 1| ≤ 2 * γ := abs_le.2 ⟨by linarith, by linarith⟩
  have m1 : r.At ((A - 1) * c) ((A0 - 1) * c0) (1.76 * γ / 2 ^ 44) := by
    refine At.mul ha s2 hc (V := γ) (W := 1) (M := γ) (e := 1.75 * γ / 2 ^ 44) p1 hc1 ?_ ?_ ?_ ?_
    · rw [abs_mul]; exact (mul_le_mul p1 hc1 (abs_nonneg _) (by linarith)).trans (by linarith)
    · norm_num; linarith
    · norm_num; linarith
    · norm_num; linarith
  have m2 : r.At ((A + 1) * c) ((A0 + 1) * c0) (2.96 * γ / 2 ^ 44) := by
    refine At.mul ha s1 hc (V := 2 * γ) (W := 1) (M := 2 * γ) (e := 2.95 * γ / 2 ^ 44) p2 hc1 ?_ ?_ ?_ ?_
    · rw [abs_mul]; exact (mul_le_mul p2 hc1 (abs_nonneg _) (by linarith)).trans (by linarith)
    · norm_num; linarith
    · norm_num; linarith
    · norm_num; linarith
  have q1 : |A0 + 1 + (A0 - 1) * c0| ≤ 2 * γ := abs_le.2 ⟨by nlinarith, by nlinarith⟩
  have q2 : |A0 + 1 - (A0 - 1) * c0| ≤ 2 * γ := abs_le.2 ⟨by nlinarith, by nlinarith⟩
  have q3 : |A0 - 1 + (A0 + 1) * c0| ≤ 2 * γ := abs_le.2 ⟨by nlinarith, by nlinarith⟩
  have q4 : |A0 - 1 - (A0 + 1) * c0| ≤ 2 * γ := abs_le.2 ⟨by nlinarith, by nlinarith⟩
  exact ⟨⟨At.add ha s1 m1 q1 (by norm_num; linarith) (by norm_num; linarith),
    At.sub ha s1 m1 q2 (by norm_num; linarith) (by norm_num; linarith)⟩,
    At.add ha s2 m2 q3 (by norm_num; linarith) (by norm_num; linarith),
    At.sub ha s2 m2 q4 (by norm_num; linarith) (by norm_num; linarith)⟩

/-- square root; `ω` is a lower bound of the root -/
theorem At.sqrt {ω V : ℝ} (h : r.At x v δ) (hω : 0 < ω) (hv : ω ^ 2 ≤ v) (hV : Real.sqrt v ≤ V) (hδ : δ ≤ v)
    (hγ : δ / ω + (V + δ / ω) / 2 ^ 45 + 1 / 2 ^ 200 ≤ γ) : r.At (FArith.sqrt x) (Real.sqrt v) γ := by
  obtain ⟨h1, h2⟩ := abs_le.1 h.2
  have hω' : ω ≤ Real.sqrt v := Real.le_sqrt_of_sq_le hv
  have hx : 0 ≤ r.val x := by linarith
  have hv0 : 0 ≤ v := le_trans (by positivity) hv
  have e : (Real.sqrt (r.val x) - Real.sqrt v) * (Real.sqrt (r.val x) + Real.sqrt v) = r.val x - v := by
    have := Real.mul_self_sqrt hx
    have := Real.mul_self_sqrt hv0
    linarith
  have hs := Real.sqrt_nonneg (r.val x)
  have d : |Real.sqrt (r.val x) - Real.sqrt v| ≤ δ / ω := by
    rw [le_div_iff₀ hω]
    refine le_trans ?_ h.2
    rw [← e, abs_mul]
    refine mul_le_mul_of_nonneg_left ?_ (abs_nonneg _)
    rw [abs_of_pos (by linarith)]
    linarith
  obtain ⟨d1, d2⟩ := abs_le.1 d
  obtain ⟨a1, a2⟩ := ha.sqrt x h.1 hx
  refine ⟨a1, ?_⟩
  obtain ⟨a2, a3⟩ := abs_le.1 a2
  have := ha.η_le
  have : Real.sqrt (r.val x) / 2 ^ 45 ≤ (V + δ / ω) / 2 ^ 45 := by
    apply div_le_div_of_nonneg_right _ (by norm_num)
    linarith
  rw [abs_le]
  constructor <;> linarith

/-- `sq = 2 sqrt (A) AL` -/
theorem At.gainSq {A sn S : R} {A0 s0 S0 : ℝ} (hA : r.At A A0 (0.52 * A0 / 2 ^ 44)) (hs : r.At sn s0 (1.2 / 2 ^ 44))
    (hS : r.At S S0 0) (hg : GainBounds A0 γ) (hs0 : 0 ≤ s0) (hs1 : s0 ≤ 1) (hS0 : 0 < S0) (hS1 : S0 ≤ 1)
    (hr : (A0 + 1 / A0) * (1 / S0 - 1) ≤ 2) :
    r.At (2 * FArith.sqrt A * (sn / 2 * FArith.sqrt ((A + 1 / A) * (1 / S - 1) + 2)))
      (2 * √A0 * (s0 / 2 * √((A0 + 1 / A0) * (1 / S0 - 1) + 2))) (6.4 * γ ^ 2 / 2 ^ 44) := by
  obtain ⟨p1, p2, p3, p4⟩ := hg.pows
  obtain ⟨g0, g1, g2, g3, g4⟩ := hg
  have hA' : r.At A A0 (0.52 * γ / 2 ^ 44) := At.mono hA (by norm_num; linarith)
  have iA : 1 / A0 ≤ γ := by rw [div_le_iff₀ g0]; linarith
  have iA0 : 0 < 1 / A0 := by positivity
  have A2 : 2 ≤ A0 + 1 / A0 := by
    have : A0 + 1 / A0 - 2 = (A0 - 1) ^ 2 / A0 := by field_simp; ring
    have : 0 ≤ (A0 - 1) ^ 2 / A0 := by positivity
    linarith
  have iS : 1 ≤ 1 / S0 := by rw [le_div_iff₀ hS0]; linarith
  have iS2 : 1 / S0 - 1 ≤ 1 := by nlinarith
  have a1 : r.At (1 / A) (1 / A0) (0.54 * γ / 2 ^ 44) := by
    have : r.At (1 / A) (1 / A0) (0.54 * (1 / A0) / 2 ^ 44) := by
      refine At.div ha (At.one ha) hA (ω := A0) (V := 1 / A0) (e := 0.53 * (1 / A0) / 2 ^ 44) le_rfl ?_ ?_ ?_ ?_ ?_
      · norm_num; linarith
      · rw [abs_of_pos iA0]
      · have e : 0.53 * (1 / A0) / 2 ^ 44 * (A0 - 0.52 * A0 / 2 ^ 44) = 0.53 * (1 - 0.52 / 2 ^ 44) / 2 ^ 44 := by field_simp
        have e' : 0 + 1 / A0 * (0.52 * A0 / 2 ^ 44) = 0.52 / 2 ^ 44 := by field_simp; ring
        rw [e, e']; norm_num
      · norm_num at iA ⊢; linarith
      · have : 1 / 4 ≤ 1 / A0 := one_div_le_one_div_of_le g0 (by linarith)
        generalize 1 / A0 = z at *
        norm_num at this ⊢; linarith
    exact At.mono this (by generalize 1 / A0 = z at *; norm_num; linarith)
  have a2 : r.At (A + 1 / A) (A0 + 1 / A0) (1.07 * γ / 2 ^ 44) :=
    At.add ha hA' a1 (M := 2 * γ) (by rw [abs_of_pos (by linarith)]; linarith) (by norm_num; linarith) (by norm_num; linarith)
  have b1 : r.At (1 / S) (1 / S0) (0.01 / 2 ^ 44) := by
    refine At.div ha (At.one ha) hS (ω := S0) (V := 2) (e := 0) le_rfl (by linarith) ?_ (by norm_num) (by norm_num) (by norm_num)
    rw [abs_of_pos (by linarith)]; linarith
  have b2 : r.At (1 / S - 1) (1 / S0 - 1) (0.02 / 2 ^ 44) :=
    At.sub ha b1 (At.one ha) (M := 1) (by rw [abs_of_nonneg (by linarith)]; exact iS2) (by norm_num) (by norm_num)
  have n0 : 0 ≤ (A0 + 1 / A0) * (1 / S0 - 1) := mul_nonneg (by linarith) (by linarith)
  have c1 : r.At ((A + 1 / A) * (1 / S - 1)) ((A0 + 1 / A0) * (1 / S0 - 1)) (1.13 * γ / 2 ^ 44) := by
    refine At.mul ha a2 b2 (V := 2 * γ) (W := 1) (M := 2) (e := 1.12 * γ / 2 ^ 44) ?_ ?_ ?_ ?_ ?_ ?_
    · rw [abs_of_pos (by linarith)]; linarith
    · rw [abs_of_nonneg (by linarith)]; exact iS2
    · rw [abs_of_nonneg n0]; exact hr
    · norm_num; linarith
    · norm_num; linarith
    · norm_num; linarith
  have c2 : r.At ((A + 1 / A) * (1 / S - 1) + 2) ((A0 + 1 / A0) * (1 / S0 - 1) + 2) (1.14 * γ / 2 ^ 44) :=
    At.add ha c1 (At.two ha) (M := 4) (by rw [abs_of_nonneg (by linarith)]; linarith) (by norm_num; linarith) (by norm_num; linarith)
  have hρ2 : 2 ≤ (A0 + 1 / A0) * (1 / S0 - 1) + 2 := by linarith
  have hρ4 : (A0 + 1 / A0) * (1 / S0 - 1) + 2 ≤ 4 := by linarith
  generalize (A0 + 1 / A0) * (1 / S0 - 1) + 2 = ρ at *
  clear c1 n0 hr b1 b2 a2 a1 iS iS2 A2
  have sρ : √ρ ≤ 2 := by rw [Real.sqrt_le_left (by norm_num)]; linarith
  have sρ0 := Real.sqrt_nonneg ρ
  have c3 : r.At (FArith.sqrt ((A + 1 / A) * (1 / S - 1) + 2)) (√ρ) (1.83 * γ / 2 ^ 44) := by
    refine At.sqrt ha c2 (ω := 1.4) (V := 2) (by norm_num) (by norm_num; linarith) sρ (by norm_num; linarith) ?_
    norm_num; linarith
  have d1 : r.At (sn / 2) (s0 / 2) (0.61 / 2 ^ 44) := by
    refine At.div ha hs (At.two ha) (ω := 2) (V := 1 / 2) (e := 0.6 / 2 ^ 44) le_rfl (by norm_num) ?_ (by norm_num) (by norm_num)
      (by norm_num)
    rw [abs_of_nonneg (by linarith)]; linarith
  have s2 : |s0 / 2| ≤ 1 / 2 := by rw [abs_of_nonneg (by linarith)]; linarith
  have s3 : |√ρ| ≤ 2 := by rw [abs_of_nonneg sρ0]; exact sρ
  have d2 : r.At (sn / 2 * FArith.sqrt ((A + 1 / A) * (1 / S - 1) + 2)) (s0 / 2 * √ρ) (2.15 * γ / 2 ^ 44) := by
    refine At.mul ha d1 c3 (V := 1 / 2) (W := 2) (M := 1) (e := 2.14 * γ / 2 ^ 44) s2 s3 ?_ ?_ ?_ ?_
    · rw [abs_mul]; exact (mul_le_mul s2 s3 (abs_nonneg _) (by norm_num)).trans (by norm_num)
    · norm_num; linarith
    · norm_num; linarith
    · norm_num; linarith
  have sA0 : 0 < √A0 := Real.sqrt_pos.2 g0
  have sA : √A0 ≤ γ := by rw [Real.sqrt_le_left (by linarith)]; linarith
  have ssA := Real.mul_self_sqrt g0.le
  have sA4 : 1 / 2 ≤ √A0 := by
    apply Real.le_sqrt_of_sq_le
    norm_num
    nlinarith
  have e1 : r.At (FArith.sqrt A) (√A0) (1.03 * γ / 2 ^ 44) := by
    refine At.sqrt ha hA (ω := √A0) (V := √A0) sA0 (by rw [pow_two, ssA]) le_rfl (by norm_num; linarith) ?_
    have : 0.52 * A0 / 2 ^ 44 / √A0 = 0.52 * √A0 / 2 ^ 44 := by
      rw [div_div, div_eq_div_iff (by positivity) (by norm_num)]
      linear_combination -(0.52 * 2 ^ 44) * ssA
    rw [this]
    clear ssA
    norm_num; linarith
  have e2 : r.At (2 * FArith.sqrt A) (2 * √A0) (2.07 * γ / 2 ^ 44) := by
    refine At.mul ha (At.two ha) e1 (V := 2) (W := γ) (M := 2 * γ) (e := 2.06 * γ / 2 ^ 44) (by norm_num) ?_ ?_ ?_ ?_ ?_
    · rw [abs_of_pos sA0]; exact sA
    · rw [abs_of_pos (by linarith)]; linarith
    · norm_num; linarith
    · norm_num; linarith
    · norm_num; linarith
  have v1 : |2 * √A0| ≤ 2 * γ := by rw [abs_of_pos (by linarith)]; linarith
  have v2 : |s0 / 2 * √ρ| ≤ 1 := by
    rw [abs_mul]; exact (mul_le_mul s2 s3 (abs_nonneg _) (by norm_num)).trans (by norm_num)
  refine At.mul ha e2 d2 (V := 2 * γ) (W := 1) (M := 2 * γ) (e := 6.38 * γ ^ 2 / 2 ^ 44) v1 v2 ?_ ?_ ?_ ?_
  · rw [abs_mul]; exact (mul_le_mul v1 v2 (abs_nonneg _) (by linarith)).trans (by linarith)
  · clear ssA
    have e : 2.07 * γ / 2 ^ 44 * 1 + 2 * γ * (2.15 * γ / 2 ^ 44) + 2.07 * γ / 2 ^ 44 * (2.15 * γ / 2 ^ 44) =
      2.07 * γ / 2 ^ 44 + (4.3 / 2 ^ 44 + 2.07 * 2.15 / 2 ^ 88) * γ ^ 2 := by ring
    rw [e]
    norm_num; linarith
  · clear ssA; norm_num; linarith
  · clear ssA; norm_num; linarith

/-- What is needed of the coefficients of a low shelf with `A`, `c = cos w0` and `sq`; the high shelf has `-c`. -/
theorem At.gainAB {A : R} {A0 X Y q : ℝ} {x y s : R} (hA : r.At A A0 (0.52 * A0 / 2 ^ 44)) (hg : GainBounds A0 γ)
    (hx : r.At x X (2.32 * γ / 2 ^ 44)) (hy : r.At y Y (3.52 * γ / 2 ^ 44)) (hs : r.At s q (6.4 * γ ^ 2 / 2 ^ 44))
    (hX : |X| ≤ 2 * γ) (hY : |Y| ≤ 2 * γ) (hq : |q| ≤ 2 * γ) :
    (r.At (x + s) (X + q) (9 * γ ^ 2 / 2 ^ 44) ∧ r.At (x - s) (X - q) (9 * γ ^ 2 / 2 ^ 44) ∧
      r.At (-2 * y) (-2 * Y) (9 * γ ^ 2 / 2 ^ 44) ∧ r.At (2 * y) (2 * Y) (9 * γ ^ 2 / 2 ^ 44)) ∧
    r.At (A * (x + s)) (A0 * (X + q)) (11 * γ ^ 3 / 2 ^ 44) ∧ r.At (A * (x - s)) (A0 * (X - q)) (11 * γ ^ 3 / 2 ^ 44) ∧
      r.At (-2 * A * y) (-2 * A0 * Y) (11 * γ ^ 3 / 2 ^ 44) ∧ r.At (2 * A * y) (2 * A0 * Y) (11 * γ ^ 3 / 2 ^ 44) := by
  obtain ⟨p1, p2, p3, p4⟩ := hg.pows
  obtain ⟨g0, g1, g2, g3, g4⟩ := hg
  have hA' : r.At A A0 (0.52 * γ / 2 ^ 44) := At.mono hA (by norm_num; linarith)
  obtain ⟨X1, X2⟩ := abs_le.1 hX
  obtain ⟨q1, q2⟩ := abs_le.1 hq
  have aA : |A0| ≤ γ := by rw [abs_of_pos g0]; exact g3
  have v1 : |X + q| ≤ 4 * γ := abs_le.2 ⟨by linarith, by linarith⟩
  have v2 : |X - q| ≤ 4 * γ := abs_le.2 ⟨by linarith, by linarith⟩
  have a1 : r.At (x + s) (X + q) (8.75 * γ ^ 2 / 2 ^ 44) := At.add ha hx hs v1 (by norm_num; linarith) (by norm_num; linarith)
  have a2 : r.At (x - s) (X - q) (8.75 * γ ^ 2 / 2 ^ 44) := At.sub ha hx hs v2 (by norm_num; linarith) (by norm_num; linarith)
  have t2 : |(2 : ℝ)| ≤ 2 := by norm_num
  have n2 : |(-2 : ℝ)| ≤ 2 := by norm_num
  have key : ∀ {z : R} {Z : ℝ}, r.At z Z (8.75 * γ ^ 2 / 2 ^ 44) → |Z| ≤ 4 * γ → r.At (A * z) (A0 * Z) (11 * γ ^ 3 / 2 ^ 44) :=
    fun {z Z} hz hZ => by
    refine At.mul ha hA' hz (V := γ) (W := 4 * γ) (M := 4 * γ ^ 2) (e := 10.9 * γ ^ 3 / 2 ^ 44) aA hZ ?_ ?_ ?_ ?_
    · rw [abs_mul]; exact (mul_le_mul aA hZ (abs_nonneg _) (by linarith)).trans (le_of_eq (by ring))
    · have e : 0.52 * γ / 2 ^ 44 * (4 * γ) + γ * (8.75 * γ ^ 2 / 2 ^ 44) + 0.52 * γ / 2 ^ 44 * (8.75 * γ ^ 2 / 2 ^ 44) =
        2.08 / 2 ^ 44 * γ ^ 2 + (8.75 / 2 ^ 44 + 0.52 * 8.75 / 2 ^ 88) * γ ^ 3 := by ring
      rw [e]; norm_num; linarith
    · norm_num; linarith
    · norm_num; linarith
  have key1 : ∀ {t : R} {T : ℝ}, r.At t T 0 → |T| ≤ 2 → r.At (t * y) (T * Y) (9 * γ ^ 2 / 2 ^ 44) := fun {t T} ht hT => by
    refine At.mul ha ht hy (V := 2) (W := 2 * γ) (M := 4 * γ) (e := 7.05 * γ / 2 ^ 44) hT hY ?_ ?_ ?_ ?_
    · rw [abs_mul]; exact (mul_le_mul hT hY (abs_nonneg _) (by linarith)).trans (le_of_eq (by ring))
    · norm_num; linarith
    · norm_num; linarith
    · norm_num; linarith
  have key2 : ∀ {t : R} {T : ℝ}, r.At t T 0 → |T| ≤ 2 → r.At (t * A * y) (T * A0 * Y) (11 * γ ^ 3 / 2 ^ 44) := fun {t T} ht hT => by
    have w : |T * A0| ≤ 2 * γ := by rw [abs_mul]; exact mul_le_mul hT aA (abs_nonneg _) (by norm_num)
    have h1 : r.At (t * A) (T * A0) (1.05 * γ / 2 ^ 44) := by
      refine At.mul ha ht hA' (V := 2) (W := γ) (M := 2 * γ) (e := 1.04 * γ / 2 ^ 44) hT aA w ?_ ?_ ?_
      · norm_num; linarith
      · norm_num; linarith
      · norm_num; linarith
    refine At.mul ha h1 hy (V := 2 * γ) (W := 2 * γ) (M := 4 * γ ^ 2) (e := 9.2 * γ ^ 2 / 2 ^ 44) w hY ?_ ?_ ?_ ?_
    · rw [abs_mul]; exact (mul_le_mul w hY (abs_nonneg _) (by linarith)).trans (le_of_eq (by ring))
    · have e : 1.05 * γ / 2 ^ 44 * (2 * γ) + 2 * γ * (3.52 * γ / 2 ^ 44) + 1.05 * γ / 2 ^ 44 * (3.52 * γ / 2 ^ 44) =
        (9.14 / 2 ^ 44 + 1.05 * 3.52 / 2 ^ 88) * γ ^ 2 := by ring
      rw [e]; norm_num; linarith
    · norm_num; linarith
    · norm_num; linarith
  have wk : 8.75 * γ ^ 2 / 2 ^ 44 ≤ 9 * γ ^ 2 / 2 ^ 44 := by norm_num; linarith
  exact ⟨⟨At.mono a1 wk, At.mono a2 wk, key1 (At.negTwo ha) n2, key1 (At.two ha) t2⟩, key a1 v1, key a2 v2,
    key2 (At.negTwo ha) n2, key2 (At.two ha) t2⟩

/-! ## The band shelf -/

omit ha in
theorem sinh_near {x d : ℝ} (hx : 0 ≤ x) (hd : |d| ≤ 1 / 2 ^ 30) :
    |Real.sinh (x + d) - Real.sinh x| ≤ 1.001 * Real.cosh x * |d| := by
  have h1 := Real.abs_exp_sub_one_sub_id_le (x := d) (hd.trans (by norm_num))
  have h2 := Real.abs_exp_sub_one_sub_id_le (x := -d) (by rw [abs_neg]; exact hd.trans (by norm_num))
  obtain ⟨a1, a2⟩ := abs_le.1 h1
  obtain ⟨b1, b2⟩ := abs_le.1 h2
  have hs := Real.sinh_eq d
  have hc := Real.cosh_eq d
  have hc1 := Real.one_le_cosh d
  have hsq : d ^ 2 = |d| ^ 2 := (sq_abs d).symm
  have hsd : |Real.sinh d| ≤ |d| + d ^ 2 := by
    have := le_abs_self d
    have := neg_abs_le d
    rw [abs_le]; constructor <;> nlinarith
  have hcd : Real.cosh d - 1 ≤ d ^ 2 := by nlinarith
  have hx0 : 0 ≤ Real.sinh x := Real.sinh_nonneg_iff.2 hx
  have hxc : Real.sinh x ≤ Real.cosh x := (Real.sinh_lt_cosh x).le
  have e : Real.sinh (x + d) - Real.sinh x = Real.sinh x * (Real.cosh d - 1) + Real.cosh x * Real.sinh d := by
    rw [Real.sinh_add]; ring
  rw [e]
  refine (abs_add_le _ _).trans ?_
  rw [abs_mul, abs_mul, abs_of_nonneg hx0, abs_of_nonneg (by linarith : 0 ≤ Real.cosh d - 1), abs_of_nonneg (by linarith : 0 ≤ Real.cosh x)]
  have t1 : Real.sinh x * (Real.cosh d - 1) ≤ Real.cosh x * d ^ 2 := mul_le_mul hxc hcd (by linarith) (by linarith)
  have t2 : Real.cosh x * |Real.sinh d| ≤ Real.cosh x * (|d| + d ^ 2) := mul_le_mul_of_nonneg_left hsd (by linarith)
  have t3 : d ^ 2 ≤ 0.0005 * |d| := by
    rw [hsq, pow_two]
    refine mul_le_mul_of_nonneg_right (hd.trans (by norm_num)) (abs_nonneg _)
  have t4 : Real.cosh x * d ^ 2 ≤ Real.cosh x * (0.0005 * |d|) := mul_le_mul_of_nonneg_left t3 (by linarith)
  linarith

/-- the argument of `sinh` -/
theorem At.bandX {w sn W : R} {w0 s0 W0 A0 : ℝ} (hw : r.At w w0 (0.65 / 2 ^ 44)) (hs : r.At sn s0 (1.2 / 2 ^ 44)) (hW : r.At W W0 0)
    (hg : GainBounds A0 γ) (hs0 : 1 / 2 ^ 9 ≤ s0) (hs1 : s0 ≤ 1) (hsw : s0 ≤ w0) (hw4 : w0 ≤ 4) (hW0 : 0 < W0)
    (hsh : Real.sinh (Real.log 2 / 2 * W0 * w0 / s0) ≤ A0) :
    r.At (ln2 / 2 * W * w / sn : R) (Real.log 2 / 2 * W0 * w0 / s0) (2.65 * A0 / 2 ^ 44 / s0) ∧
      0 < Real.log 2 / 2 * W0 * w0 / s0 := by
  obtain ⟨g0, g1, g2, g3, g4⟩ := hg
  have spos : 0 < s0 := lt_of_lt_of_le (by norm_num) hs0
  have wpos : 0 < w0 := by linarith
  have l1 := Real.log_two_gt_d9
  have l2 := Real.log_two_lt_d9
  obtain ⟨x0, hx0⟩ : ∃ x0, x0 = Real.log 2 / 2 * W0 * w0 / s0 := ⟨_, rfl⟩
  rw [← hx0] at hsh ⊢
  have xpos : 0 < x0 := by rw [hx0]; positivity
  have xsh : x0 ≤ Real.sinh x0 := Real.self_le_sinh_iff.2 xpos.le
  have xA : x0 ≤ A0 := xsh.trans hsh
  have A4 : 1 / 4 ≤ A0 := by nlinarith
  obtain ⟨l, hl⟩ : ∃ l, l = Real.log 2 / 2 * W0 := ⟨_, rfl⟩
  have lpos : 0 < l := by rw [hl]; positivity
  have lw : l * w0 = x0 * s0 := by rw [hx0, hl]; field_simp
  have lx : l ≤ x0 := by
    have : l * s0 ≤ l * w0 := mul_le_mul_of_nonneg_left hsw lpos.le
    rw [lw] at this
    exact le_of_mul_le_mul_right this spos
  have W4 : W0 ≤ 2.89 * l := by rw [hl]; nlinarith
  have xs : x0 * s0 ≤ A0 := by nlinarith
  have l3 : r.At (ln2 / 2 : R) (Real.log 2 / 2) (0.26 / 2 ^ 44) := by
    refine At.div ha (x := (ln2 : R)) (v := Real.log 2) (δ := 1 / 2 ^ 45) ha.ln2 (At.two ha) (ω := 2) (V := 1 / 2) (e := 0.25 / 2 ^ 44)
      le_rfl (by norm_num) ?_ (by norm_num) (by norm_num) (by norm_num)
    rw [abs_of_pos (by linarith)]; linarith
  have l4 : r.At (ln2 / 2 * W : R) l (0.76 * l / 2 ^ 44 + 1 / 2 ^ 199) := by
    rw [hl]
    refine At.mul ha l3 hW (V := 1 / 2) (W := W0) (M := l) (e := 0.26 / 2 ^ 44 * W0) ?_ ?_ ?_ ?_ ?_ ?_
    · rw [abs_of_pos (by linarith)]; linarith
    · rw [abs_of_pos hW0]
    · rw [← hl, abs_of_pos lpos]
    · linarith
    · norm_num; linarith
    · rw [← hl]; norm_num; linarith
  have l5 : r.At (ln2 / 2 * W * w : R) (x0 * s0) (1.43 * A0 / 2 ^ 44) := by
    rw [← lw]
    refine At.mul ha l4 hw (V := l) (W := w0) (M := A0) (e := 1.42 * A0 / 2 ^ 44) ?_ ?_ ?_ ?_ ?_ ?_
    · rw [abs_of_pos lpos]
    · rw [abs_of_pos wpos]
    · rw [lw, abs_of_pos (by positivity)]; exact xs
    · have e : (0.76 * l / 2 ^ 44 + 1 / 2 ^ 199) * w0 + l * (0.65 / 2 ^ 44) + (0.76 * l / 2 ^ 44 + 1 / 2 ^ 199) * (0.65 / 2 ^ 44) =
        0.76 / 2 ^ 44 * (l * w0) + 1 / 2 ^ 199 * w0 + (0.65 / 2 ^ 44 + 0.76 * 0.65 / 2 ^ 88) * l + 1 / 2 ^ 199 * (0.65 / 2 ^ 44) := by ring
      rw [e, lw]
      norm_num; linarith
    · norm_num; linarith
    · norm_num; linarith
  refine ⟨?_, xpos⟩
  · have ex : x0 = x0 * s0 / s0 := by field_simp
    have i1 : 1 ≤ 1 / s0 := by rw [le_div_iff₀ spos]; linarith
    have i2 : A0 * 1 ≤ A0 * (1 / s0) := mul_le_mul_of_nonneg_left i1 g0.le
    have i3 : 1 / s0 ≤ 2 ^ 9 := by rw [div_le_iff₀ spos]; norm_num at hs0 ⊢; linarith
    have i4 : A0 * (1 / s0) ≤ 4 * 2 ^ 9 := mul_le_mul (by linarith) i3 (by positivity) (by norm_num)
    rw [ex]
    refine At.div ha l5 hs (ω := s0) (V := A0) (e := 2.64 * A0 / 2 ^ 44 * (1 / s0)) le_rfl ?_ ?_ ?_ ?_ ?_
    · norm_num at hs0 ⊢; linarith
    · rw [← ex, abs_of_pos xpos]; exact xA
    · have e : 2.64 * A0 / 2 ^ 44 * (1 / s0) * (s0 - 1.2 / 2 ^ 44) = 2.64 * A0 / 2 ^ 44 - 2.64 * 1.2 / 2 ^ 88 * (A0 * (1 / s0)) := by
        field_simp
      have i5 : A0 * (1 / s0) ≤ A0 * 2 ^ 9 := mul_le_mul_of_nonneg_left i3 g0.le
      rw [e]
      generalize A0 * (1 / s0) = z at *
      norm_num at i5 ⊢; linarith
    · rw [show 2.64 * A0 / 2 ^ 44 * (1 / s0) = 2.64 / 2 ^ 44 * (A0 * (1 / s0)) by ring]
      generalize A0 * (1 / s0) = z at *
      norm_num at i4 ⊢; linarith
    · rw [show 2.64 * A0 / 2 ^ 44 * (1 / s0) = 2.64 / 2 ^ 44 * (A0 * (1 / s0)) by ring,
        show 2.65 * A0 / 2 ^ 44 / s0 = 2.65 / 2 ^ 44 * (A0 * (1 / s0)) by ring]
      generalize A0 * (1 / s0) = z at *
      norm_num at i2 ⊢; linarith

/-- `AL = sn sinh (ln2 / 2 * bandWidth * w0 / sn)` -/
theorem At.bandAL {w sn W : R} {w0 s0 W0 A0 : ℝ} (hw : r.At w w0 (0.65 / 2 ^ 44)) (hs : r.At sn s0 (1.2 / 2 ^ 44)) (hW : r.At W W0 0)
    (hg : GainBounds A0 γ) (hs0 : 1 / 2 ^ 9 ≤ s0) (hs1 : s0 ≤ 1) (hsw : s0 ≤ w0) (hw4 : w0 ≤ 4) (hW0 : 0 < W0)
    (hsh : Real.sinh (Real.log 2 / 2 * W0 * w0 / s0) ≤ A0) :
    r.At (sn * FArith.sinh (ln2 / 2 * W * w / sn)) (s0 * Real.sinh (Real.log 2 / 2 * W0 * w0 / s0)) (5.5 * γ * A0 / 2 ^ 44) := by
  obtain ⟨l6, xpos⟩ := At.bandX ha hw hs hW hg hs0 hs1 hsw hw4 hW0 hsh
  obtain ⟨g0, g1, g2, g3, g4⟩ := hg
  have spos : 0 < s0 := lt_of_lt_of_le (by norm_num) hs0
  have A4 : 1 / 4 ≤ A0 := by
    have : A0 * γ ≤ A0 * 4 := mul_le_mul_of_nonneg_left g2 g0.le
    linarith
  generalize Real.log 2 / 2 * W0 * w0 / s0 = x0 at *
  have xsh : x0 ≤ Real.sinh x0 := Real.self_le_sinh_iff.2 xpos.le
  clear hw hW hsw hw4 hW0
  have sh0 : 0 < Real.sinh x0 := by linarith
  have ch : Real.cosh x0 ≤ 1.415 * γ := by
    have h1 := Real.cosh_sq x0
    have h2 : Real.sinh x0 ^ 2 ≤ γ ^ 2 := pow_le_pow_left₀ sh0.le (hsh.trans g3) 2
    have h3 : 1 ≤ γ ^ 2 := one_le_pow₀ g1
    refine abs_le_of_sq_le_sq' ?_ (by positivity) |>.2
    nlinarith
  have i1 : 1 ≤ 1 / s0 := by rw [le_div_iff₀ spos]; linarith
  have i3 : 1 / s0 ≤ 2 ^ 9 := by rw [div_le_iff₀ spos]; norm_num at hs0 ⊢; linarith
  have i4 : A0 * (1 / s0) ≤ 4 * 2 ^ 9 := mul_le_mul (by linarith) i3 (by positivity) (by norm_num)
  have d1 : 2.65 * A0 / 2 ^ 44 / s0 ≤ 1 / 2 ^ 30 := by
    rw [show 2.65 * A0 / 2 ^ 44 / s0 = 2.65 / 2 ^ 44 * (A0 * (1 / s0)) by ring]
    generalize A0 * (1 / s0) = z at *
    norm_num at i4 ⊢; linarith
  obtain ⟨y, hy⟩ : ∃ y, y = r.val (ln2 / 2 * W * w / sn : R) := ⟨_, rfl⟩
  have d2 := l6.2
  rw [← hy] at d2
  have d3 := sinh_near xpos.le (d2.trans d1)
  rw [add_sub_cancel] at d3
  have d4 : 1.001 * Real.cosh x0 * |y - x0| ≤ 1.001 * (1.415 * γ) * (2.65 * A0 / 2 ^ 44 / s0) :=
    mul_le_mul (by linarith) d2 (abs_nonneg _) (by positivity)
  have d5 := d3.trans d4
  obtain ⟨B, hB⟩ : ∃ B, B = γ * A0 / s0 := ⟨_, rfl⟩
  have eB : 1.001 * (1.415 * γ) * (2.65 * A0 / 2 ^ 44 / s0) = 1.001 * 1.415 * 2.65 / 2 ^ 44 * B := by rw [hB]; ring
  rw [eB] at d5
  have B1 : A0 ≤ B := by
    rw [hB, le_div_iff₀ spos]
    have t1 : A0 * s0 ≤ A0 * 1 := mul_le_mul_of_nonneg_left hs1 g0.le
    have t2 : 1 * A0 ≤ γ * A0 := mul_le_mul_of_nonneg_right g1 g0.le
    linarith
  have B2 : B ≤ 2 ^ 13 := by
    rw [hB, div_eq_mul_one_div]
    refine (mul_le_mul (mul_le_mul g2 (g3.trans g2) g0.le (by norm_num)) i3 (by positivity) (by norm_num)).trans (by norm_num)
  obtain ⟨d6, d7⟩ := abs_le.1 d5
  have hΩ : |Real.sinh y| ≤ Ω := by
    have := ha.le_Ω
    rw [abs_le]
    norm_num at d6 d7 B2 this
    constructor <;> linarith
  obtain ⟨f1, f2⟩ := ha.sinh (ln2 / 2 * W * w / sn : R) l6.1 (by rw [← hy]; exact hΩ)
  rw [← hy] at f2
  have ysh : |Real.sinh y| ≤ A0 + 3.8 / 2 ^ 44 * B := by
    rw [abs_le]
    norm_num at d6 d7 ⊢
    constructor <;> linarith
  have l7 : r.At (FArith.sinh (ln2 / 2 * W * w / sn : R)) (Real.sinh x0) (4.28 / 2 ^ 44 * B) := by
    refine ⟨f1, ?_⟩
    have := ha.η_le
    have tr := abs_sub_le (r.val (FArith.sinh (ln2 / 2 * W * w / sn : R))) (Real.sinh y) (Real.sinh x0)
    generalize |Real.sinh y| = z at *
    generalize |Real.sinh y - Real.sinh x0| = z' at *
    norm_num at d5 f2 ysh this ⊢
    linarith
  have eB' : B * s0 = γ * A0 := by rw [hB]; field_simp
  have k1 : A0 ≤ γ * A0 := le_mul_of_one_le_left g0.le g1
  have k2 : γ * A0 ≤ 16 := (mul_le_mul g2 (g3.trans g2) g0.le (by norm_num)).trans (by norm_num)
  refine At.mul ha hs l7 (V := s0) (W := A0) (M := A0) (e := 5.49 * (γ * A0) / 2 ^ 44) ?_ ?_ ?_ ?_ ?_ ?_
  · rw [abs_of_pos spos]
  · rw [abs_of_pos sh0]; exact hsh
  · rw [abs_of_pos (by positivity)]; exact (mul_le_mul hs1 hsh sh0.le (by norm_num)).trans (by linarith)
  · have e : 1.2 / 2 ^ 44 * A0 + s0 * (4.28 / 2 ^ 44 * B) + 1.2 / 2 ^ 44 * (4.28 / 2 ^ 44 * B) =
      1.2 / 2 ^ 44 * A0 + 4.28 / 2 ^ 44 * (B * s0) + 1.2 * 4.28 / 2 ^ 88 * B := by ring
    rw [e, eB']
    norm_num at B2 ⊢
    linarith
  · norm_num; linarith
  · rw [show 5.5 * γ * A0 / 2 ^ 44 = 5.5 * (γ * A0) / 2 ^ 44 by ring]
    norm_num; linarith

end ops
end Iir
