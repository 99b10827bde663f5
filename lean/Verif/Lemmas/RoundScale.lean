import Verif.Lemmas.RoundPairsNear

/-! # The factor by which `setLayout` scales the first section: distance from the ideal one -/

namespace Iir
open FArith Spec Cx Biquad Cascade

/-! ## Relative errors -/

/-- `x` is `y`, up to a relative error. -/
def Rel (x y e : ℝ) : Prop := |x - y| ≤ e * y

theorem Rel.trans {x y z a b : ℝ} (h : Rel x y a) (h' : Rel y z b) (ha : 0 ≤ a) :
    Rel x z (a + b + a * b) := by
  unfold Rel at *
  have h1 : y ≤ (1 + b) * z := by have := abs_le.1 h'; linarith
  have h2 := mul_le_mul_of_nonneg_left h1 ha
  have := abs_sub_le x y z
  linarith

theorem Rel.inv {x y e : ℝ} (h : Rel x y e) (hy : 0 < y) (he : e ≤ 1 / 2) : Rel (1 / x) (1 / y) (2 * e) := by
  unfold Rel at *
  have h1 := abs_le.1 h
  have h2 : e * y ≤ 1 / 2 * y := mul_le_mul_of_nonneg_right he hy.le
  have hx : y / 2 ≤ x := by linarith
  have hx0 : 0 < x := by linarith
  rw [div_sub_div _ _ hx0.ne' hy.ne', abs_div, abs_of_pos (a := x * y) (by positivity), div_le_iff₀ (by positivity), one_mul,
    mul_one, abs_sub_comm]
  have e1 : 2 * e * (1 / y) * (x * y) = 2 * e * x := by field_simp
  rw [e1]
  have he0 : 0 ≤ e := by
    by_contra hc
    have := mul_neg_of_neg_of_pos (not_le.1 hc) hy
    have := abs_nonneg (x - y)
    linarith
  have := mul_le_mul_of_nonneg_left hx he0
  linarith

theorem Rel.mul {x y x' y' a b : ℝ} (h : Rel x y a) (h' : Rel x' y' b) (hy : 0 ≤ y) (hy' : 0 ≤ y') (ha : 0 ≤ a) :
    Rel (x * x') (y * y') (a + b + a * b) := by
  unfold Rel at *
  have e : x * x' - y * y' = (x - y) * (x' - y') + (x - y) * y' + y * (x' - y') := by ring
  rw [e]
  refine (abs_add_three _ _ _).trans ?_
  rw [abs_mul, abs_mul, abs_mul, abs_of_nonneg hy, abs_of_nonneg hy']
  have h1 := mul_le_mul h h' (abs_nonneg _) (by positivity)
  have h2 := mul_le_mul_of_nonneg_right h hy'
  have h3 := mul_le_mul_of_nonneg_left h' hy
  linarith

theorem prod_one_add_le {n : ℕ} {x : ℕ → ℝ} (h0 : ∀ i < n, 0 ≤ x i) (h : ∑ i ∈ Finset.range n, x i ≤ 1 / 2) :
    ∏ i ∈ Finset.range n, (1 + x i) ≤ 1 + 2 * ∑ i ∈ Finset.range n, x i := by
  induction n with
  | zero => simp
  | succ n ih =>
    rw [Finset.sum_range_succ] at h ⊢
    rw [Finset.prod_range_succ]
    have hx := h0 n (Nat.lt_succ_self n)
    have hs : 0 ≤ ∑ i ∈ Finset.range n, x i := Finset.sum_nonneg fun i hi => h0 i (by have := Finset.mem_range.1 hi; omega)
    have := mul_le_mul_of_nonneg_right (ih (fun i hi => h0 i (by omega)) (by linarith)) (show 0 ≤ 1 + x n by linarith)
    nlinarith

theorem one_le_prod_range {n : ℕ} {x : ℕ → ℝ} (h : ∀ i < n, 1 ≤ x i) : 1 ≤ ∏ i ∈ Finset.range n, x i := by
  induction n with
  | zero => simp
  | succ n ih =>
    rw [Finset.prod_range_succ]
    exact one_le_mul_of_one_le_of_one_le (ih fun i hi => h i (by omega)) (h n (Nat.lt_succ_self n))

/-- The factor, in real numbers. -/
theorem factor_rel {C D c d a b h m f : ℝ} (hC : 0 < C) (hD : 0 < D) (ha : 0 ≤ a) (hb : 0 ≤ b) (ha' : a ≤ 1 / 16)
    (hb' : b ≤ 1 / 16) (h1 : Rel c C a) (h2 : Rel d D b) (h3 : Rel h (c / d) (1 / 2 ^ 44)) (h4 : Rel m h (1 / 2 ^ 44))
    (h5 : Rel f (1 / m) (1 / 2 ^ 50)) : Rel f (D / C) (3 * (a + 2 * b) + 1 / 2 ^ 40) := by
  have i := h2.inv hD (by linarith)
  have e1 := h1.mul i hC.le (by positivity) ha
  rw [mul_one_div, mul_one_div] at e1
  have hCD : 0 < C / D := by positivity
  have e2 := h3.trans e1 (by norm_num)
  have e3 := h4.trans e2 (by norm_num)
  have ab : a * (2 * b) ≤ 1 / 8 * a := by nlinarith
  have ab0 : 0 ≤ a * (2 * b) := by positivity
  obtain ⟨E, hE⟩ : ∃ E, E = 1 / 2 ^ 44 + (1 / 2 ^ 44 + (a + 2 * b + a * (2 * b)) + 1 / 2 ^ 44 * (a + 2 * b + a * (2 * b))) +
    1 / 2 ^ 44 * (1 / 2 ^ 44 + (a + 2 * b + a * (2 * b)) + 1 / 2 ^ 44 * (a + 2 * b + a * (2 * b))) := ⟨_, rfl⟩
  rw [← hE] at e3
  have hEle : E ≤ 1.2 * (a + 2 * b) + 1 / 2 ^ 42 := by
    rw [hE]
    generalize a * (2 * b) = w at *
    norm_num at *
    linarith
  have hE0 : 0 ≤ E := by rw [hE]; positivity
  have e4 := e3.inv hCD (by norm_num at *; linarith)
  have e5 := h5.trans e4 (by norm_num)
  rw [one_div_div] at e5
  have hDC : 0 < D / C := by positivity
  refine le_trans e5 (mul_le_mul_of_nonneg_right ?_ hDC.le)
  norm_num at *
  linarith

variable {R : Type} [FArith R] {u η Ω : ℝ} {r : Rounds R u η Ω}

/-- What the ideal sections have in common: `g` is a bound of the gain of the poles. -/
structure Tame (s : ℝ) (k : Coeffs) (g : ℝ) : Prop where
  b0 : k.b0 = 1
  b1 : |k.b1| ≤ 2
  b2 : |k.b2| ≤ 1
  a1 : |k.a1| ≤ 2
  a2 : |k.a2| ≤ 1
  one_le : 1 ≤ g
  top : 2 ≤ 1 + s * k.b1 + k.b2
  bot : 1 ≤ g * (1 + s * k.a1 + k.a2)

section ops
variable (hl : r.Library)
include hl

theorem top_close {s : ℝ} (hs : s = 1 ∨ s = -1) {b : Biquad R} {k' k : Coeffs} {g : ℝ} (h : Sect r s b k')
    (hn : CoefNear r b k) (ht : Tame s k g) {z1 z2 : Cx R} (h1 : Near r s z1) (h2 : Near r 1 z2) :
    ‖r.cval (b.respTop z1 z2) - (1 + s * k.b1 + k.b2 : ℝ)‖ ≤ 1 / 2 ^ 41 * (1 + s * k.b1 + k.b2) := by
  obtain ⟨f0, e0⟩ := ratio_near hl h.a0 h.b0
  obtain ⟨f1, e1⟩ := ratio_near hl h.a0 h.b1
  obtain ⟨f2, e2⟩ := ratio_near hl h.a0 h.b2
  have b0 := h.b0.2; have b1 := h.b1.2; have b2 := h.b2.2
  have i0 : r.In (b.b0 * b.a0 / b.a0) (-(37 / 4)) (37 / 4) := by
    refine ⟨f0, ?_, ?_⟩ <;> rw [abs_le] at * <;> norm_num at * <;> linarith
  obtain ⟨-, p2, -, p4⟩ := quad_near hl (x0 := ofR (b.getB0 / b.getA0)) hs h1 h2 le_rfl i0 r.zero.1 r.zero.2 f1 f2
    (abs_le.2 b1) (abs_le.2 b2) e1 e2
  change |(r.cval (b.respTop z1 z2)).re - (r.val (b.b0 * b.a0 / b.a0) + _ + _)| ≤ _ at p2
  change |(r.cval (b.respTop z1 z2)).im| ≤ _ at p4
  change |r.val (b.b0 * b.a0 / b.a0) - r.val b.b0| ≤ _ at e0
  refine (Complex.norm_le_abs_re_add_abs_im _).trans ?_
  rw [Complex.sub_re, Complex.sub_im, Complex.ofReal_re, Complex.ofReal_im, _root_.sub_zero]
  have n0 := hn.b0; have n1 := hn.b1; have n2 := hn.b2
  have t1 := ht.b1; have t2 := ht.b2; have t3 := ht.top
  rw [ht.b0] at n0
  have a1 : |r.val b.b1| ≤ 2.01 := by
    have := abs_sub_abs_le_abs_sub (r.val b.b1) k.b1
    norm_num at *
    linarith
  have a2 : |r.val b.b2| ≤ 1.01 := by
    have := abs_sub_abs_le_abs_sub (r.val b.b2) k.b2
    norm_num at *
    linarith
  have sb : |s * r.val b.b1 - s * k.b1| ≤ 1 / 2 ^ 47 := by
    rw [← mul_sub, abs_mul]
    rcases hs with rfl | rfl <;> simpa using n1
  have re : |(r.cval (b.respTop z1 z2)).re - (1 + s * k.b1 + k.b2)| ≤ 4 / 2 ^ 43 := by
    generalize |r.val b.b1| = t1a at *
    generalize |r.val b.b2| = t2a at *
    generalize s * r.val b.b1 = sb1 at *
    generalize s * k.b1 = sk1 at *
    rw [abs_le] at e0 p2 n0 n2 sb ⊢
    norm_num at *
    constructor <;> linarith
  have im : |(r.cval (b.respTop z1 z2)).im| ≤ 4 / 2 ^ 43 := by
    refine p4.trans ?_
    norm_num at *
    linarith
  norm_num at *
  linarith

theorem bot_close {s : ℝ} (hs : s = 1 ∨ s = -1) {b : Biquad R} {k' k : Coeffs} {g : ℝ} (h : Sect r s b k')
    (hn : CoefNear r b k) (ht : Tame s k g) {z1 z2 : Cx R} (h1 : Near r s z1) (h2 : Near r 1 z2) :
    ‖r.cval (b.respBot z1 z2) - (1 + s * k.a1 + k.a2 : ℝ)‖ ≤ g / 2 ^ 36 * (1 + s * k.a1 + k.a2) := by
  have hone := In.one hl.toAccurate (r := r)
  have hv1 : r.val (1 : R) = 1 := le_antisymm hone.2.2 hone.2.1
  obtain ⟨f1, e1⟩ := ratio_near hl h.a0 (In.mono h.a1 (by norm_num) (by norm_num))
  obtain ⟨f2, e2⟩ := ratio_near hl h.a0 (In.mono h.a2 (by norm_num) (by norm_num))
  have b1 := h.a1.2; have b2 := h.a2.2
  obtain ⟨-, p2, -, p4⟩ := quad_near hl (B := 3) (x0 := ofR (1 : R)) hs h1 h2 (by norm_num)
    (In.mono hone (by norm_num) (by norm_num)) r.zero.1 r.zero.2 f1 f2
    (abs_le.2 b1) ((abs_le.2 b2).trans (by norm_num)) e1 e2
  change |(r.cval (b.respBot z1 z2)).re - (r.val (1 : R) + _ + _)| ≤ _ at p2
  change |(r.cval (b.respBot z1 z2)).im| ≤ _ at p4
  rw [hv1] at p2
  refine (Complex.norm_le_abs_re_add_abs_im _).trans ?_
  rw [Complex.sub_re, Complex.sub_im, Complex.ofReal_re, Complex.ofReal_im, _root_.sub_zero]
  have n1 := hn.a1; have n2 := hn.a2
  have t1 := ht.a1; have t2 := ht.a2; have t3 := ht.bot
  have a1 : |r.val b.a1| ≤ 2.01 := by
    have := abs_sub_abs_le_abs_sub (r.val b.a1) k.a1
    norm_num at *
    linarith
  have a2 : |r.val b.a2| ≤ 1.01 := by
    have := abs_sub_abs_le_abs_sub (r.val b.a2) k.a2
    norm_num at *
    linarith
  have sb : |s * r.val b.a1 - s * k.a1| ≤ 1 / 2 ^ 38 := by
    rw [← mul_sub, abs_mul]
    rcases hs with rfl | rfl <;> simpa using n1
  have re : |(r.cval (b.respBot z1 z2)).re - (1 + s * k.a1 + k.a2)| ≤ 1 / 2 ^ 37 + 4 / 2 ^ 43 := by
    generalize |r.val b.a1| = t1a at *
    generalize |r.val b.a2| = t2a at *
    generalize s * r.val b.a1 = sb1 at *
    generalize s * k.a1 = sk1 at *
    rw [abs_le] at p2 n2 sb ⊢
    norm_num at *
    constructor <;> linarith
  have im : |(r.cval (b.respBot z1 z2)).im| ≤ 4 / 2 ^ 43 := by
    refine p4.trans ?_
    norm_num at *
    linarith
  rw [div_mul_eq_mul_div]
  generalize g * (1 + s * k.a1 + k.a2) = w at *
  norm_num at *
  linarith

/-- a product of two numbers with relative errors -/
theorem cmul_rel {z w : Cx R} {Z W : ℂ} {a b : ℝ} (hz : r.CFin z) (hw : r.CFin w) (h2 : ‖r.cval z‖ ≤ 2 ^ 400)
    (h4 : ‖r.cval w‖ ≤ 2 ^ 400) (hlo : 1 / 2 ^ 900 ≤ ‖r.cval z * r.cval w‖) (ha : 0 ≤ a)
    (h1 : ‖r.cval z - Z‖ ≤ a * ‖Z‖) (h3 : ‖r.cval w - W‖ ≤ b * ‖W‖) :
    ‖r.cval (cmul z w) - Z * W‖ ≤ ((1 + a) * (1 + b) * (1 + 1 / 2 ^ 44) - 1) * ‖Z * W‖ := by
  obtain ⟨f, e⟩ := hl.cmul z w hz hw h2 h4
  have ht := tiny_le hl (n := 900 + 45) (by omega)
  rw [pow_add, ← one_div_mul_one_div] at ht
  have e1 : ‖r.cval (cmul z w) - r.cval z * r.cval w‖ ≤ 1 / 2 ^ 44 * ‖r.cval z * r.cval w‖ := by
    generalize (1 : ℝ) / 2 ^ 900 = A at *
    generalize ‖r.cval z * r.cval w‖ = B at *
    norm_num at e ht ⊢
    linarith
  have e2 : ‖r.cval z * r.cval w - Z * W‖ ≤ ((1 + a) * (1 + b) - 1) * ‖Z * W‖ := by
    have e3 : r.cval z * r.cval w - Z * W = (r.cval z - Z) * (r.cval w - W) + (r.cval z - Z) * W + Z * (r.cval w - W) := by ring
    rw [e3]
    refine (norm_add₃_le).trans ?_
    rw [norm_mul, norm_mul, norm_mul, norm_mul]
    have k1 := mul_le_mul h1 h3 (norm_nonneg _) (by positivity)
    have k2 := mul_le_mul_of_nonneg_right h1 (norm_nonneg W)
    have k3 := mul_le_mul_of_nonneg_left h3 (norm_nonneg Z)
    linarith
  have e4 : ‖r.cval z * r.cval w‖ ≤ (1 + a) * (1 + b) * ‖Z * W‖ := by
    have := norm_le_norm_add_norm_sub' (r.cval z * r.cval w) (Z * W)
    linarith
  have := norm_sub_le_norm_sub_add_norm_sub (r.cval (cmul z w)) (r.cval z * r.cval w) (Z * W)
  have := mul_le_mul_of_nonneg_left e4 (show (0 : ℝ) ≤ 1 / 2 ^ 44 by positivity)
  linarith

open Finset in
/-- The loop of `response`. -/
theorem respLoop_close {s : ℝ} (hs : s = 1 ∨ s = -1) {c : Cascade R} {z1 z2 : Cx R} (h1 : Near r s z1)
    (h2 : Near r 1 z2) {K : ℕ → Coeffs} {g : ℕ → ℝ} (n : ℕ) (hn : n ≤ 8)
    (h : ∀ i < n, ∃ b k, c.stages[i]? = some b ∧ Sect r s b k ∧ CoefNear r b (K i) ∧ Tame s (K i) (g i)) :
    ∃ ch cb, c.respLoop z1 z2 n = .ok (ch, cb) ∧ r.CFin ch ∧ r.CFin cb ∧
      (1 / 2 ^ (21 * n) ≤ ‖r.cval ch‖ ∧ ‖r.cval ch‖ ≤ 2 ^ (7 * n) ∧
      1 / 2 ^ (41 * n) ≤ ‖r.cval cb‖ ∧ ‖r.cval cb‖ ≤ 2 ^ (7 * n)) ∧
      ‖r.cval ch - (∏ i ∈ range n, (1 + s * (K i).b1 + (K i).b2) : ℝ)‖ ≤
        (∏ _i ∈ range n, (1 + 1 / 2 ^ 40 : ℝ) - 1) * ‖((∏ i ∈ range n, (1 + s * (K i).b1 + (K i).b2) : ℝ) : ℂ)‖ ∧
      ‖r.cval cb - (∏ i ∈ range n, (1 + s * (K i).a1 + (K i).a2) : ℝ)‖ ≤
        (∏ i ∈ range n, (1 + 1.1 * g i / 2 ^ 36) - 1) * ‖((∏ i ∈ range n, (1 + s * (K i).a1 + (K i).a2) : ℝ) : ℂ)‖ := by
  induction n with
  | zero =>
    have hone := In.one hl.toAccurate (r := r)
    have hv1 : r.val (1 : R) = 1 := le_antisymm hone.2.2 hone.2.1
    have e0 : r.cval (ofR (1 : R)) = 1 := Complex.ext hv1 r.zero.2
    refine ⟨_, _, rfl, ⟨hone.1, r.zero.1⟩, ⟨hone.1, r.zero.1⟩, ?_⟩
    rw [e0, norm_one]; norm_num
  | succ n ih =>
    obtain ⟨ch, cb, e, f1, f2, ⟨b1, b2, b3, b4⟩, i1, i2⟩ := ih (by omega) fun i hi => h i (by omega)
    obtain ⟨b, k, hb, hk, hc, ht⟩ := h n (by omega)
    obtain ⟨t1, t2, t3⟩ := top_near hl hs hk h1 h2
    obtain ⟨s1, s2, s3⟩ := bot_near hl hs hk h1 h2
    obtain ⟨g1, g2, g3⟩ := cmul_range hl f1 t1 b1 b2 t2 t3 (by omega) (by omega) (by omega)
    obtain ⟨g4, g5, g6⟩ := cmul_range hl f2 s1 b3 b4 s2 s3 (by omega) (by omega) (by omega)
    have p : ∀ {n : ℕ}, n ≤ 400 → (2 : ℝ) ^ n ≤ 2 ^ 400 := fun h => pow_le_pow_right₀ (by norm_num) h
    have q : ∀ {n : ℕ}, n ≤ 900 → (1 : ℝ) / 2 ^ 900 ≤ 1 / 2 ^ n := fun h =>
      one_div_le_one_div_of_le (by positivity) (pow_le_pow_right₀ (by norm_num) h)
    have lo : ∀ {x y : ℂ} {a c : ℕ}, 1 / 2 ^ a ≤ ‖x‖ → 1 / 2 ^ c ≤ ‖y‖ → a + c ≤ 900 → 1 / 2 ^ 900 ≤ ‖x * y‖ := by
      intro x y a c hx hy hac
      refine (q hac).trans ?_
      rw [norm_mul, pow_add, ← one_div_mul_one_div]
      exact mul_le_mul hx hy (by positivity) (norm_nonneg _)
    have tc := top_close hl hs hk hc ht h1 h2
    have bc := bot_close hl hs hk hc ht h1 h2
    have topp : 0 < 1 + s * (K n).b1 + (K n).b2 := by have := ht.top; linarith
    have botp : 0 < 1 + s * (K n).a1 + (K n).a2 := by
      have h3 := ht.bot; have h4 := ht.one_le
      by_contra hc
      have := mul_nonpos_of_nonneg_of_nonpos (by linarith : 0 ≤ g n) (not_lt.1 hc)
      linarith
    have tn : ‖((1 + s * (K n).b1 + (K n).b2 : ℝ) : ℂ)‖ = 1 + s * (K n).b1 + (K n).b2 := by
      rw [Complex.norm_real, Real.norm_of_nonneg topp.le]
    have bn : ‖((1 + s * (K n).a1 + (K n).a2 : ℝ) : ℂ)‖ = 1 + s * (K n).a1 + (K n).a2 := by
      rw [Complex.norm_real, Real.norm_of_nonneg botp.le]
    replace tc := tc.trans_eq (show _ = 1 / 2 ^ 41 * ‖((1 + s * (K n).b1 + (K n).b2 : ℝ) : ℂ)‖ by rw [tn])
    replace bc := bc.trans_eq (show _ = g n / 2 ^ 36 * ‖((1 + s * (K n).a1 + (K n).a2 : ℝ) : ℂ)‖ by rw [bn])
    have P1 : 1 ≤ ∏ _i ∈ range n, (1 + 1 / 2 ^ 40 : ℝ) := by
      rw [prod_const]; exact one_le_pow₀ (by norm_num)
    have P2 : 1 ≤ ∏ i ∈ range n, (1 + 1.1 * g i / 2 ^ 36) := by
      refine one_le_prod_range fun i hi => ?_
      obtain ⟨_, _, _, _, _, ht⟩ := h i (by omega)
      have := ht.one_le
      have : 0 ≤ 1.1 * g i / 2 ^ 36 := by positivity
      linarith
    have gn := ht.one_le
    have m1 := cmul_rel hl f1 t1 (b2.trans (p (by omega))) (t3.trans (p (by norm_num))) (lo b1 t2 (by omega)) (by linarith) i1 tc
    have m2 := cmul_rel hl f2 s1 (b4.trans (p (by omega))) (s3.trans (p (by norm_num))) (lo b3 s2 (by omega)) (by linarith) i2 bc
    refine ⟨cmul ch (b.respTop z1 z2), cmul cb (b.respBot z1 z2), ?_, g1, g4, ⟨g2, g3, g5, g6⟩, ?_, ?_⟩
    · have : c.stageAt n = .ok b := by unfold stageAt; rw [hb]
      show (c.respLoop z1 z2 n).bind _ = _
      rw [e]
      show (c.stageAt n).bind _ = _
      rw [this]; rfl
    · rw [prod_range_succ, prod_range_succ (fun _ => (1 + 1 / 2 ^ 40 : ℝ)), Complex.ofReal_mul]
      refine m1.trans (mul_le_mul_of_nonneg_right ?_ (norm_nonneg _))
      rw [add_sub_cancel, mul_assoc]
      refine sub_le_sub_right (mul_le_mul_of_nonneg_left ?_ (by linarith)) _
      norm_num
    · rw [prod_range_succ, prod_range_succ (fun i => 1 + 1.1 * g i / 2 ^ 36), Complex.ofReal_mul]
      refine m2.trans (mul_le_mul_of_nonneg_right ?_ (norm_nonneg _))
      rw [add_sub_cancel, mul_assoc]
      refine sub_le_sub_right (mul_le_mul_of_nonneg_left ?_ (by linarith)) _
      norm_num
      linarith

omit hl in
theorem norm_rel {z : ℂ} {C a : ℝ} (hC : 0 ≤ C) (h : ‖z - (C : ℂ)‖ ≤ a * ‖(C : ℂ)‖) : Rel ‖z‖ C a := by
  rw [Complex.norm_real, Real.norm_of_nonneg hC] at h
  refine le_trans ?_ h
  have := abs_norm_sub_norm_le z (C : ℂ)
  rwa [Complex.norm_real, Real.norm_of_nonneg hC] at this

/-- One over a number. -/
theorem one_over {g m : R} (hg : r.In g 1 1) (hm : r.Fin m) (h0 : 0 < r.val m) (h2 : 1 / 2 ^ 301 ≤ r.val m)
    (h1 : r.val m ≤ 2 ^ 401) : Rel (r.val (g / m)) (1 / r.val m) (1 / 2 ^ 50) := by
  have hg1 : r.val g = 1 := le_antisymm hg.2.2 hg.2.1
  have p1 : 1 / 2 ^ 401 ≤ 1 / r.val m := one_div_le_one_div_of_le h0 h1
  have hη : η ≤ 1 / r.val m * (1 / 2 ^ 60) := by
    have t := tiny_le hl (n := 461) (by norm_num)
    have e : (1 : ℝ) / 2 ^ 461 = 1 / 2 ^ 401 * (1 / 2 ^ 60) := by rw [one_div_mul_one_div, ← pow_add]
    have := r.η_nonneg
    rw [e] at t
    have t2 := t.trans (mul_le_mul_of_nonneg_right p1 (by positivity : (0 : ℝ) ≤ 1 / 2 ^ 60))
    clear t e p1
    linarith
  have p2 : 0 < 1 / r.val m := by positivity
  have big : |r.val g / r.val m| ≤ Ω := by
    rw [hg1, abs_of_pos p2]
    refine (one_div_le_one_div_of_le (by positivity) h2).trans ?_
    rw [one_div_one_div]
    exact (pow_le_pow_right₀ (by norm_num) (by norm_num)).trans hl.Ω_huge
  have e := (hl.div _ _ hg.1 hm h0.ne' big).2
  rw [hg1, abs_of_pos p2] at e
  refine e.trans ?_
  have := mul_le_mul_of_nonneg_right hl.u_le p2.le
  clear p1 big
  generalize 1 / r.val m = M at *
  norm_num at *
  linarith

open Finset in
/-- The factor by which the first section is scaled. -/
theorem factor_close {s : ℝ} {f g : R} (hf : AtEnd r s f) (hg : r.In g 1 1) {c : Cascade R} {n : ℕ} (hn : c.numStages = n)
    (hn0 : 1 ≤ n) (hn8 : n ≤ 8) {K : ℕ → Coeffs} {G : ℕ → ℝ}
    (h : ∀ i < n, ∃ b k, c.stages[i]? = some b ∧ Sect r s b k ∧ CoefNear r b (K i) ∧ Tame s (K i) (G i))
    (hG : ∑ i ∈ range n, G i ≤ 2 ^ 29) :
    ∃ h, c.response f = .ok h ∧ (r.Fin (g / cabs h) ∧ |r.val (g / cabs h)| ≤ 2 ^ 303) ∧
      Rel (r.val (g / cabs h)) ((∏ i ∈ range n, (1 + s * (K i).a1 + (K i).a2)) / ∏ i ∈ range n, (1 + s * (K i).b1 + (K i).b2))
        (0.86 * (∑ i ∈ range n, G i) / 2 ^ 32) := by
  obtain ⟨h', e0, hfin, r1, r2⟩ := response_range hl hf (c := c) (by omega) (fun i hi => by
    obtain ⟨b, k, h1, h2, -⟩ := h i (by omega); exact ⟨b, k, h1, h2⟩)
  refine ⟨h', e0, factor_fin hl (In.mono hg (by norm_num) (by norm_num)) hfin r1 r2, ?_⟩
  obtain ⟨z1, z2, e1, e2, n1, n2⟩ := points hl hf
  obtain ⟨ch, cb, e3, f1, f2, ⟨b1, b2, b3, b4⟩, c1, c2⟩ := respLoop_close hl hf.sign n1 n2 n hn8 h
  have eh : h' = cdiv ch cb := by
    have hv := hf.2
    have hz := r.zero
    have hh := hl.half
    unfold Cascade.response at e0
    rw [if_neg, if_neg] at e0
    · change (polarC 1 (-(2 * FArith.pi * f))).bind _ = _ at e0
      rw [e1] at e0
      change (polarC 1 (-2 * (2 * FArith.pi * f))).bind _ = _ at e0
      rw [e2] at e0
      change (c.respLoop z1 z2 c.numStages).bind _ = _ at e0
      rw [hn, e3] at e0
      exact (Res.ok.inj e0).symm
    · rw [hl.flt _ _ hf.1 hz.1, hz.2]
      rcases hv with ⟨-, h⟩ | ⟨-, h⟩ <;> rw [h] <;> norm_num
    · rw [hl.flt _ _ hh.1 hf.1, hh.2]
      rcases hv with ⟨-, h⟩ | ⟨-, h⟩ <;> rw [h] <;> norm_num
  have p : ∀ {n : ℕ}, n ≤ 400 → (2 : ℝ) ^ n ≤ 2 ^ 400 := fun h => pow_le_pow_right₀ (by norm_num) h
  have q : (1 : ℝ) / 2 ^ 400 ≤ 1 / 2 ^ (41 * n) := one_div_le_one_div_of_le (by positivity) (p (by omega))
  have topp : ∀ i < n, 0 < 1 + s * (K i).b1 + (K i).b2 := fun i hi => by
    obtain ⟨_, _, _, _, _, ht⟩ := h i hi
    have := ht.top; linarith
  have gp : ∀ i < n, 1 ≤ G i := fun i hi => by
    obtain ⟨_, _, _, _, _, ht⟩ := h i hi
    exact ht.one_le
  have botp : ∀ i < n, 0 < 1 + s * (K i).a1 + (K i).a2 := fun i hi => by
    obtain ⟨_, _, _, _, _, ht⟩ := h i hi
    have h3 := ht.bot; have h4 := ht.one_le
    by_contra hc
    have := mul_nonpos_of_nonneg_of_nonpos (by linarith : 0 ≤ G i) (not_lt.1 hc)
    linarith
  have C0 : 0 < ∏ i ∈ range n, (1 + s * (K i).b1 + (K i).b2) := prod_pos fun i hi => topp i (mem_range.1 hi)
  have D0 : 0 < ∏ i ∈ range n, (1 + s * (K i).a1 + (K i).a2) := prod_pos fun i hi => botp i (mem_range.1 hi)
  have k1 := norm_rel C0.le c1
  have k2 := norm_rel D0.le c2
  have Gn : (n : ℝ) ≤ ∑ i ∈ range n, G i := by
    have : ∑ i ∈ range n, (1 : ℝ) ≤ ∑ i ∈ range n, G i := sum_le_sum fun i hi => gp i (mem_range.1 hi)
    simpa using this
  have hn0' : (1 : ℝ) ≤ n := by exact_mod_cast hn0
  have hn8' : (n : ℝ) ≤ 8 := by exact_mod_cast hn8
  have sA : ∑ _i ∈ range n, (1 / 2 ^ 40 : ℝ) = n * (1 / 2 ^ 40) := by simp
  have a1 := prod_one_add_le (n := n) (x := fun _ => 1 / 2 ^ 40) (fun _ _ => by positivity)
    (by rw [sA]; norm_num; linarith)
  rw [sA] at a1
  have a0 : 1 ≤ ∏ _i ∈ range n, (1 + 1 / 2 ^ 40 : ℝ) := one_le_prod_range fun i _ => by norm_num
  have sB : ∑ i ∈ range n, 1.1 * G i / 2 ^ 36 = 1.1 / 2 ^ 36 * ∑ i ∈ range n, G i := by
    rw [mul_sum]; exact sum_congr rfl fun i _ => by ring
  have a2 := prod_one_add_le (n := n) (x := fun i => 1.1 * G i / 2 ^ 36) (fun i hi => by
      have := gp i hi; positivity) (by rw [sB]; norm_num at *; linarith)
  rw [sB] at a2
  have a3 : 1 ≤ ∏ i ∈ range n, (1 + 1.1 * G i / 2 ^ 36) := one_le_prod_range fun i hi => by
    have := gp i hi
    have : 0 ≤ 1.1 * G i / 2 ^ 36 := by positivity
    linarith
  -- quotient and modulus
  obtain ⟨d1, d2⟩ := hl.cdiv ch cb f1 f2 (b2.trans (p (by omega))) (q.trans b3) (b4.trans (p (by omega)))
  rw [← eh] at d1 d2
  obtain ⟨m1, m2⟩ := hl.cabs h' d1 r2
  have tiny := tiny_le hl (n := 800) (by norm_num)
  have big : (1 : ℝ) / 2 ^ 300 ≤ 1 / 2 ^ 300 := le_rfl
  have cb0 : 0 < ‖r.cval cb‖ := lt_of_lt_of_le (by positivity) b3
  have split : (1 : ℝ) / 2 ^ 800 = 1 / 2 ^ 300 * (1 / 2 ^ 500) := by rw [one_div_mul_one_div, ← pow_add]
  have small : (1 : ℝ) / 2 ^ 500 ≤ 1 / 2 ^ 60 := one_div_le_one_div_of_le (by positivity) (pow_le_pow_right₀ (by norm_num) (by norm_num))
  have tiny2 : 16 * η ≤ ‖r.cval h'‖ * (1 / 2 ^ 60) := by
    refine tiny.trans ?_
    rw [split]
    exact mul_le_mul r1 small (by positivity) (norm_nonneg _)
  have hη := r.η_nonneg
  clear tiny split small big q
  have k3 : Rel ‖r.cval h'‖ (‖r.cval ch‖ / ‖r.cval cb‖) (1 / 2 ^ 44) := by
    unfold Rel
    have e := abs_norm_sub_norm_le (r.cval h') (r.cval ch / r.cval cb)
    rw [norm_div] at e d2
    have up := abs_le.1 (e.trans d2)
    have hb : ‖r.cval h'‖ ≤ 2 * (‖r.cval ch‖ / ‖r.cval cb‖) := by
      have : 0 ≤ ‖r.cval ch‖ / ‖r.cval cb‖ := by positivity
      generalize ‖r.cval ch‖ / ‖r.cval cb‖ = Q at *
      norm_num at up tiny2
      linarith
    refine (e.trans d2).trans ?_
    generalize ‖r.cval ch‖ / ‖r.cval cb‖ = Q at *
    norm_num at tiny2 ⊢
    linarith
  have k4 : Rel (r.val (cabs h')) ‖r.cval h'‖ (1 / 2 ^ 44) := by
    refine m2.trans ?_
    norm_num at tiny2 ⊢
    linarith
  have hpos : 0 < ‖r.cval h'‖ := lt_of_lt_of_le (by positivity) r1
  have cpos : 0 < r.val (cabs h') := by
    have := abs_le.1 k4
    norm_num at this
    linarith
  have k5 : Rel (r.val (g / cabs h')) (1 / r.val (cabs h')) (1 / 2 ^ 50) := by
    exact one_over hl hg m1 cpos (by
      have h2 := abs_le.1 k4
      have h3 : ‖r.cval h'‖ / 2 ≤ r.val (cabs h') := by norm_num at h2; linarith
      refine le_trans ?_ ((div_le_div_of_nonneg_right r1 (by norm_num : (0 : ℝ) ≤ 2)).trans h3)
      rw [pow_succ (2 : ℝ) 300, div_div]) (by
      have h2 := abs_le.1 k4
      have h3 : r.val (cabs h') ≤ 2 * ‖r.cval h'‖ := by norm_num at h2; linarith
      refine (h3.trans (mul_le_mul_of_nonneg_left r2 (by norm_num))).trans (le_of_eq ?_)
      rw [pow_succ (2 : ℝ) 400, mul_comm])
  refine le_trans (factor_rel C0 D0 (sub_nonneg.2 a0) (sub_nonneg.2 a3) ?_ ?_ k1 k2 k3 k4 k5)
    (mul_le_mul_of_nonneg_right ?_ (by positivity))
  all_goals
    generalize (∏ i ∈ range n, (1 + 1.1 * G i / 2 ^ 36)) = P at *
    generalize (∏ _i ∈ range n, (1 + 1 / 2 ^ 40 : ℝ)) = Q at *
    generalize (∑ i ∈ range n, G i) = S at *
    generalize (n : ℝ) = N at *
    clear * - a1 a2 hn0' hn8' hG Gn
    norm_num at a1 a2 hG ⊢
    linarith

end ops
end Iir
