import Verif.Lemmas.RoundStages

/-! # Rounding errors of `response ()` -/

namespace Iir
open FArith Spec Cx Biquad Cascade

variable {R : Type} [FArith R] {u η Ω : ℝ} {r : Rounds R u η Ω}

section ops
variable (hl : r.Library)
include hl

/-- underflow is negligible -/
theorem eta_le {μ : ℝ} (hμ : 1 / 2 ^ 500 ≤ μ) : η ≤ μ / 2 ^ 170 := by
  have h := tiny_le hl (n := 670) (by norm_num)
  have e : (1 : ℝ) / 2 ^ 670 = 1 / 2 ^ 500 * (1 / 2 ^ 170) := by rw [one_div_mul_one_div, ← pow_add]
  rw [e] at h
  have h2 := mul_le_mul_of_nonneg_right hμ (show (0 : ℝ) ≤ 1 / 2 ^ 170 by positivity)
  have := r.η_nonneg
  rw [div_eq_mul_one_div]
  linarith

/-- `v * a / a` -/
theorem ratio_rel {v a : R} (hv : r.Fin v) (ha : r.Fin a) (a1 : 1 / 2 ^ 100 ≤ |r.val a|) (a2 : |r.val a| ≤ 2 ^ 100) {μ : ℝ}
    (hμ : 1 / 2 ^ 500 ≤ μ) (hμ' : μ ≤ 2 ^ 50) (hb : |r.val v| ≤ 4 * μ) :
    r.Fin (v * a / a) ∧ |r.val (v * a / a) - r.val v| ≤ μ / 2 ^ 48 := by
  have hA := hl.toAccurate
  have hη := eta_le hl hμ
  have h0 : 0 < |r.val a| := lt_of_lt_of_le (by positivity) a1
  have ha0 : r.val a ≠ 0 := abs_pos.1 h0
  have big : (2 : ℝ) ^ 200 ≤ Ω := hA.le_Ω
  have hu := hA.u_le
  have hη0 := r.η_nonneg
  have μ0 : 0 < μ := lt_of_lt_of_le (by positivity) hμ
  obtain ⟨f1, e1⟩ := r.mul v a hv ha (by
    rw [abs_mul]
    refine le_trans (mul_le_mul (hb.trans (mul_le_mul_of_nonneg_left hμ' (by norm_num))) a2 h0.le (by norm_num)) (le_trans ?_ big)
    norm_num)
  have hd : |r.val (v * a) / r.val a - r.val v| ≤ u * |r.val v| + η / |r.val a| := by
    have e : r.val (v * a) / r.val a - r.val v = (r.val (v * a) - r.val v * r.val a) / r.val a := by field_simp
    rw [e, abs_div, div_le_iff₀ h0, add_mul, div_mul_cancel₀ _ h0.ne', mul_assoc, ← abs_mul]
    exact e1
  have hηa : η / |r.val a| ≤ μ / 2 ^ 70 := by
    rw [div_le_iff₀ h0]
    refine hη.trans ?_
    have := mul_le_mul_of_nonneg_left a1 (show 0 ≤ μ / 2 ^ 70 by positivity)
    refine le_trans (le_of_eq ?_) this
    rw [div_mul_div_comm, mul_one, ← pow_add]
  have hd' : |r.val (v * a) / r.val a - r.val v| ≤ μ / 2 ^ 50 := by
    have := mul_le_mul hu hb (abs_nonneg _) (by norm_num)
    norm_num at *
    linarith
  have hq : |r.val (v * a) / r.val a| ≤ 5 * μ := by
    have := abs_sub_abs_le_abs_sub (r.val (v * a) / r.val a) (r.val v)
    norm_num at *
    linarith
  obtain ⟨f2, e2⟩ := hA.div _ _ f1 ha ha0 (by
    refine hq.trans (le_trans (mul_le_mul_of_nonneg_left hμ' (by norm_num)) (le_trans ?_ big))
    norm_num)
  refine ⟨f2, (abs_sub_le _ (r.val (v * a) / r.val a) _).trans ?_⟩
  have := mul_le_mul hu hq (abs_nonneg _) (by norm_num)
  norm_num at *
  linarith

/-- one component of `addmul` -/
theorem fma_rel {x v c : R} {μ : ℝ} (hμ : 1 / 2 ^ 500 ≤ μ) (hμ' : μ ≤ 2 ^ 50) (hx : r.Fin x) (hv : r.Fin v) (hc : r.Fin c)
    (bx : |r.val x| ≤ 21 * μ) (bv : |r.val v| ≤ 5 * μ) (bc : |r.val c| ≤ 2) :
    r.Fin (x + v * c) ∧ |r.val (x + v * c) - (r.val x + r.val v * r.val c)| ≤ μ / 2 ^ 47 := by
  have hA := hl.toAccurate
  have hη := eta_le hl hμ
  have big : (2 : ℝ) ^ 200 ≤ Ω := hA.le_Ω
  have hu := hA.u_le
  have μ0 : 0 < μ := lt_of_lt_of_le (by positivity) hμ
  have hm : |r.val v * r.val c| ≤ 10 * μ := by
    rw [abs_mul]
    refine (mul_le_mul bv bc (abs_nonneg _) (by positivity)).trans (by linarith)
  obtain ⟨f1, e1⟩ := r.mul v c hv hc (hm.trans (le_trans (mul_le_mul_of_nonneg_left hμ' (by norm_num)) (le_trans (by norm_num) big)))
  have k1 := mul_le_mul hu hm (abs_nonneg _) (by norm_num)
  have e1' : |r.val (v * c) - r.val v * r.val c| ≤ μ / 2 ^ 49 := by norm_num at *; linarith
  have hs : |r.val x + r.val (v * c)| ≤ 32 * μ := by
    have := abs_add_le (r.val x) (r.val (v * c))
    have := abs_sub_abs_le_abs_sub (r.val (v * c)) (r.val v * r.val c)
    norm_num at *
    linarith
  obtain ⟨f2, e2⟩ := r.add x (v * c) hx f1 (hs.trans (le_trans (mul_le_mul_of_nonneg_left hμ' (by norm_num)) (le_trans (by norm_num) big)))
  have k2 := mul_le_mul hu hs (abs_nonneg _) (by norm_num)
  refine ⟨f2, ?_⟩
  have e : r.val (x + v * c) - (r.val x + r.val v * r.val c) =
      (r.val (x + v * c) - (r.val x + r.val (v * c))) + (r.val (v * c) - r.val v * r.val c) := by ring
  rw [e]
  refine (abs_add_le _ _).trans ?_
  norm_num at *
  linarith

/-- `addmul` -/
theorem addmul_rel {x c : Cx R} {v : R} {X C : ℂ} {V μ α β : ℝ} (hμ : 1 / 2 ^ 500 ≤ μ) (hμ' : μ ≤ 2 ^ 50) (hx : r.CFin x)
    (hv : r.Fin v) (hc : r.CFin c) (ex : ‖r.cval x - X‖ ≤ α * μ) (ev : |r.val v - V| ≤ β * μ)
    (ec : ‖r.cval c - C‖ ≤ 1 / 2 ^ 43) (bX : ‖X‖ ≤ 20 * μ) (bV : |V| ≤ 4 * μ) (bC : ‖C‖ ≤ 1) (hα : α ≤ 1) (hβ : β ≤ 1) :
    r.CFin (addmul x v c) ∧ ‖r.cval (addmul x v c) - (X + V * C)‖ ≤ (α + β + 1 / 2 ^ 40) * μ := by
  have μ0 : 0 < μ := lt_of_lt_of_le (by positivity) hμ
  have k1 := mul_le_mul_of_nonneg_right hα μ0.le
  have k2 := mul_le_mul_of_nonneg_right hβ μ0.le
  have nx : ‖r.cval x‖ ≤ 21 * μ := by
    have := norm_le_norm_add_norm_sub' (r.cval x) X
    linarith
  have nv : |r.val v| ≤ 5 * μ := by
    have := abs_sub_abs_le_abs_sub (r.val v) V
    linarith
  have nc : ‖r.cval c‖ ≤ 1 + 1 / 2 ^ 43 := by
    have := norm_le_norm_add_norm_sub' (r.cval c) C
    linarith
  have nc2 : ‖r.cval c‖ ≤ 2 := nc.trans (by norm_num)
  obtain ⟨f1, e1⟩ := fma_rel hl hμ hμ' hx.1 hv hc.1 ((Complex.abs_re_le_norm (r.cval x)).trans nx) nv
    ((Complex.abs_re_le_norm (r.cval c)).trans nc2)
  obtain ⟨f2, e2⟩ := fma_rel hl hμ hμ' hx.2 hv hc.2 ((Complex.abs_im_le_norm (r.cval x)).trans nx) nv
    ((Complex.abs_im_le_norm (r.cval c)).trans nc2)
  refine ⟨⟨f1, f2⟩, ?_⟩
  have e3 : ‖r.cval (addmul x v c) - (r.cval x + (r.val v : ℂ) * r.cval c)‖ ≤ μ / 2 ^ 46 := by
    refine (Complex.norm_le_abs_re_add_abs_im _).trans ?_
    have i1 : (r.cval (addmul x v c) - (r.cval x + (r.val v : ℂ) * r.cval c)).re =
        r.val (x.re + v * c.re) - (r.val x.re + r.val v * r.val c.re) := by
      rw [Complex.sub_re, Complex.add_re, Complex.re_ofReal_mul]; rfl
    have i2 : (r.cval (addmul x v c) - (r.cval x + (r.val v : ℂ) * r.cval c)).im =
        r.val (x.im + v * c.im) - (r.val x.im + r.val v * r.val c.im) := by
      rw [Complex.sub_im, Complex.add_im, Complex.im_ofReal_mul]; rfl
    rw [i1, i2]
    refine (add_le_add e1 e2).trans (le_of_eq ?_)
    ring
  have e4 : r.cval x + (r.val v : ℂ) * r.cval c - (X + V * C) =
      (r.cval x - X) + ((r.val v - V : ℝ) : ℂ) * r.cval c + (V : ℂ) * (r.cval c - C) := by push_cast; ring
  have e5 : ‖r.cval x + (r.val v : ℂ) * r.cval c - (X + V * C)‖ ≤ α * μ + β * μ * (1 + 1 / 2 ^ 43) + 4 * μ * (1 / 2 ^ 43) := by
    rw [e4]
    refine norm_add₃_le.trans (add_le_add (add_le_add ex ?_) ?_)
    · rw [norm_mul, Complex.norm_real, Real.norm_eq_abs]
      exact mul_le_mul ev nc (norm_nonneg _) ((abs_nonneg _).trans ev)
    · rw [norm_mul, Complex.norm_real, Real.norm_eq_abs]
      exact mul_le_mul bV ec (norm_nonneg _) (by positivity)
  refine (norm_sub_le_norm_sub_add_norm_sub _ _ _).trans ((add_le_add e3 e5).trans ?_)
  norm_num at *
  linarith

/-- `a * w ^ 0 + b * w + c * w ^ 2`, computed with the points `z1` and `z2` -/
theorem quad_rel {x0 : Cx R} {v1 v2 : R} {z1 z2 : Cx R} {w : ℂ} {k0 k1 k2 μ ε : ℝ} (hμ : 1 / 2 ^ 500 ≤ μ) (hμ' : μ ≤ 2 ^ 50)
    (f0 : r.CFin x0) (f1 : r.Fin v1) (f2 : r.Fin v2) (g1 : r.CFin z1) (g2 : r.CFin z2) (hε : ε ≤ 1 / 4)
    (e0 : ‖r.cval x0 - k0‖ ≤ ε * μ) (e1 : |r.val v1 - k1| ≤ ε * μ) (e2 : |r.val v2 - k2| ≤ ε * μ)
    (h1 : ‖r.cval z1 - w‖ ≤ 1 / 2 ^ 43) (h2 : ‖r.cval z2 - w ^ 2‖ ≤ 1 / 2 ^ 43) (hw : ‖w‖ = 1)
    (b0 : |k0| ≤ 4 * μ) (b1 : |k1| ≤ 4 * μ) (b2 : |k2| ≤ 4 * μ) :
    r.CFin (addmul (addmul x0 v1 z1) v2 z2) ∧
      ‖r.cval (addmul (addmul x0 v1 z1) v2 z2) - (k0 + k1 * w + k2 * w ^ 2)‖ ≤ (3 * ε + 1 / 2 ^ 39) * μ := by
  have μ0 : 0 < μ := lt_of_lt_of_le (by positivity) hμ
  obtain ⟨c1, c2⟩ := addmul_rel hl hμ hμ' f0 f1 g1 e0 e1 h1 (by
    rw [Complex.norm_real, Real.norm_eq_abs]; linarith) b1 hw.le (by linarith) (by linarith)
  obtain ⟨d1, d2⟩ := addmul_rel hl hμ hμ' c1 f2 g2 c2 e2 h2 (by
    refine (norm_add_le _ _).trans ?_
    rw [norm_mul, hw, Complex.norm_real, Complex.norm_real, Real.norm_eq_abs, Real.norm_eq_abs]
    linarith) b2 (by rw [norm_pow, hw]; norm_num) (by norm_num; linarith) (by linarith)
  refine ⟨d1, d2.trans (le_of_eq ?_)⟩
  ring

/-- What `response` needs to know about a section: the stored `a0`, and the other coefficients, which are those of `k` up to
errors of `ε μ` in the numerator and `2⁻³⁸` in the denominator. -/
structure RespNear (r : Rounds R u η Ω) (b : Biquad R) (k : Coeffs) (μ ε : ℝ) : Prop where
  a0 : r.Fin b.a0 ∧ 1 / 2 ^ 100 ≤ |r.val b.a0| ∧ |r.val b.a0| ≤ 2 ^ 100
  a1 : r.Fin b.a1 ∧ |r.val b.a1 - k.a1| ≤ 1 / 2 ^ 38 ∧ |k.a1| ≤ 2
  a2 : r.Fin b.a2 ∧ |r.val b.a2 - k.a2| ≤ 1 / 2 ^ 38 ∧ |k.a2| ≤ 1
  b0 : r.Fin b.b0 ∧ |r.val b.b0 - k.b0| ≤ ε * μ ∧ |k.b0| ≤ 2 * μ
  b1 : r.Fin b.b1 ∧ |r.val b.b1 - k.b1| ≤ ε * μ ∧ |k.b1| ≤ 2 * μ
  b2 : r.Fin b.b2 ∧ |r.val b.b2 - k.b2| ≤ ε * μ ∧ |k.b2| ≤ 2 * μ
  lo : 1 / 2 ^ 500 ≤ μ
  hi : μ ≤ 2 ^ 50
  ε_le : ε ≤ 1 / 8

/-- The points at which a section is evaluated. -/
structure AtPoint (r : Rounds R u η Ω) (z1 z2 : Cx R) (w : ℂ) : Prop where
  z1 : r.CFin z1 ∧ ‖r.cval z1 - w‖ ≤ 1 / 2 ^ 43
  z2 : r.CFin z2 ∧ ‖r.cval z2 - w ^ 2‖ ≤ 1 / 2 ^ 43
  norm : ‖w‖ = 1

omit hl in
/-- numerator and denominator -/
def numAt (k : Coeffs) (w : ℂ) : ℂ := k.b0 + k.b1 * w + k.b2 * w ^ 2

omit hl in
/-- numerator and denominator -/
def denAt (k : Coeffs) (w : ℂ) : ℂ := 1 + k.a1 * w + k.a2 * w ^ 2

theorem top_rel {b : Biquad R} {k : Coeffs} {μ ε : ℝ} (h : RespNear r b k μ ε) {z1 z2 : Cx R} {w : ℂ} (hz : AtPoint r z1 z2 w) :
    r.CFin (b.respTop z1 z2) ∧ ‖r.cval (b.respTop z1 z2) - numAt k w‖ ≤ (3 * ε + 1 / 2 ^ 38) * μ := by
  have μ0 : 0 < μ := lt_of_lt_of_le (by positivity) h.lo
  have key : ∀ {v : R} {t : ℝ}, r.Fin v → |r.val v - t| ≤ ε * μ → |t| ≤ 2 * μ →
      r.Fin (v * b.a0 / b.a0) ∧ |r.val (v * b.a0 / b.a0) - t| ≤ (ε + 1 / 2 ^ 48) * μ := by
    intro v t h1 h2 h3
    have h4 : |r.val v| ≤ 4 * μ := by
      have := abs_sub_abs_le_abs_sub (r.val v) t
      have := mul_le_mul_of_nonneg_right h.ε_le μ0.le
      linarith
    obtain ⟨f, e⟩ := ratio_rel hl h1 h.a0.1 h.a0.2.1 h.a0.2.2 h.lo h.hi h4
    refine ⟨f, (abs_sub_le _ (r.val v) _).trans ((add_le_add e h2).trans (le_of_eq ?_))⟩
    ring
  obtain ⟨f0, e0⟩ := key h.b0.1 h.b0.2.1 h.b0.2.2
  obtain ⟨f1, e1⟩ := key h.b1.1 h.b1.2.1 h.b1.2.2
  obtain ⟨f2, e2⟩ := key h.b2.1 h.b2.2.1 h.b2.2.2
  have g0 := h.b0.2.2; have g1 := h.b1.2.2; have g2 := h.b2.2.2
  obtain ⟨p1, p2⟩ := quad_rel hl (x0 := ofR (b.b0 * b.a0 / b.a0)) (v1 := b.b1 * b.a0 / b.a0) (v2 := b.b2 * b.a0 / b.a0) h.lo h.hi
    ⟨f0, r.zero.1⟩ f1 f2 hz.z1.1 hz.z2.1 (by have := h.ε_le; norm_num; linarith) (by
      have e : r.cval (ofR (b.b0 * b.a0 / b.a0)) - (k.b0 : ℂ) = ((r.val (b.b0 * b.a0 / b.a0) - k.b0 : ℝ) : ℂ) := by
        apply Complex.ext
        · simp [ofR, Rounds.cval]
        · simp [ofR, Rounds.cval, r.zero.2]
      rw [e, Complex.norm_real, Real.norm_eq_abs]
      exact e0) e1 e2 hz.z1.2 hz.z2.2 hz.norm (by linarith) (by linarith) (by linarith)
  refine ⟨p1, p2.trans (mul_le_mul_of_nonneg_right ?_ μ0.le)⟩
  norm_num
  linarith

theorem bot_rel {b : Biquad R} {k : Coeffs} {μ ε : ℝ} (h : RespNear r b k μ ε) {z1 z2 : Cx R} {w : ℂ} (hz : AtPoint r z1 z2 w) :
    r.CFin (b.respBot z1 z2) ∧ ‖r.cval (b.respBot z1 z2) - denAt k w‖ ≤ 1 / 2 ^ 36 := by
  have l1 : (1 : ℝ) / 2 ^ 500 ≤ 1 := by
    rw [div_le_one (by positivity)]; exact one_le_pow₀ (by norm_num)
  have l2 : (1 : ℝ) ≤ 2 ^ 50 := one_le_pow₀ (by norm_num)
  have hone := In.one hl.toAccurate (r := r)
  have hv1 : r.val (1 : R) = 1 := le_antisymm hone.2.2 hone.2.1
  have key : ∀ {v : R} {t : ℝ}, r.Fin v → |r.val v - t| ≤ 1 / 2 ^ 38 → |t| ≤ 2 →
      r.Fin (v * b.a0 / b.a0) ∧ |r.val (v * b.a0 / b.a0) - t| ≤ (1 / 2 ^ 38 + 1 / 2 ^ 48) * 1 := by
    intro v t h1 h2 h3
    have h4 : |r.val v| ≤ 4 * 1 := by
      have := abs_sub_abs_le_abs_sub (r.val v) t
      norm_num at *
      linarith
    obtain ⟨f, e⟩ := ratio_rel hl h1 h.a0.1 h.a0.2.1 h.a0.2.2 l1 l2 h4
    refine ⟨f, (abs_sub_le _ (r.val v) _).trans ((add_le_add e h2).trans (le_of_eq ?_))⟩
    ring
  obtain ⟨f1, e1⟩ := key h.a1.1 h.a1.2.1 h.a1.2.2
  obtain ⟨f2, e2⟩ := key h.a2.1 h.a2.2.1 (h.a2.2.2.trans (by norm_num))
  have g1 := h.a1.2.2; have g2 := h.a2.2.2
  obtain ⟨p1, p2⟩ := quad_rel hl (x0 := ofR (1 : R)) (v1 := b.a1 * b.a0 / b.a0) (v2 := b.a2 * b.a0 / b.a0) (k0 := 1) l1 l2
    ⟨hone.1, r.zero.1⟩ f1 f2 hz.z1.1 hz.z2.1 (by norm_num) (by
      have e : r.cval (ofR (1 : R)) = ((1 : ℝ) : ℂ) := Complex.ext hv1 r.zero.2
      rw [e, sub_self, norm_zero]; positivity) e1 e2 hz.z1.2 hz.z2.2 hz.norm (by norm_num) (by linarith) (by linarith)
  refine ⟨p1, ?_⟩
  rw [denAt, ← Complex.ofReal_one]
  exact p2.trans (by norm_num)

/-- A product of two numbers with errors relative to `A` and `B`. -/
theorem cmul_abs {z w : Cx R} {Z W : ℂ} {A B a b : ℝ} (hz : r.CFin z) (hw : r.CFin w) (hA : ‖Z‖ ≤ A) (hB : ‖W‖ ≤ B)
    (hA2 : (1 + a) * A ≤ 2 ^ 400) (hB2 : (1 + b) * B ≤ 2 ^ 400) (hlo : 1 / 2 ^ 900 ≤ A * B) (ha : 0 ≤ a) (hb : 0 ≤ b)
    (h1 : ‖r.cval z - Z‖ ≤ a * A) (h3 : ‖r.cval w - W‖ ≤ b * B) :
    r.CFin (cmul z w) ∧ ‖r.cval (cmul z w) - Z * W‖ ≤ ((1 + a) * (1 + b) * (1 + 1 / 2 ^ 44) - 1) * (A * B) := by
  have nz : ‖r.cval z‖ ≤ (1 + a) * A := by
    have := norm_le_norm_add_norm_sub' (r.cval z) Z
    linarith
  have nw : ‖r.cval w‖ ≤ (1 + b) * B := by
    have := norm_le_norm_add_norm_sub' (r.cval w) W
    linarith
  have A0 : 0 ≤ A := (norm_nonneg _).trans hA
  have B0 : 0 ≤ B := (norm_nonneg _).trans hB
  obtain ⟨f, e⟩ := hl.cmul z w hz hw (nz.trans hA2) (nw.trans hB2)
  refine ⟨f, ?_⟩
  have ht := tiny_le hl (n := 900 + 46) (by omega)
  rw [pow_add, ← one_div_mul_one_div] at ht
  have e0 : ‖r.cval z * r.cval w‖ ≤ (1 + a) * A * ((1 + b) * B) := by
    rw [norm_mul]; exact mul_le_mul nz nw (norm_nonneg _) (by positivity)
  have e2 : ‖r.cval z * r.cval w - Z * W‖ ≤ ((1 + a) * (1 + b) - 1) * (A * B) := by
    have e3 : r.cval z * r.cval w - Z * W = (r.cval z - Z) * (r.cval w - W) + (r.cval z - Z) * W + Z * (r.cval w - W) := by ring
    rw [e3]
    refine (norm_add₃_le).trans ?_
    rw [norm_mul, norm_mul, norm_mul]
    have k1 := mul_le_mul h1 h3 (norm_nonneg _) (by positivity)
    have k2 := mul_le_mul h1 hB (norm_nonneg _) (by positivity)
    have k3 := mul_le_mul hA h3 (norm_nonneg _) (by positivity)
    linarith
  have e5 := norm_sub_le_norm_sub_add_norm_sub (r.cval (cmul z w)) (r.cval z * r.cval w) (Z * W)
  have ht2 : 16 * η ≤ 1 / 2 ^ 46 * (A * B) := by
    refine ht.trans ?_
    rw [mul_comm]
    exact mul_le_mul_of_nonneg_left hlo (by positivity)
  have AB : 0 ≤ A * B := mul_nonneg A0 B0
  have q : (1 : ℝ) * (A * B) ≤ (1 + a) * (1 + b) * (A * B) :=
    mul_le_mul_of_nonneg_right (one_le_mul_of_one_le_of_one_le (by linarith) (by linarith)) AB
  clear ht hlo hA2 hB2 nz nw
  have e6 : (1 + a) * A * ((1 + b) * B) = (1 + a) * (1 + b) * (A * B) := by ring
  rw [e6] at e0
  have e7 : ((1 + a) * (1 + b) * (1 + 1 / 2 ^ 44) - 1) * (A * B) =
      (1 + a) * (1 + b) * (A * B) * (1 / 2 ^ 44) + ((1 + a) * (1 + b) - 1) * (A * B) := by ring
  rw [e7]
  generalize (1 + a) * (1 + b) * (A * B) = Q at *
  generalize ((1 + a) * (1 + b) - 1) * (A * B) = Q' at *
  norm_num at *
  linarith

/-- The points on the unit circle that `response` computes. -/
theorem points_any {f : R} (hf : r.Fin f) (h0 : 0 ≤ r.val f) (h1 : r.val f ≤ 1 / 2) :
    ∃ z1 z2, polarC (1 : R) (-(2 * pi * f)) = .ok z1 ∧ polarC (1 : R) (-2 * (2 * pi * f)) = .ok z2 ∧
      AtPoint r z1 z2 (circle (r.val f))⁻¹ := by
  have ha := hl.toAccurate
  have h2 := In.two ha (r := r)
  have hv2 : r.val (2 : R) = 2 := le_antisymm h2.2.2 h2.2.1
  have hm2 := In.neg ha h2
  have hvm2 : r.val (-2 : R) = -2 := le_antisymm hm2.2.2 hm2.2.1
  have hone := In.one ha (r := r)
  have hv1 : r.val (1 : R) = 1 := le_antisymm hone.2.2 hone.2.1
  obtain ⟨p1, p2⟩ := ha.pi
  have q1 := Real.pi_gt_three
  have q2 := Real.pi_lt_four
  obtain ⟨f1, e1⟩ := raw_mul ha h2.1 p1 (M := 9)
    (by rw [hv2]; rw [abs_le] at *; norm_num at *; constructor <;> linarith) (by norm_num)
  rw [hv2] at e1
  have b0 : |r.val (2 * pi : R) - 2 * Real.pi| ≤ 1 / 2 ^ 44 + 1 / 2 ^ 49 := by
    rw [abs_le] at *; norm_num at *; constructor <;> linarith
  have b1 : |r.val (2 * pi : R)| ≤ 9 := by
    rw [abs_le] at *; norm_num at *; constructor <;> linarith
  have bf : |r.val f| ≤ 1 / 2 := abs_le.2 ⟨by linarith, h1⟩
  have b : |r.val (2 * pi : R) * r.val f| ≤ 5 := by
    rw [abs_mul]
    exact (mul_le_mul b1 bf (abs_nonneg _) (by norm_num)).trans (by norm_num)
  obtain ⟨f2, e2⟩ := raw_mul ha f1 hf b (by norm_num)
  have e2' : |r.val (2 * pi * f : R) - 2 * Real.pi * r.val f| ≤ 1 / 2 ^ 45 + 1 / 2 ^ 48 := by
    have e : r.val (2 * pi * f : R) - 2 * Real.pi * r.val f =
      (r.val (2 * pi * f : R) - r.val (2 * pi : R) * r.val f) + (r.val (2 * pi : R) - 2 * Real.pi) * r.val f := by ring
    rw [e]
    refine (abs_add_le _ _).trans ?_
    rw [abs_mul]
    have := mul_le_mul b0 bf (abs_nonneg _) (by norm_num)
    norm_num at *
    linarith
  obtain ⟨g1, g2⟩ := ha.neg _ f2
  have b' : |r.val (-2 : R) * r.val (2 * pi * f)| ≤ 9 := by
    rw [hvm2, abs_mul]
    have := abs_sub_abs_le_abs_sub (r.val (2 * pi * f : R)) (2 * Real.pi * r.val f)
    have h3 : |2 * Real.pi * r.val f| ≤ 4 := by
      rw [abs_mul, abs_of_pos (by positivity)]
      have := mul_le_mul_of_nonneg_left bf (by positivity : 0 ≤ 2 * Real.pi)
      linarith
    norm_num at *
    linarith
  obtain ⟨f3, e3⟩ := raw_mul ha hm2.1 f2 b' (by norm_num)
  rw [hvm2] at e3
  have polar : ∀ {t : R} {θ : ℝ}, r.Fin t → |r.val t - θ| ≤ 1 / 2 ^ 44 + 1 / 2 ^ 46 →
      ∃ z, polarC (1 : R) t = .ok z ∧ r.CFin z ∧ ‖r.cval z - Complex.exp (θ * Complex.I)‖ ≤ 1 / 2 ^ 43 := by
    intro t θ ht hθ
    obtain ⟨z, e, hz, hn⟩ := hl.polar 1 t hone.1 ht (by rw [hv1]; norm_num) (by rw [hv1]; exact one_le_pow₀ (by norm_num))
    refine ⟨z, by unfold polarC; rw [e], hz, ?_⟩
    rw [hv1, Complex.ofReal_one, one_mul] at hn
    have e4 : ‖Complex.exp (r.val t * Complex.I) - Complex.exp (θ * Complex.I)‖ ≤ |r.val t - θ| := by
      have e5 : Complex.exp (r.val t * Complex.I) - Complex.exp (θ * Complex.I) =
          Complex.exp (θ * Complex.I) * (Complex.exp ((r.val t - θ : ℝ) * Complex.I) - 1) := by
        rw [mul_sub, ← Complex.exp_add, mul_one]
        congr 2
        push_cast; ring
      rw [e5, norm_mul, Complex.norm_exp_ofReal_mul_I, one_mul]
      exact exp_near_one
    have hη := ha.η_le
    refine (norm_sub_le_norm_sub_add_norm_sub _ (Complex.exp (r.val t * Complex.I)) _).trans ?_
    norm_num at *
    linarith
  obtain ⟨z1, k1, k2, k3⟩ := polar (θ := -(2 * Real.pi * r.val f)) g1 (by
    rw [g2, ← neg_sub', abs_neg]; refine e2'.trans ?_; norm_num)
  obtain ⟨z2, k4, k5, k6⟩ := polar (θ := 2 * -(2 * Real.pi * r.val f)) f3 (by
    rw [abs_le] at *; norm_num at *; constructor <;> linarith)
  have ew : Complex.exp ((-(2 * Real.pi * r.val f) : ℝ) * Complex.I) = (circle (r.val f))⁻¹ := by
    rw [Spec.circle, ← Complex.exp_neg]; congr 1; push_cast; ring
  have ew2 : Complex.exp ((2 * -(2 * Real.pi * r.val f) : ℝ) * Complex.I) = (circle (r.val f))⁻¹ ^ 2 := by
    rw [← ew, ← Complex.exp_nat_mul]; congr 1; push_cast; ring
  rw [ew] at k3
  rw [ew2] at k6
  refine ⟨z1, z2, k1, k4, ⟨k2, k3⟩, ⟨k5, k6⟩, ?_⟩
  rw [← ew, Complex.norm_exp_ofReal_mul_I]

open Finset in
/-- The loop of `response`. -/
theorem respLoop_rel {c : Cascade R} {z1 z2 : Cx R} {w : ℂ} (hz : AtPoint r z1 z2 w) {K : ℕ → Coeffs} {μ ε g M : ℕ → ℝ}
    {n : ℕ} (h : ∀ i < n, ∃ b, c.stages[i]? = some b ∧ RespNear r b (K i) (μ i) (ε i))
    (hε : ∀ i < n, 0 ≤ ε i) (hM : ∀ i < n, ‖numAt (K i) w‖ ≤ M i ∧ μ i ≤ M i ∧ M i ≤ 2 ^ 10)
    (hg : ∀ i < n, 1 ≤ g i * ‖denAt (K i) w‖ ∧ 1 ≤ g i ∧ g i ≤ 2 ^ 35)
    (lo : ∀ j ≤ n, 1 / 2 ^ 390 ≤ ∏ i ∈ range j, M i) (hi : ∀ j ≤ n, ∏ i ∈ range j, M i ≤ 2 ^ 380)
    (hn : n ≤ 11) (hs : ∑ i ∈ range n, (3 * ε i + 1 / 2 ^ 37) ≤ 1 / 2) (hs' : ∑ i ∈ range n, (1.1 * g i / 2 ^ 36) ≤ 1 / 2) :
    ∃ ch cb, c.respLoop z1 z2 n = .ok (ch, cb) ∧ r.CFin ch ∧ r.CFin cb ∧
      ‖r.cval ch - ∏ i ∈ range n, numAt (K i) w‖ ≤ (∏ i ∈ range n, (1 + (3 * ε i + 1 / 2 ^ 37)) - 1) * ∏ i ∈ range n, M i ∧
      ‖r.cval cb - ∏ i ∈ range n, denAt (K i) w‖ ≤
        (∏ i ∈ range n, (1 + 1.1 * g i / 2 ^ 36) - 1) * ‖∏ i ∈ range n, denAt (K i) w‖ ∧
      1 / 2 ^ (35 * n) ≤ ‖∏ i ∈ range n, denAt (K i) w‖ ∧ ‖∏ i ∈ range n, denAt (K i) w‖ ≤ 4 ^ n := by
  induction n with
  | zero =>
    have hone := In.one hl.toAccurate (r := r)
    have hv1 : r.val (1 : R) = 1 := le_antisymm hone.2.2 hone.2.1
    have e0 : r.cval (ofR (1 : R)) = 1 := Complex.ext hv1 r.zero.2
    refine ⟨_, _, rfl, ⟨hone.1, r.zero.1⟩, ⟨hone.1, r.zero.1⟩, ?_⟩
    rw [e0]; norm_num
  | succ n ih =>
    have hs1 := hs
    have hs1' := hs'
    rw [sum_range_succ] at hs hs'
    have t1 := hε n (by omega)
    obtain ⟨g1, g2, g3⟩ := hg n (by omega)
    obtain ⟨m1, m2, m3⟩ := hM n (by omega)
    obtain ⟨ch, cb, e, f1, f2, i1, i2, i3, i4⟩ := ih (fun i hi => h i (by omega)) (fun i hi => hε i (by omega))
      (fun i hi => hM i (by omega)) (fun i hi => hg i (by omega)) (fun j hj => lo j (by omega)) (fun j hj => hi j (by omega))
      (by omega) (le_trans (le_add_of_nonneg_right (by positivity)) hs) (le_trans (le_add_of_nonneg_right (by positivity)) hs')
    obtain ⟨b, hb, hk⟩ := h n (by omega)
    have μ0 : 0 < μ n := lt_of_lt_of_le (by positivity) hk.lo
    obtain ⟨a1, a2⟩ := top_rel hl hk hz
    obtain ⟨c1, c2⟩ := bot_rel hl hk hz
    have pos : ∀ i < n + 1, 0 ≤ 3 * ε i + 1 / 2 ^ 37 := fun i hi => by have := hε i hi; positivity
    have pos' : ∀ i < n + 1, 0 ≤ 1.1 * g i / 2 ^ 36 := fun i hi => by have := (hg i hi).2.1; positivity
    have P1 : 1 ≤ ∏ i ∈ range n, (1 + (3 * ε i + 1 / 2 ^ 37)) :=
      one_le_prod_range fun i hi => by have := pos i (by omega); linarith
    have P2 : 1 ≤ ∏ i ∈ range n, (1 + 1.1 * g i / 2 ^ 36) :=
      one_le_prod_range fun i hi => by have := pos' i (by omega); linarith
    have pn := pos n (by omega)
    have pn' := pos' n (by omega)
    have Q1 : ∏ i ∈ range n, (1 + (3 * ε i + 1 / 2 ^ 37)) ≤ 2 := by
      refine (prod_one_add_le (fun i hi => pos i (by omega)) ?_).trans ?_ <;> linarith
    have Q2 : ∏ i ∈ range n, (1 + 1.1 * g i / 2 ^ 36) ≤ 2 := by
      refine (prod_one_add_le (fun i hi => pos' i (by omega)) ?_).trans ?_ <;> linarith
    have hMn := hi n (by omega)
    have hlo := lo (n + 1) le_rfl
    rw [prod_range_succ] at hlo
    have M0 : 0 ≤ ∏ i ∈ range n, M i := prod_nonneg fun i hi => (norm_nonneg _).trans (hM i (by have := mem_range.1 hi; omega)).1
    have S0 : 0 ≤ ∑ i ∈ range n, (3 * ε i + 1 / 2 ^ 37) := sum_nonneg fun i hi => pos i (by have := mem_range.1 hi; omega)
    have ε2 : 3 * ε n + 1 / 2 ^ 38 ≤ 1 := by norm_num at hs ⊢; norm_num at S0; linarith
    have nC : ‖∏ i ∈ range n, numAt (K i) w‖ ≤ ∏ i ∈ range n, M i := by
      rw [norm_prod]
      exact prod_le_prod (fun i _ => norm_nonneg _) fun i hi => (hM i (by have := mem_range.1 hi; omega)).1
    have p400 : (2 : ℝ) * 2 ^ 380 ≤ 2 ^ 400 := by
      rw [← pow_succ']; exact pow_le_pow_right₀ (by norm_num) (by norm_num)
    have p10 : (2 : ℝ) * 2 ^ 10 ≤ 2 ^ 400 := by
      rw [← pow_succ']; exact pow_le_pow_right₀ (by norm_num) (by norm_num)
    have l900 : (1 : ℝ) / 2 ^ 900 ≤ 1 / 2 ^ 390 := one_div_le_one_div_of_le (by positivity) (pow_le_pow_right₀ (by norm_num) (by norm_num))
    obtain ⟨n1, n2⟩ := cmul_abs hl f1 a1 nC m1 (a := ∏ i ∈ range n, (1 + (3 * ε i + 1 / 2 ^ 37)) - 1) (b := 3 * ε n + 1 / 2 ^ 38)
      (by rw [add_sub_cancel]; exact (mul_le_mul Q1 hMn M0 (by norm_num)).trans p400)
      (by
        refine (mul_le_mul (by linarith : 1 + (3 * ε n + 1 / 2 ^ 38) ≤ 2) m3 ((norm_nonneg _).trans m1) (by norm_num)).trans p10)
      (l900.trans hlo) (by linarith) (by positivity) i1 (a2.trans (mul_le_mul_of_nonneg_left m2 (by positivity)))
    -- denominator
    have D0 : 0 < ‖denAt (K n) w‖ := by
      by_contra hc
      have := mul_nonpos_of_nonneg_of_nonpos (by linarith : 0 ≤ g n) (not_lt.1 hc)
      linarith
    have D4 : ‖denAt (K n) w‖ ≤ 4 := by
      refine (norm_add₃_le).trans ?_
      rw [norm_one, norm_mul, norm_mul, norm_pow, hz.norm, Complex.norm_real, Complex.norm_real, Real.norm_eq_abs, Real.norm_eq_abs]
      have := hk.a1.2.2; have := hk.a2.2.2
      norm_num; linarith
    have D35 : 1 / 2 ^ 35 ≤ ‖denAt (K n) w‖ := by
      have := mul_le_mul_of_nonneg_right g3 D0.le
      rw [div_le_iff₀ (by positivity)]
      linarith
    have c3 : ‖r.cval (b.respBot z1 z2) - denAt (K n) w‖ ≤ g n / 2 ^ 36 * ‖denAt (K n) w‖ := by
      refine c2.trans ?_
      rw [div_mul_eq_mul_div]
      exact div_le_div_of_nonneg_right g1 (by positivity)
    have j1 : 1 / 2 ^ (35 * (n + 1)) ≤ ‖∏ i ∈ range (n + 1), denAt (K i) w‖ := by
      rw [prod_range_succ, norm_mul, mul_add, pow_add, ← one_div_mul_one_div]
      exact mul_le_mul i3 D35 (by positivity) (norm_nonneg _)
    have j2 : ‖∏ i ∈ range (n + 1), denAt (K i) w‖ ≤ 4 ^ (n + 1) := by
      rw [prod_range_succ, norm_mul, pow_succ]
      exact mul_le_mul i4 D4 (norm_nonneg _) (by positivity)
    have g36 : g n / 2 ^ 36 ≤ 1 := by norm_num at g3 ⊢; linarith
    have p4 : (2 : ℝ) * 4 ^ n ≤ 2 ^ 400 := by
      rw [show (4 : ℝ) = 2 ^ 2 by norm_num, ← pow_mul, ← pow_succ']
      exact pow_le_pow_right₀ (by norm_num) (by omega)
    have p8 : (2 : ℝ) * 4 ≤ 2 ^ 400 := by
      rw [show (2 : ℝ) * 4 = 2 ^ 3 by norm_num]
      exact pow_le_pow_right₀ (by norm_num) (by omega)
    obtain ⟨o1, o2⟩ := cmul_abs hl f2 c1 le_rfl le_rfl (a := ∏ i ∈ range n, (1 + 1.1 * g i / 2 ^ 36) - 1) (b := g n / 2 ^ 36)
      (by rw [add_sub_cancel]; exact (mul_le_mul Q2 i4 (norm_nonneg _) (by norm_num)).trans p4)
      (by exact (mul_le_mul (by linarith : 1 + g n / 2 ^ 36 ≤ 2) D4 (norm_nonneg _) (by norm_num)).trans p8)
      (by
        rw [← norm_mul, ← prod_range_succ (fun i => denAt (K i) w)]
        refine le_trans ?_ j1
        exact one_div_le_one_div_of_le (by positivity) (pow_le_pow_right₀ (by norm_num) (by omega)))
      (by linarith) (by positivity) i2 c3
    refine ⟨cmul ch (b.respTop z1 z2), cmul cb (b.respBot z1 z2), ?_, n1, o1, ?_, ?_, j1, j2⟩
    · have : c.stageAt n = .ok b := by unfold stageAt; rw [hb]
      show (c.respLoop z1 z2 n).bind _ = _
      rw [e]
      show (c.stageAt n).bind _ = _
      rw [this]; rfl
    · rw [prod_range_succ, prod_range_succ (fun i => 1 + (3 * ε i + 1 / 2 ^ 37)), prod_range_succ M]
      refine n2.trans (mul_le_mul_of_nonneg_right ?_ (mul_nonneg M0 ((norm_nonneg _).trans m1)))
      rw [add_sub_cancel, mul_assoc]
      refine sub_le_sub_right (mul_le_mul_of_nonneg_left ?_ (by linarith)) _
      norm_num at ε2 ⊢
      linarith
    · rw [prod_range_succ, prod_range_succ (fun i => 1 + 1.1 * g i / 2 ^ 36), norm_mul]
      refine o2.trans (mul_le_mul_of_nonneg_right ?_ (mul_nonneg (norm_nonneg _) (norm_nonneg _)))
      rw [add_sub_cancel, mul_assoc]
      refine sub_le_sub_right (mul_le_mul_of_nonneg_left ?_ (by linarith)) _
      norm_num at g36 ⊢
      linarith

/-- The quotient. -/
theorem quot_rel {ch cb : Cx R} {CH CB : ℂ} {M a b : ℝ} (f1 : r.CFin ch) (f2 : r.CFin cb) (ha : 0 ≤ a) (ha' : a ≤ 1) (hb : 0 ≤ b)
    (hb' : b ≤ 1 / 2) (h1 : ‖r.cval ch - CH‖ ≤ a * M) (h2 : ‖r.cval cb - CB‖ ≤ b * ‖CB‖) (hM : ‖CH‖ ≤ M)
    (hM1 : 1 / 2 ^ 390 ≤ M) (hM2 : M ≤ 2 ^ 380) (hB1 : 1 / 2 ^ 390 ≤ ‖CB‖) (hB2 : ‖CB‖ ≤ 2 ^ 380) :
    r.CFin (cdiv ch cb) ∧ ‖r.cval (cdiv ch cb) - CH / CB‖ ≤ (2 * a + 2 * b + 1 / 2 ^ 42) * (M / ‖CB‖) := by
  have M0 : 0 < M := lt_of_lt_of_le (by positivity) hM1
  have B0 : 0 < ‖CB‖ := lt_of_lt_of_le (by positivity) hB1
  have nh : ‖r.cval ch‖ ≤ 2 * M := by
    have := norm_le_norm_add_norm_sub' (r.cval ch) CH
    have := mul_le_mul_of_nonneg_right ha' M0.le
    linarith
  have bb := mul_le_mul_of_nonneg_right hb' B0.le
  have nb1 : ‖CB‖ / 2 ≤ ‖r.cval cb‖ := by
    have := norm_le_norm_add_norm_sub (r.cval cb) CB
    linarith
  have nb2 : ‖r.cval cb‖ ≤ 2 * ‖CB‖ := by
    have := norm_le_norm_add_norm_sub' (r.cval cb) CB
    linarith
  have b0 : 0 < ‖r.cval cb‖ := lt_of_lt_of_le (by positivity) nb1
  have cb0 : r.cval cb ≠ 0 := norm_pos_iff.1 b0
  have CB0 : CB ≠ 0 := norm_pos_iff.1 B0
  have p400 : (2 : ℝ) * 2 ^ 380 ≤ 2 ^ 400 := by
    rw [← pow_succ']; exact pow_le_pow_right₀ (by norm_num) (by norm_num)
  have l400 : (1 : ℝ) / 2 ^ 400 ≤ 1 / 2 ^ 390 / 2 := by
    rw [div_div, ← pow_succ]
    exact one_div_le_one_div_of_le (by positivity) (pow_le_pow_right₀ (by norm_num) (by norm_num))
  obtain ⟨f, e⟩ := hl.cdiv ch cb f1 f2 (nh.trans ((mul_le_mul_of_nonneg_left hM2 (by norm_num)).trans p400))
    (l400.trans (le_trans (div_le_div_of_nonneg_right hB1 (by norm_num)) nb1))
    (nb2.trans ((mul_le_mul_of_nonneg_left hB2 (by norm_num)).trans p400))
  refine ⟨f, ?_⟩
  have Q0 : 0 < M / ‖CB‖ := by positivity
  have inv : 1 / ‖r.cval cb‖ ≤ 2 / ‖CB‖ := by
    rw [div_le_div_iff₀ b0 B0]; linarith
  have q1 : ‖r.cval ch / r.cval cb‖ ≤ 4 * (M / ‖CB‖) := by
    rw [norm_div, div_eq_mul_one_div]
    refine (mul_le_mul nh inv (by positivity) (by positivity)).trans (le_of_eq ?_)
    ring
  have q2 : ‖r.cval ch / r.cval cb - CH / CB‖ ≤ (2 * a + 2 * b) * (M / ‖CB‖) := by
    have e1 : r.cval ch / r.cval cb - CH / CB = (r.cval ch - CH) / r.cval cb + CH * (CB - r.cval cb) / (r.cval cb * CB) := by
      field_simp; ring
    rw [e1]
    refine (norm_add_le _ _).trans ?_
    rw [norm_div, norm_div, norm_mul, norm_mul, norm_sub_rev CB]
    have k1 : ‖r.cval ch - CH‖ / ‖r.cval cb‖ ≤ a * M * (2 / ‖CB‖) := by
      rw [div_eq_mul_one_div]
      exact mul_le_mul h1 inv (by positivity) (by positivity)
    have k2 : ‖CH‖ * ‖r.cval cb - CB‖ / (‖r.cval cb‖ * ‖CB‖) ≤ M * b * (2 / ‖CB‖) := by
      have e2 : ‖CH‖ * ‖r.cval cb - CB‖ / (‖r.cval cb‖ * ‖CB‖) = ‖CH‖ * (‖r.cval cb - CB‖ / ‖CB‖) * (1 / ‖r.cval cb‖) := by
        field_simp
      rw [e2]
      refine mul_le_mul (mul_le_mul hM ?_ (by positivity) M0.le) inv (by positivity) (by positivity)
      rw [div_le_iff₀ B0]; exact h2
    refine (add_le_add k1 k2).trans (le_of_eq ?_)
    field_simp
  have t : 16 * η ≤ 1 / 2 ^ 45 * (M / ‖CB‖) := by
    have ht := tiny_le hl (n := 770 + 45) (by omega)
    rw [pow_add, ← one_div_mul_one_div] at ht
    have l : (1 : ℝ) / 2 ^ 770 ≤ M / ‖CB‖ := by
      have e2 : (1 : ℝ) / 2 ^ 770 = 1 / 2 ^ 390 / 2 ^ 380 := by rw [div_div, ← pow_add]
      rw [e2]
      exact div_le_div₀ M0.le hM1 B0 hB2
    have := mul_le_mul_of_nonneg_right l (show (0 : ℝ) ≤ 1 / 2 ^ 45 by positivity)
    linarith
  refine (norm_sub_le_norm_sub_add_norm_sub _ (r.cval ch / r.cval cb) _).trans ?_
  clear hM1 hM2 hB1 hB2 p400 l400 nh nb1 nb2 inv bb h1 h2 hM
  generalize M / ‖CB‖ = Q at *
  norm_num at e q1 q2 t ⊢
  linarith

open Finset in
/-- **Rounding errors of `Cascade::response`.**  The stored sections are close to those of `K`; at a frequency where the
denominators are at least `1 / g i`, the computed response is close to the product of the quotients. -/
theorem response_rel {c : Cascade R} {K : ℕ → Coeffs} {μ ε g M : ℕ → ℝ} {n : ℕ} (hnum : c.numStages = n) {f : R} (hf : r.Fin f)
    (h0 : 0 ≤ r.val f) (h1 : r.val f ≤ 1 / 2)
    (h : ∀ i < n, ∃ b, c.stages[i]? = some b ∧ RespNear r b (K i) (μ i) (ε i))
    (hε : ∀ i < n, 0 ≤ ε i) (hM : ∀ i < n, ‖numAt (K i) (circle (r.val f))⁻¹‖ ≤ M i ∧ μ i ≤ M i ∧ M i ≤ 2 ^ 10)
    (hg : ∀ i < n, 1 ≤ g i * ‖denAt (K i) (circle (r.val f))⁻¹‖ ∧ 1 ≤ g i ∧ g i ≤ 2 ^ 35)
    (lo : ∀ j ≤ n, 1 / 2 ^ 390 ≤ ∏ i ∈ range j, M i) (hi : ∀ j ≤ n, ∏ i ∈ range j, M i ≤ 2 ^ 380)
    (hn : n ≤ 11) (hs : ∑ i ∈ range n, (3 * ε i + 1 / 2 ^ 37) ≤ 1 / 2) (hs' : ∑ i ∈ range n, (1.1 * g i / 2 ^ 36) ≤ 1 / 4) :
    ∃ h, c.response f = .ok h ∧ r.CFin h ∧
      ‖r.cval h - ∏ i ∈ range n, (numAt (K i) (circle (r.val f))⁻¹ / denAt (K i) (circle (r.val f))⁻¹)‖ ≤
        (4 * ∑ i ∈ range n, (3 * ε i + 1 / 2 ^ 37) + 4 * ∑ i ∈ range n, (1.1 * g i / 2 ^ 36) + 1 / 2 ^ 42) *
          ∏ i ∈ range n, (M i / ‖denAt (K i) (circle (r.val f))⁻¹‖) := by
  obtain ⟨z1, z2, e1, e2, hz⟩ := points_any hl hf h0 h1
  obtain ⟨ch, cb, e3, f1, f2, i1, i2, i3, i4⟩ := respLoop_rel hl hz h hε hM hg lo hi hn hs (hs'.trans (by norm_num))
  have pos : ∀ i < n, 0 ≤ 3 * ε i + 1 / 2 ^ 37 := fun i hi => by have := hε i hi; positivity
  have pos' : ∀ i < n, 0 ≤ 1.1 * g i / 2 ^ 36 := fun i hi => by have := (hg i hi).2.1; positivity
  have P1 : 1 ≤ ∏ i ∈ range n, (1 + (3 * ε i + 1 / 2 ^ 37)) :=
    one_le_prod_range fun i hi => by have := pos i hi; linarith
  have P2 : 1 ≤ ∏ i ∈ range n, (1 + 1.1 * g i / 2 ^ 36) :=
    one_le_prod_range fun i hi => by have := pos' i hi; linarith
  have Q1 := prod_one_add_le pos hs
  have Q2 := prod_one_add_le pos' (hs'.trans (by norm_num))
  have nC : ‖∏ i ∈ range n, numAt (K i) (circle (r.val f))⁻¹‖ ≤ ∏ i ∈ range n, M i := by
    rw [norm_prod]
    exact prod_le_prod (fun i _ => norm_nonneg _) fun i hi => (hM i (mem_range.1 hi)).1
  obtain ⟨g1, g2⟩ := quot_rel hl f1 f2 (by linarith) (by linarith) (by linarith) (by linarith) i1 i2 nC (lo n le_rfl) (hi n le_rfl)
    (le_trans (one_div_le_one_div_of_le (by positivity) (pow_le_pow_right₀ (by norm_num) (by omega))) i3)
    (i4.trans (by
      rw [show (4 : ℝ) = 2 ^ 2 by norm_num, ← pow_mul]
      exact pow_le_pow_right₀ (by norm_num) (by omega)))
  refine ⟨cdiv ch cb, ?_, g1, ?_⟩
  · have hz := r.zero
    have hh := hl.half
    unfold Cascade.response
    rw [if_neg, if_neg]
    · show (polarC 1 (-(2 * FArith.pi * f))).bind _ = _
      rw [e1]
      show (polarC 1 (-2 * (2 * FArith.pi * f))).bind _ = _
      rw [e2]
      show (c.respLoop z1 z2 c.numStages).bind _ = _
      rw [hnum, e3]; rfl
    · rw [hl.flt _ _ hf hz.1, hz.2]; linarith
    · rw [hl.flt _ _ hh.1 hf, hh.2]; linarith
  · rw [prod_div_distrib, prod_div_distrib, ← norm_prod]
    refine g2.trans (mul_le_mul_of_nonneg_right (by linarith) ?_)
    exact div_nonneg ((norm_nonneg _).trans nC) (norm_nonneg _)

end ops
end Iir
