import Verif.Lemmas.RoundProto
import Mathlib.Analysis.SpecialFunctions.Log.Deriv
import Mathlib.Analysis.Complex.ExponentialBounds

/-! # Rounding errors of the Chebyshev low pass prototypes -/

namespace Iir
open FArith Cx Exec Spec Proto

theorem log_ten_gt : 2.07 ≤ Real.log 10 := by
  have h1 : Real.log 8 ≤ Real.log 10 := Real.log_le_log (by norm_num) (by norm_num)
  have h2 : Real.log 8 = 3 * Real.log 2 := by
    rw [show (8 : ℝ) = 2 ^ 3 by norm_num, Real.log_pow]; norm_num
  have := Real.log_two_gt_d9
  norm_num at *
  linarith

theorem log_ten_lt : Real.log 10 ≤ 3 := by
  have h1 : Real.log 10 ≤ Real.log 16 := Real.log_le_log (by norm_num) (by norm_num)
  have h2 : Real.log 16 = 4 * Real.log 2 := by
    rw [show (16 : ℝ) = 2 ^ 4 by norm_num, Real.log_pow]; norm_num
  have := Real.log_two_lt_d9
  norm_num at *
  linarith

theorem exp_upper {t : ℝ} (h1 : t < 1) : Real.exp t ≤ 1 / (1 - t) := by
  have h2 := Real.add_one_le_exp (-t)
  have h3 : 0 < 1 - t := by linarith
  rw [le_div_iff₀ h3]
  have h4 : Real.exp t * Real.exp (-t) = 1 := by rw [← Real.exp_add]; simp
  nlinarith [Real.exp_pos t]

variable {R : Type} [FArith R] {u η Ω : ℝ} {r : Rounds R u η Ω}

section ops
variable (hl : r.Library)
include hl

/-- From a relative error to an interval. -/
theorem In.of_near {y : R} {v c d M lo hi : ℝ} (h : r.Fin y) (e : |r.val y - v| ≤ |v| / 2 ^ 45 + η) (hc : c ≤ v)
    (hd : v ≤ d) (hM : |v| ≤ M) (hlo : lo + M / 2 ^ 45 + 1 / 2 ^ 200 ≤ c) (hhi : d + M / 2 ^ 45 + 1 / 2 ^ 200 ≤ hi) :
    r.In y lo hi := by
  have hη := hl.η_le
  have e2 : |v| / 2 ^ 45 ≤ M / 2 ^ 45 := div_le_div_of_nonneg_right hM (by norm_num)
  rw [abs_le] at e
  exact ⟨h, by linarith, by linarith⟩

theorem In.sqrt {x : R} {a b s t M lo hi : ℝ} (hx : r.In x a b) (hsa : s ^ 2 ≤ a) (ht : 0 ≤ t) (hbt : b ≤ t ^ 2)
    (htM : t ≤ M) (hlo : lo + M / 2 ^ 45 + 1 / 2 ^ 200 ≤ s) (hhi : t + M / 2 ^ 45 + 1 / 2 ^ 200 ≤ hi) :
    r.In (FArith.sqrt x) lo hi := by
  have h0 : 0 ≤ r.val x := (sq_nonneg s).trans (hsa.trans hx.2.1)
  obtain ⟨h1, h2⟩ := hl.sqrt x hx.1 h0
  have h3 : s ≤ Real.sqrt (r.val x) := Real.le_sqrt_of_sq_le (hsa.trans hx.2.1)
  have h4 : Real.sqrt (r.val x) ≤ t := by
    rw [Real.sqrt_le_left ht]; exact hx.2.2.trans hbt
  have h5 : |Real.sqrt (r.val x)| = Real.sqrt (r.val x) := abs_of_nonneg (Real.sqrt_nonneg _)
  exact In.of_near hl h1 (by rw [h5]; exact h2) h3 h4 (by rw [h5]; exact h4.trans htM) hlo hhi

/-- `t * 0.1 * ln10` -/
theorem decibel_near {t : R} (ht : r.Fin t) (hb : |r.val t| ≤ 100) :
    r.Fin (t * 0.1 * ln10) ∧ |r.val (t * 0.1 * ln10) - r.val t * Real.log 10 / 10| ≤ 1 / 2 ^ 36 := by
  obtain ⟨a1, a2⟩ := hl.tenth
  obtain ⟨b1, b2⟩ := hl.ln10
  have l1 := log_ten_gt
  have l2 := log_ten_lt
  have ha : |r.val (0.1 : R)| ≤ 1 / 5 := by rw [abs_le] at a2 ⊢; norm_num at a2 ⊢; exact ⟨by linarith, by linarith⟩
  have hL : |r.val (ln10 : R)| ≤ 4 := by rw [abs_le] at b2 ⊢; norm_num at b2 l1 ⊢; exact ⟨by linarith, by linarith⟩
  have hM : |r.val t * r.val (0.1 : R)| ≤ 20 := by
    rw [abs_mul]
    have := mul_le_mul hb ha (abs_nonneg _) (by norm_num)
    linarith
  obtain ⟨m1, m2⟩ := raw_mul hl.toAccurate ht a1 hM (by norm_num)
  have e1 : |r.val t * r.val (0.1 : R) - r.val t * (1 / 10)| ≤ 100 * (1 / 2 ^ 45) := by
    rw [← mul_sub, abs_mul]
    exact mul_le_mul hb a2 (abs_nonneg _) (by norm_num)
  have e2 : |r.val (t * 0.1) - r.val t * (1 / 10)| ≤ 101 / 2 ^ 45 := by
    have := abs_sub_le (r.val (t * 0.1)) (r.val t * r.val (0.1 : R)) (r.val t * (1 / 10))
    norm_num at m2 e1 ⊢
    linarith
  have ht1 : |r.val t * (1 / 10)| ≤ 10 := by
    rw [abs_mul, abs_of_pos (a := (1 / 10 : ℝ)) (by norm_num)]
    linarith
  have hb1 : |r.val (t * 0.1)| ≤ 11 := by
    have := abs_sub_le (r.val (t * 0.1)) (r.val t * (1 / 10)) 0
    rw [_root_.sub_zero, _root_.sub_zero] at this
    norm_num at e2
    linarith
  have hM2 : |r.val (t * 0.1) * r.val (ln10 : R)| ≤ 44 := by
    rw [abs_mul]
    have := mul_le_mul hb1 hL (abs_nonneg _) (by norm_num)
    linarith
  obtain ⟨n1, n2⟩ := raw_mul hl.toAccurate m1 b1 hM2 (by norm_num)
  refine ⟨n1, ?_⟩
  have e3 : |r.val (t * 0.1) * r.val (ln10 : R) - r.val t * (1 / 10) * r.val (ln10 : R)| ≤ 101 / 2 ^ 45 * 4 := by
    rw [← sub_mul, abs_mul]
    exact mul_le_mul e2 hL (abs_nonneg _) (by norm_num)
  have e4 : |r.val t * (1 / 10) * r.val (ln10 : R) - r.val t * (1 / 10) * Real.log 10| ≤ 10 * (1 / 2 ^ 45) := by
    rw [← mul_sub, abs_mul]
    exact mul_le_mul ht1 b2 (abs_nonneg _) (by norm_num)
  have e5 := abs_sub_le (r.val (t * 0.1 * ln10)) (r.val (t * 0.1) * r.val (ln10 : R)) (r.val t * (1 / 10) * Real.log 10)
  have e6 := abs_sub_le (r.val (t * 0.1) * r.val (ln10 : R)) (r.val t * (1 / 10) * r.val (ln10 : R))
    (r.val t * (1 / 10) * Real.log 10)
  rw [show r.val t * Real.log 10 / 10 = r.val t * (1 / 10) * Real.log 10 by ring]
  norm_num at n2 e3 e4 e5 e6 ⊢
  linarith

/-- `asinh (x) / n`: `n` times the result is the logarithm of a number within the bounds, up to `2⁻³⁰`. -/
theorem asinh_near {x : R} {q Q : ℝ} (hx : r.In x q Q) (hq : 1 / 64 ≤ q) (hQ : Q ≤ 2 ^ 17) {n : ℕ} (hn : 1 ≤ n) (h16 : n ≤ 16) :
    r.Fin (asinh x / ofI (n : ℤ)) ∧ ∃ y : ℝ, 1 + q - 1 / 2 ^ 15 ≤ y ∧ y ≤ 2 * Q + 1 + 1 / 2 ^ 15 ∧
      |n * r.val (asinh x / ofI (n : ℤ)) - Real.log y| ≤ 1 / 2 ^ 30 := by
  have ha := hl.toAccurate
  have hqQ : q ≤ Q := hx.2.1.trans hx.2.2
  have hQ0 : 0 ≤ Q := by linarith
  have hQQ : Q * Q ≤ 2 ^ 34 := by
    have := mul_le_mul hQ hQ hQ0 (by norm_num)
    norm_num at this ⊢
    exact this
  have hqq : 1 / 2 ^ 12 ≤ q * q := by
    have := mul_le_mul hq hq (by norm_num) (by linarith)
    norm_num at this ⊢
    exact this
  have h1 : r.In (x * x) 0 (Q ^ 2 + 1 / 2 ^ 18) := by
    refine In.mul ha (2 ^ 34) hx hx (by linarith) (by linarith) hQQ (by norm_num) ?_ ?_
    · norm_num at hqq ⊢; linarith
    · rw [sq]; norm_num; linarith
  have h2 : r.In (x * x + 1) (1 - 1 / 2 ^ 17) (Q ^ 2 + 1 + 1 / 2 ^ 16) := by
    refine In.add ha (2 ^ 35) h1 (In.one ha) (by norm_num) ?_ (by norm_num) (by norm_num) (by norm_num; linarith)
    rw [sq]; norm_num at hQQ ⊢; linarith
  have h3 : r.In (FArith.sqrt (x * x + 1)) (1 - 1 / 2 ^ 16) (Q + 1 + 1 / 2 ^ 16) := by
    refine In.sqrt hl (s := 1 - 1 / 2 ^ 17) (t := Q + 1) (M := 2 ^ 18) h2 (by norm_num) (by linarith) ?_
      (by norm_num at hQ ⊢; linarith) (by norm_num) (by norm_num; linarith)
    norm_num at hq ⊢
    nlinarith
  have h4 : r.In (x + FArith.sqrt (x * x + 1)) (1 + q - 1 / 2 ^ 15) (2 * Q + 1 + 1 / 2 ^ 15) := by
    refine In.add ha (2 ^ 19) hx h3 ?_ ?_ (by norm_num) ?_ ?_
    · norm_num at hq ⊢; linarith
    · norm_num at hQ ⊢; linarith
    · norm_num; linarith
    · norm_num; linarith
  set y := x + FArith.sqrt (x * x + 1) with hy
  obtain ⟨y0, y1, y2⟩ := h4
  have yp : 1 ≤ r.val y := by norm_num at y1 hq; linarith
  have l0 : 0 ≤ Real.log (r.val y) := Real.log_nonneg yp
  have l1 : Real.log (r.val y) ≤ 14 := by
    have e : Real.log (r.val y) ≤ Real.log (2 ^ 19) := Real.log_le_log (by linarith) (by norm_num at y2 hQ ⊢; linarith)
    rw [Real.log_pow] at e
    have := Real.log_two_lt_d9
    norm_num at *
    linarith
  have l2 : |Real.log (r.val y)| ≤ 2 ^ 400 := by
    rw [abs_of_nonneg l0]
    refine l1.trans ?_
    calc (14 : ℝ) ≤ 2 ^ 4 := by norm_num
      _ ≤ _ := pow_le_pow_right₀ (by norm_num) (by norm_num)
  obtain ⟨g1, g2⟩ := hl.log y y0 (by linarith) l2
  rw [abs_of_nonneg l0] at g2
  clear l2
  have hη := hl.η_le
  have e1 : |r.val (FArith.log y) - Real.log (r.val y)| ≤ 1 / 2 ^ 40 := by norm_num at g2 hη ⊢; linarith
  obtain ⟨n1, n2⟩ := ofI_val hl (i := (n : ℤ)) (by rw [abs_of_nonneg (by omega)]; omega)
  have hn1 : (1 : ℝ) ≤ n := by exact_mod_cast hn
  have hn16 : (n : ℝ) ≤ 16 := by exact_mod_cast h16
  have ev : r.val (ofI (n : ℤ) : R) = n := by rw [n2]; push_cast; ring
  have hM : |r.val (FArith.log y) / r.val (ofI (n : ℤ) : R)| ≤ 16 := by
    rw [ev, abs_div, abs_of_pos (a := (n : ℝ)) (by linarith), div_le_iff₀ (by linarith)]
    have : |r.val (FArith.log y)| ≤ 15 := by
      rw [abs_le] at e1 ⊢
      norm_num at e1
      exact ⟨by linarith, by linarith⟩
    linarith
  obtain ⟨d1, d2⟩ := raw_div ha g1 n1 (by rw [ev]; linarith) hM (by norm_num)
  refine ⟨d1, r.val y, y1, y2, ?_⟩
  rw [ev] at d2
  show |(n : ℝ) * r.val (FArith.log y / ofI (n : ℤ)) - _| ≤ _
  have e2 : |(n : ℝ) * r.val (FArith.log y / ofI (n : ℤ)) - r.val (FArith.log y)| ≤ 1 / 2 ^ 40 := by
    have e3 : (n : ℝ) * r.val (FArith.log y / ofI (n : ℤ)) - r.val (FArith.log y) =
        n * (r.val (FArith.log y / ofI (n : ℤ)) - r.val (FArith.log y) / n) := by field_simp
    rw [e3, abs_mul, abs_of_pos (a := (n : ℝ)) (by linarith)]
    have := mul_le_mul hn16 d2 (abs_nonneg _) (by norm_num)
    norm_num at this ⊢
    linarith
  have := abs_sub_le ((n : ℝ) * r.val (FArith.log y / ofI (n : ℤ))) (r.val (FArith.log y)) (Real.log (r.val y))
  norm_num at e1 e2 ⊢
  linarith

/-! ## The ellipse -/

/-- product of two numbers with small errors -/
theorem prod_near {x y : R} {X Y : ℝ} (hx : r.Fin x) (hy : r.Fin y) (hX : |X| ≤ 256) (hY : |Y| ≤ 1)
    (ex : |r.val x - X| ≤ 1 / 2 ^ 36) (ey : |r.val y - Y| ≤ 1 / 2 ^ 44) :
    r.Fin (x * y) ∧ |r.val (x * y) - X * Y| ≤ 1 / 2 ^ 34 := by
  have hx1 : |r.val x| ≤ 257 := by
    have := abs_sub_le (r.val x) X 0
    rw [_root_.sub_zero, _root_.sub_zero] at this
    norm_num at ex
    linarith
  have hy1 : |r.val y| ≤ 2 := by
    have := abs_sub_le (r.val y) Y 0
    rw [_root_.sub_zero, _root_.sub_zero] at this
    norm_num at ey
    linarith
  have hM : |r.val x * r.val y| ≤ 514 := by
    rw [abs_mul]
    have := mul_le_mul hx1 hy1 (abs_nonneg _) (by norm_num)
    linarith
  obtain ⟨m1, m2⟩ := raw_mul hl.toAccurate hx hy hM (by norm_num)
  refine ⟨m1, ?_⟩
  have e1 : |r.val x * r.val y - r.val x * Y| ≤ 257 * (1 / 2 ^ 44) := by
    rw [← mul_sub, abs_mul]
    exact mul_le_mul hx1 ey (abs_nonneg _) (by norm_num)
  have e2 : |r.val x * Y - X * Y| ≤ 1 / 2 ^ 36 * 1 := by
    rw [← sub_mul, abs_mul]
    exact mul_le_mul ex hY (abs_nonneg _) (by norm_num)
  have e3 := abs_sub_le (r.val (x * y)) (r.val x * r.val y) (X * Y)
  have e4 := abs_sub_le (r.val x * r.val y) (r.val x * Y) (X * Y)
  norm_num at m2 e1 e2 ⊢
  linarith

omit hl in
theorem sinh_cosh_le {V : ℝ} (h0 : 0 ≤ V) (h1 : Real.exp V ≤ 500) :
    0 ≤ Real.sinh V ∧ Real.sinh V ≤ 250 ∧ 1 ≤ Real.cosh V ∧ Real.cosh V ≤ 251 := by
  have h2 : Real.exp (-V) ≤ 1 := Real.exp_le_one_iff.2 (by linarith)
  have h3 := Real.exp_pos (-V)
  refine ⟨Real.sinh_nonneg_iff.2 h0, ?_, Real.one_le_cosh V, ?_⟩
  · rw [Real.sinh_eq]; linarith
  · rw [Real.cosh_eq]; linarith

/-- The two coordinates of a point on the ellipse. -/
theorem ellipse_near {v A : R} (hv : r.Fin v) (hA : r.Fin A) (h0 : 0 ≤ r.val v) (h1 : Real.exp (r.val v) ≤ 500) :
    (r.Fin (-FArith.sinh v * FArith.cos A) ∧
      |r.val (-FArith.sinh v * FArith.cos A) - -(Real.sinh (r.val v) * Real.cos (r.val A))| ≤ 1 / 2 ^ 34) ∧
    (r.Fin (FArith.cosh v * FArith.sin A) ∧
      |r.val (FArith.cosh v * FArith.sin A) - Real.cosh (r.val v) * Real.sin (r.val A)| ≤ 1 / 2 ^ 34) := by
  obtain ⟨s0, s1, c0, c1⟩ := sinh_cosh_le h0 h1
  have hη := hl.η_le
  have hΩ := hl.le_Ω
  have p : (251 : ℝ) ≤ 2 ^ 400 := by
    calc (251 : ℝ) ≤ 2 ^ 8 := by norm_num
      _ ≤ _ := pow_le_pow_right₀ (by norm_num) (by norm_num)
  obtain ⟨a1, a2⟩ := hl.sinh v hv (by rw [abs_of_nonneg s0]; norm_num at hΩ ⊢; linarith)
  obtain ⟨b1, b2⟩ := hl.cosh v hv (c1.trans p)
  obtain ⟨n1, n2⟩ := hl.neg _ a1
  obtain ⟨d1, d2⟩ := hl.cos A hA
  obtain ⟨e1, e2⟩ := hl.sin A hA
  rw [abs_of_nonneg s0] at a2
  clear p
  have hc := Real.abs_cos_le_one (r.val A)
  have hs := Real.abs_sin_le_one (r.val A)
  constructor
  · have := prod_near hl n1 d1 (X := -Real.sinh (r.val v)) (Y := Real.cos (r.val A))
      (by rw [abs_neg, abs_of_nonneg s0]; linarith) hc
      (by
        rw [n2, show ∀ a b : ℝ, -a - -b = -(a - b) from fun a b => by ring, abs_neg]
        norm_num at a2 hη ⊢; linarith)
      (by norm_num at d2 hη ⊢; linarith)
    rwa [neg_mul] at this
  · exact prod_near hl b1 e1 (by rw [abs_of_nonneg (by linarith)]; linarith) hs
      (by norm_num at b2 hη ⊢; linarith) (by norm_num at e2 hη ⊢; linarith)

omit hl in
/-- A number close to a point on the ellipse. -/
theorem ellipse_bounds {σ κ c s a b : ℝ} (hσ : 0 ≤ σ) (hσ1 : σ ≤ 250) (hκ : κ ^ 2 = σ ^ 2 + 1) (hκ0 : 1 ≤ κ) (hκ1 : κ ≤ 251)
    (hcs : c ^ 2 + s ^ 2 = 1) (ha : |a - -(σ * c)| ≤ 1 / 2 ^ 34) (hb : |b - κ * s| ≤ 1 / 2 ^ 34) :
    σ ^ 2 - 1 / 2 ^ 24 ≤ a ^ 2 + b ^ 2 ∧ a ^ 2 + b ^ 2 ≤ κ ^ 2 + 1 / 2 ^ 24 := by
  have hc : |c| ≤ 1 := by rw [← sq_le_one_iff_abs_le_one]; nlinarith [sq_nonneg s]
  have hs : |s| ≤ 1 := by rw [← sq_le_one_iff_abs_le_one]; nlinarith [sq_nonneg c]
  have key : ∀ {x y : ℝ}, |x| ≤ 251 → |y - x| ≤ 1 / 2 ^ 34 → |y ^ 2 - x ^ 2| ≤ 1 / 2 ^ 25 := by
    intro x y hx hy
    have e1 : y ^ 2 - x ^ 2 = (y - x) * (y - x + 2 * x) := by ring
    rw [e1, abs_mul]
    have e2 : |y - x + 2 * x| ≤ 503 := by
      refine (abs_add_le _ _).trans ?_
      rw [abs_mul, abs_of_pos (a := (2 : ℝ)) (by norm_num)]
      norm_num at hy
      linarith
    have := mul_le_mul hy e2 (abs_nonneg _) (by norm_num)
    norm_num at this ⊢
    linarith
  have k1 := key (x := -(σ * c)) (by
    rw [abs_neg, abs_mul, abs_of_nonneg hσ]
    have := mul_le_mul hσ1 hc (abs_nonneg _) (by norm_num)
    linarith) ha
  have k2 := key (x := κ * s) (by
    rw [abs_mul, abs_of_nonneg (by linarith : (0 : ℝ) ≤ κ)]
    have := mul_le_mul hκ1 hs (abs_nonneg _) (by norm_num)
    linarith) hb
  have e : (-(σ * c)) ^ 2 + (κ * s) ^ 2 = σ ^ 2 + s ^ 2 := by
    have : c ^ 2 = 1 - s ^ 2 := by linarith
    rw [neg_sq, mul_pow, mul_pow, hκ, this]; ring
  have hs2 : s ^ 2 ≤ 1 := by nlinarith [sq_nonneg c]
  have hs0 := sq_nonneg s
  rw [abs_le] at k1 k2
  generalize (-(σ * c)) ^ 2 = U at *
  generalize (κ * s) ^ 2 = W at *
  rw [hκ]
  norm_num at k1 k2 ⊢
  exact ⟨by linarith, by linarith⟩

/-! ## Chebyshev I -/

/-- Ripple of the pass band: between `1/64` and 30 decibel. -/
abbrev Spec.Rounds.Ripple (r : Rounds R u η Ω) (x : R) : Prop := r.In x (1 / 64) 30

theorem ripple_eps {x : R} (h : r.Ripple x) :
    r.In (1 / FArith.sqrt (1 / FArith.exp (-x * 0.1 * ln10) - 1)) 0.0313 18.4 := by
  have ha := hl.toAccurate
  obtain ⟨n1, n2⟩ := hl.neg _ h.1
  obtain ⟨a1, a2⟩ := decibel_near hl n1 (by
    rw [n2, abs_neg, abs_le]; have := h.2; norm_num at this; exact ⟨by linarith, by linarith⟩)
  have l1 := log_ten_gt
  have l2 := log_ten_lt
  have hx := h.2
  generalize (-x * 0.1 * ln10 : R) = t at *
  rw [n2, abs_le] at a2
  have k1 : 1 / 64 * Real.log 10 ≤ r.val x * Real.log 10 := mul_le_mul_of_nonneg_right hx.1 (by linarith)
  have k2 : r.val x * Real.log 10 ≤ 30 * Real.log 10 := mul_le_mul_of_nonneg_right hx.2 (by linarith)
  have t1 : r.val t ≤ -0.0032 := by norm_num at *; linarith
  have t2 : -(3 * Real.log 10) - 1 / 2 ^ 36 ≤ r.val t := by norm_num at *; linarith
  have e1 : Real.exp (r.val t) ≤ 0.9969 := by
    refine (Real.exp_le_exp.2 t1).trans ((exp_upper (by norm_num)).trans (by norm_num))
  have e2 : 0.000999 ≤ Real.exp (r.val t) := by
    refine le_trans ?_ (Real.exp_le_exp.2 t2)
    have e3 : Real.exp (-(3 * Real.log 10)) = 1 / 1000 := by
      rw [Real.exp_neg, mul_comm, Real.exp_mul, Real.exp_log (by norm_num)]; norm_num
    rw [sub_eq_add_neg, Real.exp_add, e3]
    have := Real.add_one_le_exp (-(1 / 2 ^ 36 : ℝ))
    norm_num at this ⊢
    linarith
  have e0 := Real.exp_pos (r.val t)
  obtain ⟨g1, g2⟩ := hl.exp t a1 (by have := hl.le_Ω; norm_num at *; linarith)
  have h1 : r.In (FArith.exp t) 0.00099 0.99695 :=
    In.of_near hl g1 (by rwa [abs_of_pos e0]) e2 e1 (M := 1) (by rw [abs_of_pos e0]; norm_num at e1 ⊢; linarith)
      (by norm_num) (by norm_num)
  have h2 : r.In (1 / FArith.exp t) 1.003 1012 := In.div ha 1011 (In.one ha) h1 (by norm_num) (by norm_num) (by norm_num)
    (by norm_num) (by norm_num) (by norm_num) (by norm_num)
  have h3 : r.In (1 / FArith.exp t - 1) 0.00299 1012 := In.sub ha 1012 h2 (In.one ha) (by norm_num) (by norm_num) (by norm_num)
    (by norm_num) (by norm_num)
  have h4 : r.In (FArith.sqrt (1 / FArith.exp t - 1)) 0.0546 31.82 :=
    In.sqrt hl (s := 0.05467) (t := 31.815) (M := 32) h3 (by norm_num) (by norm_num) (by norm_num) (by norm_num) (by norm_num)
      (by norm_num)
  exact In.div ha 18.35 (In.one ha) h4 (by norm_num) (by norm_num) (by norm_num) (by norm_num) (by norm_num) (by norm_num)
    (by norm_num)

omit hl in
theorem exp_log_near {t y : ℝ} (hy : 0 < y) (h : t - Real.log y ≤ 1 / 2 ^ 30) : Real.exp t ≤ y * 1.001 := by
  have e1 : Real.exp t ≤ Real.exp (Real.log y + 1 / 2 ^ 30) := Real.exp_le_exp.2 (by linarith)
  rw [Real.exp_add, Real.exp_log hy] at e1
  refine e1.trans (mul_le_mul_of_nonneg_left ((exp_upper (by norm_num)).trans (by norm_num)) hy.le)

theorem ripple_v {x : R} (h : r.Ripple x) {n : ℕ} (hn : 1 ≤ n) (h16 : n ≤ 16) :
    r.Fin (asinh (1 / FArith.sqrt (1 / FArith.exp (-x * 0.1 * ln10) - 1)) / ofI (n : ℤ)) ∧
      0.00188 ≤ r.val (asinh (1 / FArith.sqrt (1 / FArith.exp (-x * 0.1 * ln10) - 1)) / ofI (n : ℤ)) ∧
      Real.exp (r.val (asinh (1 / FArith.sqrt (1 / FArith.exp (-x * 0.1 * ln10) - 1)) / ofI (n : ℤ))) ≤ 39 := by
  obtain ⟨h1, y, y1, y2, e⟩ := asinh_near hl (ripple_eps hl h) (by norm_num) (by norm_num) hn h16
  generalize (asinh (1 / FArith.sqrt (1 / FArith.exp (-x * 0.1 * ln10) - 1)) / ofI (n : ℤ) : R) = v at *
  have hn1 : (1 : ℝ) ≤ n := by exact_mod_cast hn
  have hn16 : (n : ℝ) ≤ 16 := by exact_mod_cast h16
  rw [abs_le] at e
  have y0 : 1.0312 ≤ y := by norm_num at y1 ⊢; linarith
  have k1 : 0.0302 ≤ Real.log y := by
    have := Real.one_sub_inv_le_log_of_pos (x := y) (by linarith)
    have h2 : y⁻¹ ≤ (1.0312)⁻¹ := inv_anti₀ (by norm_num) y0
    norm_num at this h2 ⊢
    linarith
  have k2 : 0.0301 ≤ n * r.val v := by norm_num at e k1 ⊢; linarith
  have k3 : 0.00188 ≤ r.val v := by
    have hp : 0 < r.val v := (pos_iff_pos_of_mul_pos (a := (n : ℝ)) (b := r.val v) (by norm_num at k2; linarith)).1 (by linarith)
    have : (n : ℝ) * r.val v ≤ 16 * r.val v := mul_le_mul_of_nonneg_right hn16 hp.le
    norm_num at k2 ⊢
    linarith
  refine ⟨h1, k3, ?_⟩
  have k4 : r.val v ≤ n * r.val v := by
    have := mul_le_mul_of_nonneg_right hn1 (by norm_num at k3; linarith : 0 ≤ r.val v)
    linarith
  refine (exp_log_near (y := y) (by linarith) (by linarith)).trans ?_
  norm_num at y2 ⊢
  linarith

omit [FArith R] hl in
/-- a computed angle against the exact one -/
theorem cos_lower {n : ℕ} (hn : 1 ≤ n) {j : ℤ} (hj : |j| + 1 ≤ n) {α : ℝ}
    (h : |α - j * Real.pi / (2 * n)| ≤ 1 / 2 ^ 39) : 1 / (n : ℝ) - 1 / 2 ^ 39 ≤ Real.cos α := by
  have h1 := cos_angle hn hj
  have h2 := (cos_near (x := α) (y := j * Real.pi / (2 * n))).trans h
  rw [abs_le] at h2
  linarith

omit hl in
theorem one_div_le {n : ℕ} (hn : 1 ≤ n) {N : ℝ} (h : (n : ℝ) ≤ N) : 1 / N ≤ 1 / (n : ℝ) :=
  one_div_le_one_div_of_le (by exact_mod_cast hn) h

theorem cheby1_pole {v A : R} (hv : r.Fin v) (hA : r.Fin A) (h0 : 0.00188 ≤ r.val v) (h1 : Real.exp (r.val v) ≤ 39)
    (hc : 1 / 16 - 1 / 2 ^ 39 ≤ Real.cos (r.val A)) :
    r.APole ⟨-FArith.sinh v * FArith.cos A, FArith.cosh v * FArith.sin A⟩ := by
  have hv0 : 0 ≤ r.val v := by norm_num at h0; linarith
  obtain ⟨⟨a1, a2⟩, b1, b2⟩ := ellipse_near hl hv hA hv0 (by linarith)
  obtain ⟨s0, s1, c0, c1⟩ := sinh_cosh_le hv0 (by linarith)
  have hk : Real.cosh (r.val v) ^ 2 = Real.sinh (r.val v) ^ 2 + 1 := Real.cosh_sq _
  obtain ⟨k1, k2⟩ := ellipse_bounds s0 s1 hk c0 c1 (Real.cos_sq_add_sin_sq (r.val A)) a2 b2
  have hs : 0.00188 ≤ Real.sinh (r.val v) := h0.trans (Real.self_le_sinh_iff.2 hv0)
  have hch : Real.cosh (r.val v) ≤ 20 := by
    have h2 : Real.exp (-r.val v) ≤ 1 := Real.exp_le_one_iff.2 (by linarith)
    rw [Real.cosh_eq]; linarith
  have hsc : 0.00188 * (1 / 16 - 1 / 2 ^ 39) ≤ Real.sinh (r.val v) * Real.cos (r.val A) :=
    mul_le_mul hs hc (by norm_num) s0
  refine ⟨⟨a1, b1⟩, ?_, ?_, ?_⟩
  · rw [abs_le] at a2
    norm_num at a2 hsc ⊢
    linarith
  · refine le_trans ?_ k1
    have := pow_le_pow_left₀ (by norm_num) hs 2
    norm_num at this ⊢
    linarith
  · refine k2.trans ?_
    have := pow_le_pow_left₀ (by linarith) hch 2
    norm_num at this ⊢
    linarith

theorem sinh_real {v : R} (hv : r.Fin v) {lo hi : ℝ} (hlo : 0 < lo) (h0 : lo ≤ r.val v) (h1 : Real.exp (r.val v) ≤ 2 * hi)
    (hhi : hi ≤ 2 ^ 30) : r.In (FArith.sinh v) (lo * 0.999 - 1 / 2 ^ 200) (hi * 1.001 + 1 / 2 ^ 200) := by
  have hv0 : 0 ≤ r.val v := by linarith
  have s0 : 0 ≤ Real.sinh (r.val v) := Real.sinh_nonneg_iff.2 hv0
  have s1 : Real.sinh (r.val v) ≤ hi := by
    have h2 := Real.exp_pos (-r.val v)
    rw [Real.sinh_eq]; linarith
  have s2 : lo ≤ Real.sinh (r.val v) := h0.trans (Real.self_le_sinh_iff.2 hv0)
  obtain ⟨a1, a2⟩ := hl.sinh v hv (by rw [abs_of_nonneg s0]; have := hl.le_Ω; norm_num at this hhi; linarith)
  rw [abs_of_nonneg s0, abs_le] at a2
  have hη := hl.η_le
  generalize Real.sinh (r.val v) = σ at *
  refine ⟨a1, ?_, ?_⟩ <;> norm_num at a2 hη ⊢ <;> linarith

/-- the gain of an even order -/
theorem ripple_gain {x : R} (h : r.Ripple x) : r.In (FArith.pow 10 (-x / 20)) (-2) 2 := by
  have ha := hl.toAccurate
  have h10 : r.In (10 : R) 10 10 := by simpa using In.lit ha 10 (by norm_num)
  have h20 : r.In (20 : R) 20 20 := by simpa using In.lit ha 20 (by norm_num)
  have v10 : r.val (10 : R) = 10 := le_antisymm h10.2.2 h10.2.1
  have v20 : r.val (20 : R) = 20 := le_antisymm h20.2.2 h20.2.1
  obtain ⟨n1, n2⟩ := hl.neg _ h.1
  have hx := h.2
  have hM : |r.val (-x) / r.val (20 : R)| ≤ 2 := by
    rw [n2, v20, abs_div, abs_neg, abs_of_pos (a := (20 : ℝ)) (by norm_num), div_le_iff₀ (by norm_num), abs_le]
    norm_num at hx ⊢
    exact ⟨by linarith, by linarith⟩
  obtain ⟨d1, d2⟩ := raw_div ha n1 h20.1 (by rw [v20]; norm_num) hM (by norm_num)
  have hneg : r.val (-x / 20) ≤ 0 := by
    rw [n2, v20, abs_le] at d2
    norm_num at d2 hx ⊢
    linarith
  have hp : (10 : ℝ) ^ r.val (-x / 20) ≤ 1 := Real.rpow_le_one_of_one_le_of_nonpos (by norm_num) hneg
  have hp0 : (0 : ℝ) < (10 : ℝ) ^ r.val (-x / 20) := Real.rpow_pos_of_pos (by norm_num) _
  obtain ⟨p1, p2⟩ := hl.pow 10 (-x / 20) h10.1 d1 (by rw [v10]; norm_num)
    (by rw [v10]; have := hl.le_Ω; norm_num at this; linarith)
  rw [v10] at p2
  exact In.of_near hl p1 (by rwa [abs_of_pos hp0]) (c := 0) (d := 1) hp0.le hp (M := 1) (by rwa [abs_of_pos hp0])
    (by norm_num) (by norm_num)

theorem ChebyshevI.analog {n L : ℕ} (hn : 1 ≤ n) (h16 : n ≤ 16) (hL : (n + 1) / 2 ≤ L) {x : R} (hx : r.Ripple x) :
    Done (fun l => l.pairs.length = L) (ChebyshevI.lowPassBuild (n : ℤ) x) (Layout.Analog r n L) := by
  obtain ⟨v1, v2, v3⟩ := ripple_v hl hx hn h16
  unfold ChebyshevI.lowPassBuild
  obtain ⟨v, hv⟩ : ∃ v : R, v = asinh (1 / FArith.sqrt (1 / FArith.exp (-x * 0.1 * ln10) - 1)) / ofI (n : ℤ) := ⟨_, rfl⟩
  rw [← hv] at v1 v2 v3
  refine Trip.bind (Q := fun _ => Layout.Holds (fun _ p z => r.APole p ∧ r.AZero z) (fun p z => r.AReal p ∧ z = Cx.infinity)
    (fun _ _ => True) 0 L) (Done.of_run fun s hs => holds_reset.run ⟨hs, trivial⟩) fun _ =>
    Done.intChecked_ok (by omega) ?_
  simp only [tdiv_two, int_odd, ← hv]
  refine holds_build hL (fun i hi => ?_) ?_
  · have hj : |(2 * (i : ℤ) + 1 - n)| + 1 ≤ n := by
      rw [abs_of_nonpos (by omega)]; omega
    obtain ⟨a1, a2⟩ := angle_near hl hn h16 (j := 2 * (i : ℤ) + 1 - n) (by omega)
    have hc := cos_lower hn hj a2
    have h1 := cheby1_pole hl v1 a1 v2 v3 (le_trans (sub_le_sub_right (one_div_le hn (by exact_mod_cast h16)) _) hc)
    exact ⟨_, Cx.infinity, rfl, not_nan_of_fin hl h1.fin, infinity_not_nan hl, h1, .inl rfl⟩
  · by_cases h : n % 2 = 1
    · simp only [h, decide_true, if_true]
      have h2 := In.neg hl.toAccurate (sinh_real hl v1 (lo := 0.00188) (hi := 20) (by norm_num) v2 (by linarith) (by norm_num))
      have hfin : r.CFin (⟨-FArith.sinh v, 0⟩ : Cx R) := ⟨h2.1, r.zero.1⟩
      refine Trip.bind (Q := fun _ => Layout.Holds (fun _ p z => r.APole p ∧ r.AZero z)
        (fun p z => r.AReal p ∧ z = Cx.infinity) (fun _ _ => True) n L) ?_ fun _ => holds_setNormal
          ⟨⟨r.zero.1, r.zero.2⟩, In.mono (In.one hl.toAccurate) (by norm_num) (by norm_num)⟩
      have := holds_add (D := fun _ p z => r.APole p ∧ r.AZero z) (S := fun p z => r.AReal p ∧ z = Cx.infinity)
        (W := fun _ _ => True)
        (m := 2 * (n / 2)) (L := L) (p := ⟨-FArith.sinh v, 0⟩) (z := Cx.infinity) (feq_zero hl) (not_nan_of_fin hl hfin)
        (infinity_not_nan hl) (feq_zero hl) (feq_zero hl)
        ⟨⟨hfin, r.zero.2, h2.2.2.trans (by norm_num), le_trans (by norm_num) h2.2.1⟩, rfl⟩
        (by omega) (by omega)
      rwa [show 2 * (n / 2) + 1 = n by omega] at this
    · simp only [h, decide_false, Bool.false_eq_true, if_false]
      rw [show 2 * (n / 2) = n by omega]
      exact holds_setNormal ⟨⟨r.zero.1, r.zero.2⟩, ripple_gain hl hx⟩

end ops

end Iir
