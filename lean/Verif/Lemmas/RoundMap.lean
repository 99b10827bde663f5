import Verif.Lemmas.RoundLayout

/-! # Rounding errors of the low pass and high pass transforms -/

namespace Iir
open FArith Cx Exec Spec

/-! ## The unit disc -/

/-- the bilinear map in real numbers -/
theorem mobius_parts {w : ℂ} (h : w.re ≤ 0) :
    ((1 + w) / (1 - w)).re = (1 - (w.re ^ 2 + w.im ^ 2)) / (1 - 2 * w.re + (w.re ^ 2 + w.im ^ 2)) ∧
      ((1 + w) / (1 - w)).im = 2 * w.im / (1 - 2 * w.re + (w.re ^ 2 + w.im ^ 2)) := by
  have h0 : 0 < 1 - 2 * w.re + (w.re ^ 2 + w.im ^ 2) := by nlinarith [sq_nonneg w.re, sq_nonneg w.im]
  have e : Complex.normSq (1 - w) = 1 - 2 * w.re + (w.re ^ 2 + w.im ^ 2) := by
    rw [Complex.normSq_apply]; simp; ring
  constructor
  · rw [Complex.div_re, e]
    simp only [Complex.add_re, Complex.one_re, Complex.sub_re, Complex.add_im, Complex.one_im, Complex.sub_im]
    rw [← add_div]; congr 1; ring
  · rw [Complex.div_im, e]
    simp only [Complex.add_re, Complex.one_re, Complex.sub_re, Complex.add_im, Complex.one_im, Complex.sub_im]
    rw [← sub_div]; congr 1; ring

theorem circle_near {X Y a b e : ℝ} (he : 0 ≤ e) (he1 : e ≤ 1 / 2 ^ 43) (hn : X ^ 2 + Y ^ 2 ≤ 1) (ha : |a - X| ≤ e) (hb : |b - Y| ≤ e) :
    |(a ^ 2 + b ^ 2) - (X ^ 2 + Y ^ 2)| ≤ 1 / 2 ^ 40 ∧ |2 * a - 2 * X| ≤ 1 / 2 ^ 41 := by
  have hX : |X| ≤ 1 := by rw [← sq_le_one_iff_abs_le_one]; nlinarith [sq_nonneg Y]
  have hY : |Y| ≤ 1 := by rw [← sq_le_one_iff_abs_le_one]; nlinarith [sq_nonneg X]
  have key : ∀ {x y : ℝ}, |x| ≤ 1 → |y - x| ≤ e → |y ^ 2 - x ^ 2| ≤ 3 * e := by
    intro x y hx hy
    have e1 : y ^ 2 - x ^ 2 = (y - x) * (y - x + 2 * x) := by ring
    rw [e1, abs_mul]
    have e2 : |y - x + 2 * x| ≤ 3 := by
      refine (abs_add_le _ _).trans ?_
      rw [abs_mul, abs_of_pos (a := (2 : ℝ)) (by norm_num)]
      norm_num at he1
      linarith
    calc |y - x| * |y - x + 2 * x| ≤ e * 3 := mul_le_mul hy e2 (abs_nonneg _) he
      _ = _ := by ring
  constructor
  · have e1 : (a ^ 2 + b ^ 2) - (X ^ 2 + Y ^ 2) = (a ^ 2 - X ^ 2) + (b ^ 2 - Y ^ 2) := by ring
    rw [e1]
    refine (abs_add_le _ _).trans ?_
    have := key hX ha
    have := key hY hb
    norm_num at *
    linarith
  · rw [← mul_sub, abs_mul, abs_of_pos (a := (2 : ℝ)) (by norm_num)]
    norm_num at *
    linarith

/-- A pole `x + i y` that has been scaled with `φ`, and its image `X + i Y`. -/
theorem disc_exact {x y φ X Y : ℝ} (hφ : 1 / 512 ≤ φ) (hφ' : φ ≤ 512) (hx : x ≤ -(φ / 2 ^ 14 * (999 / 1000)))
    (hlo : (φ / 2 ^ 10) ^ 2 * (99 / 100) ≤ x ^ 2 + y ^ 2) (hhi : x ^ 2 + y ^ 2 ≤ (33 * φ) ^ 2)
    (hX : X = (1 - (x ^ 2 + y ^ 2)) / (1 - 2 * x + (x ^ 2 + y ^ 2)))
    (hY : Y = 2 * y / (1 - 2 * x + (x ^ 2 + y ^ 2))) :
    X ^ 2 + Y ^ 2 ≤ 1 ∧ 9 / 10 / 2 ^ 32 ≤ 1 - (X ^ 2 + Y ^ 2) ∧ 8 / 10 / 2 ^ 36 ≤ 1 - 2 * X + (X ^ 2 + Y ^ 2) ∧
      1 / 2 ^ 30 ≤ 1 + 2 * X + (X ^ 2 + Y ^ 2) := by
  have hφ0 : 0 < φ := by linarith
  have hx0 : x ≤ 0 := by
    have : 0 ≤ φ / 2 ^ 14 * (999 / 1000) := by positivity
    linarith
  set d := 1 - 2 * x + (x ^ 2 + y ^ 2) with hd
  have hd1 : 1 ≤ d := by rw [hd]; nlinarith [sq_nonneg x, sq_nonneg y]
  have hd0 : 0 < d := by linarith
  have hxφ : -(33 * φ) ≤ x := by
    have : x ^ 2 ≤ (33 * φ) ^ 2 := by nlinarith [sq_nonneg y]
    exact (abs_le_of_sq_le_sq' this (by positivity)).1
  have hdle : d ≤ (1 + 33 * φ) ^ 2 := by rw [hd]; nlinarith
  have hdφ : d ≤ 2 ^ 20 * φ := by
    refine hdle.trans ?_
    norm_num
    nlinarith
  have hdφ2 : d ≤ (545 * φ) ^ 2 := by
    refine hdle.trans (pow_le_pow_left₀ (by positivity) (by linarith) 2)
  have hdc : d ≤ 2 ^ 29 := by
    refine hdle.trans ?_
    norm_num
    nlinarith
  have e1 : 1 - (X ^ 2 + Y ^ 2) = -4 * x / d := by
    rw [hX, hY]; field_simp; rw [hd]; ring
  have e2 : 1 - 2 * X + (X ^ 2 + Y ^ 2) = 4 * (x ^ 2 + y ^ 2) / d := by
    rw [hX, hY]; field_simp; rw [hd]; ring
  have e3 : 1 + 2 * X + (X ^ 2 + Y ^ 2) = 4 / d := by
    rw [hX, hY]; field_simp; rw [hd]; ring
  have h1 : 9 / 10 / 2 ^ 32 ≤ 1 - (X ^ 2 + Y ^ 2) := by
    rw [e1, le_div_iff₀ hd0]
    norm_num at *
    linarith
  refine ⟨?_, h1, ?_, ?_⟩
  · norm_num at h1; linarith
  · rw [e2, le_div_iff₀ hd0]
    norm_num at *
    nlinarith
  · rw [e3, le_div_iff₀ hd0]
    norm_num at *
    linarith

/-- The same with the rounding error of the map. -/
theorem disc_near {x y φ X Y a b : ℝ} (hφ : 1 / 512 ≤ φ) (hφ' : φ ≤ 512) (hx : x ≤ -(φ / 2 ^ 14 * (999 / 1000)))
    (hlo : (φ / 2 ^ 10) ^ 2 * (99 / 100) ≤ x ^ 2 + y ^ 2) (hhi : x ^ 2 + y ^ 2 ≤ (33 * φ) ^ 2)
    (hX : X = (1 - (x ^ 2 + y ^ 2)) / (1 - 2 * x + (x ^ 2 + y ^ 2)))
    (hY : Y = 2 * y / (1 - 2 * x + (x ^ 2 + y ^ 2))) (ha : |a - X| ≤ 1 / 2 ^ 43) (hb : |b - Y| ≤ 1 / 2 ^ 43) :
    1 / 2 ^ 33 ≤ 1 - (a ^ 2 + b ^ 2) ∧ 1 / 2 ^ 37 ≤ 1 - 2 * a + (a ^ 2 + b ^ 2) ∧
      1 / 2 ^ 37 ≤ 1 + 2 * a + (a ^ 2 + b ^ 2) := by
  obtain ⟨h0, h1, h2, h3⟩ := disc_exact hφ hφ' hx hlo hhi hX hY
  obtain ⟨h4, h5⟩ := circle_near (by positivity) le_rfl h0 ha hb
  rw [abs_le] at h4 h5
  norm_num at h0 h1 h2 h3 h4 h5 ⊢
  exact ⟨by linarith, by linarith, by linarith⟩

/-- A real pole. -/
theorem real_near {x φ X a : ℝ} (hφ : 1 / 512 ≤ φ) (hφ' : φ ≤ 512) (hx : x ≤ -(φ / 2 ^ 20 * (999 / 1000)))
    (hhi : -(33 * φ) ≤ x) (hX : X = (1 - x ^ 2) / (1 - 2 * x + x ^ 2)) (ha : |a - X| ≤ 1 / 2 ^ 43) :
    1 / 2 ^ 30 ≤ 1 - a ∧ 1 / 2 ^ 30 ≤ 1 + a := by
  have hφ0 : 0 < φ := by linarith
  have hx0 : x ≤ 0 := by
    have : 0 ≤ φ / 2 ^ 20 * (999 / 1000) := by positivity
    linarith
  have hd : 0 < 1 - x := by linarith
  have e : X = (1 + x) / (1 - x) := by
    have : 1 - 2 * x + x ^ 2 ≠ 0 := by
      rw [show 1 - 2 * x + x ^ 2 = (1 - x) ^ 2 by ring]; positivity
    rw [hX, div_eq_div_iff this hd.ne']; ring
  have e1 : 1 - X = -2 * x / (1 - x) := by rw [e]; field_simp; ring
  have e2 : 1 + X = 2 / (1 - x) := by rw [e]; field_simp; ring
  have h1 : 11 / 10 / 2 ^ 30 ≤ 1 - X := by
    rw [e1, le_div_iff₀ hd]
    norm_num at *
    linarith
  have h2 : 1 / 2 ^ 20 ≤ 1 + X := by
    rw [e2, le_div_iff₀ hd]
    norm_num at *
    linarith
  rw [abs_le] at ha
  norm_num at *
  exact ⟨by linarith, by linarith⟩

/-- A zero on the imaginary axis. -/
theorem zero_near {y φ X Y a b : ℝ} (hφ : 1 / 512 ≤ φ) (hlo : φ * (98 / 100) ≤ |y|)
    (hX : X = (1 - y ^ 2) / (1 + y ^ 2)) (hY : Y = 2 * y / (1 + y ^ 2)) (ha : |a - X| ≤ 1 / 2 ^ 43)
    (hb : |b - Y| ≤ 1 / 2 ^ 43) :
    1 / 4 ≤ a ^ 2 + b ^ 2 ∧ a ^ 2 + b ^ 2 ≤ 4 ∧ 1 / 2 ^ 17 ≤ 1 - 2 * a + (a ^ 2 + b ^ 2) := by
  have hd : 0 < 1 + y ^ 2 := by positivity
  have h0 : X ^ 2 + Y ^ 2 = 1 := by rw [hX, hY]; field_simp; ring
  obtain ⟨h4, h5⟩ := circle_near (by positivity) le_rfl h0.le ha hb
  have hy : (98 / 51200) ^ 2 ≤ y ^ 2 := by
    rw [← sq_abs y]
    exact pow_le_pow_left₀ (by norm_num) (by linarith) 2
  have h6 : 15 / 10 / 2 ^ 17 ≤ 1 - 2 * X + (X ^ 2 + Y ^ 2) := by
    have e : 1 - 2 * X + (X ^ 2 + Y ^ 2) = 4 * y ^ 2 / (1 + y ^ 2) := by rw [hX, hY]; field_simp; ring
    rw [e, le_div_iff₀ hd]
    norm_num at *
    linarith
  rw [abs_le] at h4 h5
  norm_num at h0 h4 h5 h6 ⊢
  exact ⟨by linarith, by linarith, by linarith⟩

/-- the square of a rounded number -/
theorem square_near {x y : ℝ} (hx : |x| ≤ 2 ^ 15) (h : |y - x| ≤ |x| / 2 ^ 53 + 1 / 2 ^ 200) :
    |y ^ 2 - x ^ 2| ≤ x ^ 2 / 2 ^ 50 + 1 / 2 ^ 180 := by
  rw [← sq_abs x]
  have e1 : y ^ 2 - |x| ^ 2 = (y - x) * ((y - x) + 2 * x) := by rw [sq_abs]; ring
  rw [e1, abs_mul]
  have e2 : |(y - x) + 2 * x| ≤ |y - x| + 2 * |x| := by
    refine (abs_add_le _ _).trans ?_
    rw [abs_mul, abs_of_pos (a := (2 : ℝ)) (by norm_num)]
  have h0 := abs_nonneg x
  have h1 := abs_nonneg (y - x)
  have e3 : |y - x| * |(y - x) + 2 * x| ≤ |y - x| * (|y - x| + 2 * |x|) := mul_le_mul_of_nonneg_left e2 h1
  generalize |y - x| * |(y - x) + 2 * x| = L at *
  generalize |x| = X at *
  generalize |y - x| = δ at *
  have e4 : δ * (δ + 2 * X) ≤ (X / 2 ^ 53 + 1 / 2 ^ 200) * ((X / 2 ^ 53 + 1 / 2 ^ 200) + 2 * X) :=
    mul_le_mul h (by linarith) (by positivity) (by positivity)
  refine e3.trans (e4.trans ?_)
  norm_num at *
  nlinarith

/-- The number `p + i q` scaled with `φ` is `x + i y` after rounding. -/
theorem scaled_near {p q φ x y : ℝ} (hφ : 1 / 512 ≤ φ) (hφ' : φ ≤ 512) (hlo : 1 / 2 ^ 20 ≤ p ^ 2 + q ^ 2)
    (hhi : p ^ 2 + q ^ 2 ≤ 2 ^ 10) (hx : |x - p * φ| ≤ |p * φ| / 2 ^ 53 + 1 / 2 ^ 200)
    (hy : |y - q * φ| ≤ |q * φ| / 2 ^ 53 + 1 / 2 ^ 200) :
    (φ / 2 ^ 10) ^ 2 * (99 / 100) ≤ x ^ 2 + y ^ 2 ∧ x ^ 2 + y ^ 2 ≤ (33 * φ) ^ 2 := by
  have hφ0 : 0 < φ := by linarith
  have hb : ∀ t : ℝ, t ^ 2 ≤ 2 ^ 10 → |t * φ| ≤ 2 ^ 15 := by
    intro t ht
    have : |t| ≤ 32 := by
      rw [← abs_of_pos (a := (32 : ℝ)) (by norm_num), ← sq_le_sq]; norm_num at *; exact ht
    rw [abs_mul, abs_of_pos hφ0]
    norm_num
    nlinarith
  have h1 := square_near (hb p (by nlinarith [sq_nonneg q])) hx
  have h2 := square_near (hb q (by nlinarith [sq_nonneg p])) hy
  rw [abs_le] at h1 h2
  have e1 : (p * φ) ^ 2 + (q * φ) ^ 2 = (p ^ 2 + q ^ 2) * φ ^ 2 := by ring
  have hs : 1 / 2 ^ 18 ≤ φ ^ 2 := by
    have := pow_le_pow_left₀ (by norm_num) hφ 2
    norm_num at *
    linarith
  have e2 : 1 / 2 ^ 20 * φ ^ 2 ≤ (p ^ 2 + q ^ 2) * φ ^ 2 := mul_le_mul_of_nonneg_right hlo (sq_nonneg _)
  have e3 : (p ^ 2 + q ^ 2) * φ ^ 2 ≤ 2 ^ 10 * φ ^ 2 := mul_le_mul_of_nonneg_right hhi (sq_nonneg _)
  rw [← e1] at e2 e3
  rw [div_pow, mul_pow]
  generalize φ ^ 2 = Φ at *
  generalize (p * φ) ^ 2 = P at *
  generalize (q * φ) ^ 2 = Q at *
  norm_num at *
  exact ⟨by linarith, by linarith⟩

/-! ## Prototypes -/

variable {R : Type} [FArith R] {u η Ω : ℝ} {r : Rounds R u η Ω}

/-- One of a pair of poles of a prototype. -/
structure Spec.Rounds.APole (r : Rounds R u η Ω) (p : Cx R) : Prop where
  fin : r.CFin p
  left : r.val p.re ≤ -(1 / 2 ^ 14)
  lo : 1 / 2 ^ 20 ≤ r.val p.re ^ 2 + r.val p.im ^ 2
  hi : r.val p.re ^ 2 + r.val p.im ^ 2 ≤ 2 ^ 10

/-- The single pole of a prototype of odd order. -/
structure Spec.Rounds.AReal (r : Rounds R u η Ω) (p : Cx R) : Prop where
  fin : r.CFin p
  real : r.val p.im = 0
  left : r.val p.re ≤ -(1 / 2 ^ 20)
  hi : -32 ≤ r.val p.re

/-- A zero of a prototype. -/
def Spec.Rounds.AZero (r : Rounds R u η Ω) (z : Cx R) : Prop :=
  z = Cx.infinity ∨ r.CFin z ∧ r.val z.re = 0 ∧ 99 / 100 ≤ |r.val z.im| ∧ |r.val z.im| ≤ 32

section ops
variable (hl : r.Library)
include hl

theorem feq_zero : feq (0 : R) 0 = true := (hl.feq _ _ r.zero.1 r.zero.1).2 rfl

theorem not_nan_of_fin {c : Cx R} (h : r.CFin c) : c.isNan = false := by
  simp [Cx.isNan, hl.not_nan _ h.1, hl.not_nan _ h.2]

theorem infinity_not_nan : (Cx.infinity : Cx R).isNan = false := by
  have h1 : FArith.isNan (inf : R) = false := by simp [FArith.isNan, hl.inf_eq]
  simp [Cx.isNan, Cx.infinity, Cx.ofR, h1, hl.not_nan _ r.zero.1]

theorem ceq_infinity : ceq (Cx.infinity : Cx R) Cx.infinity = true := by
  simp [ceq, Cx.infinity, Cx.ofR, hl.inf_eq, feq_zero hl]

theorem ceq_infinity_fin {c : Cx R} (h : r.CFin c) : ceq c Cx.infinity = false := by
  simp [ceq, Cx.infinity, Cx.ofR, hl.inf_ne _ h.1]

theorem AZero.not_nan {z : Cx R} (h : r.AZero z) : z.isNan = false := by
  rcases h with rfl | h
  · exact infinity_not_nan hl
  · exact not_nan_of_fin hl h.1

theorem mulR_raw {c : Cx R} {f : R} (hc : r.CFin c) (hf : r.In f (1 / 512) 512) (hre : |r.val c.re| ≤ 32)
    (him : |r.val c.im| ≤ 32) : r.CFin (mulR c f) ∧
      |r.val (mulR c f).re - r.val c.re * r.val f| ≤ |r.val c.re * r.val f| / 2 ^ 53 + 1 / 2 ^ 200 ∧
      |r.val (mulR c f).im - r.val c.im * r.val f| ≤ |r.val c.im * r.val f| / 2 ^ 53 + 1 / 2 ^ 200 := by
  have hb : ∀ t : ℝ, |t| ≤ 32 → |t * r.val f| ≤ 2 ^ 200 := by
    intro t ht
    rw [abs_mul, abs_of_nonneg (a := r.val f) (by linarith [hf.2.1])]
    have := mul_le_mul ht hf.2.2 (by linarith [hf.2.1]) (by norm_num)
    norm_num at *
    linarith
  obtain ⟨h1, h2⟩ := raw_mul hl.toAccurate hc.1 hf.1 le_rfl (hb _ hre)
  obtain ⟨h3, h4⟩ := raw_mul hl.toAccurate hc.2 hf.1 le_rfl (hb _ him)
  exact ⟨⟨h1, h3⟩, h2, h4⟩

/-- Both transforms of finite roots: `s = 1` for the low pass, `s = -1` for the high pass. -/
theorem transform_near {c : Cx R} {f : R} (hf : r.In f (1 / 512) 512) (hc : r.CFin c) (hre : |r.val c.re| ≤ 32)
    (him : |r.val c.im| ≤ 32) (hleft : r.val (mulR c f).re ≤ 0) {tr : R → Cx R → Cx R} {s : ℝ}
    (hs : tr = lpTransform ∧ s = 1 ∨ tr = hpTransform ∧ s = -1) :
    r.CFin (tr f c) ∧
      |s * r.val (tr f c).re - (1 - (r.val (mulR c f).re ^ 2 + r.val (mulR c f).im ^ 2)) /
        (1 - 2 * r.val (mulR c f).re + (r.val (mulR c f).re ^ 2 + r.val (mulR c f).im ^ 2))| ≤ 1 / 2 ^ 43 ∧
      |s * r.val (tr f c).im - 2 * r.val (mulR c f).im /
        (1 - 2 * r.val (mulR c f).re + (r.val (mulR c f).re ^ 2 + r.val (mulR c f).im ^ 2))| ≤ 1 / 2 ^ 43 ∧
      (r.val c.im = 0 → r.val (tr f c).im = 0) := by
  obtain ⟨hm, hm1, hm2⟩ := mulR_raw hl hc hf hre him
  have hφ : |r.val f| ≤ 512 := abs_le.2 ⟨by linarith [hf.2.1], hf.2.2⟩
  have hb : ∀ t : ℝ, |t| ≤ 32 → |t * r.val f| ≤ 2 ^ 14 := by
    intro t ht
    rw [abs_mul]
    have := mul_le_mul ht hφ (abs_nonneg _) (by norm_num)
    norm_num at *
    linarith
  have hn : ‖r.cval (mulR c f)‖ ≤ 2 ^ 100 := by
    refine (Complex.norm_le_abs_re_add_abs_im _).trans ?_
    rw [cval_re, cval_im]
    have k : ∀ {y t : ℝ}, |t * r.val f| ≤ 2 ^ 14 → |y - t * r.val f| ≤ |t * r.val f| / 2 ^ 53 + 1 / 2 ^ 200 →
        |y| ≤ 2 ^ 20 := by
      intro y t h1 h2
      have : |y| ≤ |y - t * r.val f| + |t * r.val f| := by
        calc |y| = |(y - t * r.val f) + t * r.val f| := by ring_nf
          _ ≤ _ := abs_add_le _ _
      norm_num at *
      linarith
    have h1 := k (hb _ hre) hm1
    have h2 := k (hb _ him) hm2
    norm_num at *
    linarith
  have him0 : r.val c.im = 0 → r.val (mulR c f).im = 0 := fun h => hl.mul_zero _ _ hc.2 hf.1 (.inl h)
  have hadd : r.CFin (addR (mulR c f) 1) := by
    have h1 := In.one hl.toAccurate (r := r)
    refine ⟨(raw_add hl.toAccurate hm.1 h1.1 (M := 2 ^ 101) ?_ (by norm_num)).1, hm.2⟩
    have h2 := abs_le.1 ((Complex.abs_re_le_norm _).trans hn)
    rw [cval_re] at h2
    have h3 := h1.2
    rw [abs_le]
    norm_num at *
    exact ⟨by linarith, by linarith⟩
  obtain ⟨hX, hY⟩ := mobius_parts (w := r.cval (mulR c f)) hleft
  rw [cval_re, cval_im] at hX hY
  rw [← hX, ← hY]
  rcases hs with ⟨rfl, rfl⟩ | ⟨rfl, rfl⟩
  · have e : lpTransform f c = bilinear (mulR c f) := by
      rw [lpTransform, ceq_infinity_fin hl hc]; simp
    rw [e]
    obtain ⟨h1, h2⟩ := bilinear_near hl hm hleft hn
    refine ⟨h1, ?_, ?_, fun h => ?_⟩
    · rw [one_mul]; exact (Complex.abs_re_le_norm _).trans h2
    · rw [one_mul]; exact (Complex.abs_im_le_norm _).trans h2
    · exact mobius_real hl hm hleft hn hadd (him0 h) (him0 h)
  · have e : hpTransform f c = cdiv (cneg (addR (mulR c f) 1)) (rsub 1 (mulR c f)) := by
      rw [hpTransform, ceq_infinity_fin hl hc]; simp
    rw [e]
    obtain ⟨h1, h2⟩ := neg_bilinear_near hl hm hleft hn
    refine ⟨h1, ?_, ?_, fun h => ?_⟩
    · refine le_trans ?_ ((Complex.abs_re_le_norm _).trans h2)
      rw [Complex.sub_re, Complex.neg_re, cval_re, ← abs_neg]
      exact le_of_eq (congrArg _ (by ring))
    · refine le_trans ?_ ((Complex.abs_im_le_norm _).trans h2)
      rw [Complex.sub_im, Complex.neg_im, cval_im, ← abs_neg]
      exact le_of_eq (congrArg _ (by ring))
    · refine mobius_real hl hm hleft hn ⟨(hl.neg _ hadd.1).1, (hl.neg _ hadd.2).1⟩ (him0 h) ?_
      show r.val (-(mulR c f).im) = 0
      rw [(hl.neg _ hm.2).2, him0 h, neg_zero]

theorem APole.image {p : Cx R} {f : R} (hf : r.In f (1 / 512) 512) (h : r.APole p) {tr : R → Cx R → Cx R} {s : ℝ}
    (hs : tr = lpTransform ∧ s = 1 ∨ tr = hpTransform ∧ s = -1) : r.PoleIn (tr f p) := by
  have hb : ∀ {a b : ℝ}, a ^ 2 + b ^ 2 ≤ 2 ^ 10 → |a| ≤ 32 := by
    intro a b hab
    rw [← abs_of_pos (a := (32 : ℝ)) (by norm_num), ← sq_le_sq]
    nlinarith [sq_nonneg b]
  have hre := hb h.hi
  have him := hb (a := r.val p.im) (b := r.val p.re) (by linarith [h.hi])
  obtain ⟨hm, hm1, hm2⟩ := mulR_raw hl h.fin hf hre him
  obtain ⟨h1, h2⟩ := scaled_near hf.2.1 hf.2.2 h.lo h.hi hm1 hm2
  have hx : r.val (mulR p f).re ≤ -(r.val f / 2 ^ 14 * (999 / 1000)) := by
    have h3 : r.val p.re * r.val f ≤ -(1 / 2 ^ 14) * r.val f := mul_le_mul_of_nonneg_right h.left (by linarith [hf.2.1])
    have h4 := hf.2.1
    rw [abs_of_nonpos (a := r.val p.re * r.val f) (by norm_num at *; linarith), abs_le] at hm1
    norm_num at *
    linarith
  have hx0 : r.val (mulR p f).re ≤ 0 := by
    have h4 := hf.2.1
    norm_num at *
    linarith
  obtain ⟨g1, g2, g3, -⟩ := transform_near hl hf h.fin hre him hx0 hs
  obtain ⟨k1, k2, k3⟩ := disc_near hf.2.1 hf.2.2 hx h1 h2 rfl rfl g2 g3
  rcases hs with ⟨-, rfl⟩ | ⟨-, rfl⟩
  · simp only [one_mul] at k1 k2 k3
    exact ⟨g1, k1, k2, k3⟩
  · refine ⟨g1, ?_, ?_, ?_⟩
    · refine k1.trans_eq (by ring)
    · refine k3.trans_eq (by ring)
    · refine k2.trans_eq (by ring)

theorem AReal.image {p : Cx R} {f : R} (hf : r.In f (1 / 512) 512) (h : r.AReal p) {tr : R → Cx R → Cx R} {s : ℝ}
    (hs : tr = lpTransform ∧ s = 1 ∨ tr = hpTransform ∧ s = -1) : r.RealPole (tr f p) := by
  have hleft := h.left
  have hre : |r.val p.re| ≤ 32 := abs_le.2 ⟨h.hi, by norm_num at *; linarith⟩
  have him : |r.val p.im| ≤ 32 := by rw [h.real]; norm_num
  obtain ⟨hm, hm1, hm2⟩ := mulR_raw hl h.fin hf hre him
  have him0 : r.val (mulR p f).im = 0 := hl.mul_zero _ _ h.fin.2 hf.1 (.inl h.real)
  have h3 : r.val p.re * r.val f ≤ -(1 / 2 ^ 20) * r.val f := mul_le_mul_of_nonneg_right h.left (by linarith [hf.2.1])
  have h3' : -32 * r.val f ≤ r.val p.re * r.val f := mul_le_mul_of_nonneg_right h.hi (by linarith [hf.2.1])
  have h4 := hf.2.1
  rw [abs_of_nonpos (a := r.val p.re * r.val f) (by norm_num at *; linarith), abs_le] at hm1
  have hx : r.val (mulR p f).re ≤ -(r.val f / 2 ^ 20 * (999 / 1000)) := by
    norm_num at *
    linarith
  have hx' : -(33 * r.val f) ≤ r.val (mulR p f).re := by
    norm_num at *
    linarith
  have hx0 : r.val (mulR p f).re ≤ 0 := by
    norm_num at *
    linarith
  obtain ⟨g1, g2, -, g4⟩ := transform_near hl hf h.fin hre him hx0 hs
  rw [him0] at g2
  obtain ⟨k1, k2⟩ := real_near hf.2.1 hf.2.2 hx hx' (by ring) g2
  rcases hs with ⟨-, rfl⟩ | ⟨-, rfl⟩
  · simp only [one_mul] at k1 k2
    exact ⟨g1, g4 h.real, k1, k2⟩
  · exact ⟨g1, g4 h.real, k2.trans_eq (by ring), k1.trans_eq (by ring)⟩

/-- what infinity is mapped to -/
theorem infinity_image {f : R} {tr : R → Cx R → Cx R} {s : ℝ}
    (hs : tr = lpTransform ∧ s = 1 ∨ tr = hpTransform ∧ s = -1) :
    r.CFin (tr f Cx.infinity) ∧ r.val (tr f Cx.infinity).re = -s ∧ r.val (tr f Cx.infinity).im = 0 := by
  have h1 := In.one hl.toAccurate (r := r)
  have hv1 : r.val (1 : R) = 1 := le_antisymm h1.2.2 h1.2.1
  rcases hs with ⟨rfl, rfl⟩ | ⟨rfl, rfl⟩
  · have e : lpTransform f (Cx.infinity : Cx R) = ofR (-1) := by rw [lpTransform, ceq_infinity hl]; simp
    rw [e]
    obtain ⟨h2, h3⟩ := hl.neg _ h1.1
    exact ⟨⟨h2, r.zero.1⟩, by show r.val (-1 : R) = -1; rw [h3, hv1], r.zero.2⟩
  · have e : hpTransform f (Cx.infinity : Cx R) = ofR 1 := by rw [hpTransform, ceq_infinity hl]; simp
    rw [e]
    exact ⟨⟨h1.1, r.zero.1⟩, by show r.val (1 : R) = - -1; rw [hv1]; norm_num, r.zero.2⟩

theorem AZero.image {z : Cx R} {f : R} (hf : r.In f (1 / 512) 512) (h : r.AZero z) {tr : R → Cx R → Cx R} {s : ℝ}
    (hs : tr = lpTransform ∧ s = 1 ∨ tr = hpTransform ∧ s = -1) : r.ZeroIn s (tr f z) := by
  have hs2 : s ^ 2 = 1 := by rcases hs with ⟨-, rfl⟩ | ⟨-, rfl⟩ <;> norm_num
  rcases h with rfl | ⟨hc, hre, hlo, hhi⟩
  · obtain ⟨h1, h2, h3⟩ := infinity_image hl (f := f) hs
    refine ⟨h1, ?_, ?_, ?_⟩ <;> rw [h2, h3] <;> norm_num <;> nlinarith
  · have hre32 : |r.val z.re| ≤ 32 := by rw [hre]; norm_num
    obtain ⟨hm, hm1, hm2⟩ := mulR_raw hl hc hf hre32 hhi
    have hre0 : r.val (mulR z f).re = 0 := hl.mul_zero _ _ hc.1 hf.1 (.inl hre)
    obtain ⟨g1, g2, g3, -⟩ := transform_near hl hf hc hre32 hhi hre0.le hs
    rw [hre0] at g2 g3
    have hy : r.val f * (98 / 100) ≤ |r.val (mulR z f).im| := by
      have h4 := hf.2.1
      have h5 : r.val f * (99 / 100) ≤ |r.val z.im * r.val f| := by
        rw [abs_mul, abs_of_nonneg (a := r.val f) (by linarith), mul_comm (r.val f)]
        exact mul_le_mul_of_nonneg_right hlo (by linarith)
      have h6 : |r.val z.im * r.val f| ≤ |r.val (mulR z f).im| + |r.val (mulR z f).im - r.val z.im * r.val f| := by
        calc |r.val z.im * r.val f| = |r.val (mulR z f).im - (r.val (mulR z f).im - r.val z.im * r.val f)| := by ring_nf
          _ ≤ _ := abs_sub _ _
      norm_num at *
      linarith
    obtain ⟨k1, k2, k3⟩ := zero_near hf.2.1 hy (by ring) (by ring) g2 g3
    rcases hs with ⟨-, rfl⟩ | ⟨-, rfl⟩
    · simp only [one_mul] at k1 k2 k3
      exact ⟨g1, k1, k2, k3.trans_eq (by ring)⟩
    · exact ⟨g1, k1.trans_eq (by ring), (le_of_eq (by ring)).trans k2, k3.trans_eq (by ring)⟩

theorem infinity_realZero {f : R} {tr : R → Cx R → Cx R} {s : ℝ}
    (hs : tr = lpTransform ∧ s = 1 ∨ tr = hpTransform ∧ s = -1) : r.RealZero s (tr f Cx.infinity) := by
  have hs2 : s ^ 2 = 1 := by rcases hs with ⟨-, rfl⟩ | ⟨-, rfl⟩ <;> norm_num
  obtain ⟨h1, h2, h3⟩ := infinity_image hl (f := f) hs
  refine ⟨h1, h3, ?_, ?_⟩ <;> rw [h2]
  · rw [← abs_of_pos (a := (2 : ℝ)) (by norm_num), ← sq_le_sq]; nlinarith
  · norm_num; nlinarith

/-! ## Layouts -/

/-- An analog prototype. -/
abbrev Layout.Analog (r : Rounds R u η Ω) (m L : ℕ) (l : Layout R) : Prop :=
  l.Holds (fun _ p z => r.APole p ∧ r.AZero z) (fun p z => r.AReal p ∧ z = Cx.infinity)
    (fun w g => (r.Fin w ∧ r.val w = 0) ∧ r.In g (-2) 2) m L

theorem moves {f : R} (hf : r.In f (1 / 512) 512) {tr : R → Cx R → Cx R} {s : ℝ}
    (hs : tr = lpTransform ∧ s = 1 ∨ tr = hpTransform ∧ s = -1) :
    Moves (tr f) (fun _ p z => r.APole p ∧ r.AZero z) (fun p z => r.AReal p ∧ z = Cx.infinity)
      (fun _ p z => r.PoleIn p ∧ r.ZeroIn s z) (fun p z => r.RealPole p ∧ r.RealZero s z) := by
  refine ⟨fun _ p z h => ?_, fun p z h => ?_⟩
  · have h1 := APole.image hl hf h.1 hs
    have h2 := AZero.image hl hf h.2 hs
    exact ⟨not_nan_of_fin hl h1.fin, not_nan_of_fin hl h2.fin, h1, h2⟩
  · have h1 := AReal.image hl hf h.1 hs
    have h2 := infinity_realZero hl (f := f) hs
    rw [h.2]
    refine ⟨not_nan_of_fin hl h1.fin, not_nan_of_fin hl h2.fin, ?_, ?_, h1, h2⟩
    · rw [hl.feq _ _ h1.fin.2 r.zero.1, h1.real]; exact r.zero.2.symm
    · rw [hl.feq _ _ h2.fin.2 r.zero.1, h2.real]; exact r.zero.2.symm

/-! ## The transforms -/

/-- Frequencies of the pole filters. -/
abbrev Spec.Rounds.Freq (r : Rounds R u η Ω) (fc : R) : Prop := r.In fc (1 / 2 ^ 10) (1 / 2 - 1 / 2 ^ 10)

theorem checkFreq_rounds {σ : Type} {fc : R} (h : r.Freq fc) (s : σ) : checkFreq fc s = (.ok (), s) := by
  have h1 : flt fc 0.5 = true := by
    rw [hl.flt _ _ h.1 hl.half.1, hl.half.2]
    have := h.2.2
    norm_num at *
    linarith
  have h2 : flt fc 0 = false := by
    rw [Bool.eq_false_iff, Ne, hl.flt _ _ h.1 r.zero.1, r.zero.2]
    have := h.2.1
    norm_num at *
    linarith
  simp [checkFreq, bind_def, h1, h2]

/-- `tan (pi * fc)` -/
theorem tan_near {fc : R} (h : r.Freq fc) : r.In (tan (pi * fc)) (1 / 400) 400 := by
  obtain ⟨p1, p2⟩ := hl.pi
  obtain ⟨h0, h1, h2⟩ := h
  have p3 := Real.pi_gt_d2
  have p4 := Real.pi_lt_d2
  rw [abs_le] at p2
  have hp : |r.val (pi : R)| ≤ 4 := by rw [abs_le]; norm_num at *; exact ⟨by linarith, by linarith⟩
  have hf : |r.val fc| ≤ 1 / 2 := by rw [abs_le]; norm_num at *; exact ⟨by linarith, by linarith⟩
  have hM : |r.val (pi : R) * r.val fc| ≤ 2 := by
    rw [abs_mul]
    have := mul_le_mul hp hf (abs_nonneg _) (by norm_num)
    linarith
  obtain ⟨m1, m2⟩ := raw_mul hl.toAccurate p1 h0 hM (by norm_num)
  generalize hx : (pi * fc : R) = x at *
  rw [abs_le] at m2
  have f0 : 0 ≤ r.val fc := by norm_num at h1; linarith
  have e1 : |r.val (pi : R) * r.val fc - Real.pi * r.val fc| ≤ 1 / 2 ^ 45 := by
    rw [← sub_mul, abs_mul]
    have := mul_le_mul (abs_le.2 p2) hf (abs_nonneg _) (by positivity)
    norm_num at *
    linarith
  rw [abs_le] at e1
  have k1 : Real.pi * (1 / 2 ^ 10) ≤ Real.pi * r.val fc := mul_le_mul_of_nonneg_left h1 (by linarith)
  have k2 : Real.pi * r.val fc ≤ Real.pi * (1 / 2 - 1 / 2 ^ 10) := mul_le_mul_of_nonneg_left h2 (by linarith)
  have lo : 3 / 1024 ≤ r.val x := by norm_num at *; linarith
  have hi : 3 / 1024 ≤ Real.pi / 2 - r.val x := by norm_num at *; linarith
  have t1 : r.val x ≤ Real.tan (r.val x) := Real.le_tan (by linarith) (by linarith)
  have t2 : Real.tan (r.val x) ≤ 1024 / 3 := by
    have : Real.pi / 2 - r.val x ≤ Real.tan (Real.pi / 2 - r.val x) := Real.le_tan (by linarith) (by linarith)
    rw [Real.tan_pi_div_two_sub] at this
    have t0 : 0 < Real.tan (r.val x) := by linarith
    have h3 : 3 / 1024 ≤ (Real.tan (r.val x))⁻¹ := hi.trans this
    rw [← inv_inv (Real.tan (r.val x)), show (1024 / 3 : ℝ) = (3 / 1024)⁻¹ by norm_num]
    exact inv_anti₀ (by norm_num) h3
  have t3 : Real.tan (r.val x) ≤ 2 ^ 400 := t2.trans (by
    calc (1024 / 3 : ℝ) ≤ 2 ^ 10 := by norm_num
      _ ≤ _ := pow_le_pow_right₀ (by norm_num) (by norm_num))
  obtain ⟨g1, g2⟩ := hl.tan x m1 (by linarith) (by linarith) t3
  have g3 := hl.toAccurate.η_le
  rw [abs_le] at g2
  generalize (2 : ℝ) ^ 400 = huge at *
  refine ⟨g1, ?_, ?_⟩ <;> norm_num at * <;> linarith

theorem inv_tan_near {fc : R} (h : r.Freq fc) : r.In (1 / tan (pi * fc)) (1 / 512) 512 :=
  In.div hl.toAccurate 400 (In.one hl.toAccurate) (tan_near hl h) (by norm_num) (by norm_num) (by norm_num)
    (by norm_num) (by norm_num) (by norm_num) (by norm_num)

theorem pi_in : r.In (pi : R) 3 4 := by
  have p2 := abs_le.1 hl.pi.2
  have p3 := Real.pi_gt_d2
  have p4 := Real.pi_lt_d2
  refine ⟨hl.pi.1, ?_, ?_⟩ <;> norm_num at * <;> linarith

theorem two_pi_in : r.In (2 * pi : R) 5 9 :=
  In.mul hl.toAccurate 8 (In.two hl.toAccurate) (pi_in hl) (by norm_num) (by norm_num) (by norm_num) (by norm_num)
    (by norm_num) (by norm_num)

variable {m L L' : ℕ} {a : Layout R}

theorem lowPass_digital {fc : R} (hf : r.Freq fc) (ha : a.Analog r m L) (hL : (m + 1) / 2 ≤ L') :
    Done (fun l => l.pairs.length = L') (lowPassTransform fc a) (Layout.Digital r 1 m L') := by
  unfold lowPassTransform
  refine Trip.bind (Q := fun _ l => l.pairs.length = L') (Done.of_run fun s hs => ⟨s, checkFreq_rounds hl hf s, hs⟩)
    fun _ => ?_
  refine Trip.bind (Q := fun _ => Layout.Holds (fun _ p z => r.PoleIn p ∧ r.ZeroIn 1 z)
    (fun p z => r.RealPole p ∧ r.RealZero 1 z) (fun _ _ => True) 0 L')
    (Done.of_run fun s hs => holds_reset.run ⟨hs, trivial⟩) fun _ => ?_
  refine Trip.bind (holds_mapLayout (feq_zero hl) (moves hl (In.mono (tan_near hl hf) (by norm_num) (by norm_num))
    (.inl ⟨rfl, rfl⟩)) ha hL) fun _ => holds_setNormal ?_
  obtain ⟨⟨h1, h2⟩, h3⟩ := ha.norm
  have h4 := (two_pi_in hl).1
  have h5 : r.val (2 * pi : R) ≠ 0 := by have := (two_pi_in hl).2.1; intro h; rw [h] at this; norm_num at this
  refine ⟨⟨(raw_div hl.toAccurate h1 h4 h5 (M := 1) ?_ (by norm_num)).1, .inl ⟨rfl, hl.zero_div _ _ h1 h4 h5 h2⟩⟩, h3⟩
  rw [h2, _root_.zero_div, abs_zero]; norm_num

theorem highPass_digital {fc : R} (hf : r.Freq fc) (ha : a.Analog r m L) (hL : (m + 1) / 2 ≤ L') :
    Done (fun l => l.pairs.length = L') (highPassTransform fc a) (Layout.Digital r (-1) m L') := by
  unfold highPassTransform
  refine Trip.bind (Q := fun _ l => l.pairs.length = L') (Done.of_run fun s hs => ⟨s, checkFreq_rounds hl hf s, hs⟩)
    fun _ => ?_
  refine Trip.bind (Q := fun _ => Layout.Holds (fun _ p z => r.PoleIn p ∧ r.ZeroIn (-1) z)
    (fun p z => r.RealPole p ∧ r.RealZero (-1) z) (fun _ _ => True) 0 L')
    (Done.of_run fun s hs => holds_reset.run ⟨hs, trivial⟩) fun _ => ?_
  refine Trip.bind (holds_mapLayout (feq_zero hl) (moves hl (inv_tan_near hl hf)
    (.inr ⟨rfl, rfl⟩)) ha hL) fun _ => holds_setNormal ?_
  obtain ⟨⟨h1, h2⟩, h3⟩ := ha.norm
  have h4 := (two_pi_in hl).1
  have h5 : r.val (2 * pi : R) ≠ 0 := by have := (two_pi_in hl).2.1; intro h; rw [h] at this; norm_num at this
  have hp := In.abs (pi_in hl) (B := 4) (by norm_num) (by norm_num)
  have e := hl.sub_zero _ _ hl.pi.1 h1 h2
  obtain ⟨h6, -⟩ := raw_sub hl.toAccurate hl.pi.1 h1 (M := 4) (by rw [h2, _root_.sub_zero]; exact hp) (by norm_num)
  refine ⟨⟨(raw_div hl.toAccurate h6 h4 h5 (M := 1) ?_ (by norm_num)).1, .inr ⟨rfl, hl.half_turn _ h6 e⟩⟩, h3⟩
  have h7 := two_pi_in hl
  rw [e, abs_div, abs_of_pos (a := r.val (2 * pi : R)) (by linarith [h7.2.1]), div_le_one (by linarith [h7.2.1])]
  linarith [h7.2.1]

end ops

end Iir
