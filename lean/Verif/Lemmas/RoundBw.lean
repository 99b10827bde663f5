import Verif.Lemmas.RoundProto
import Verif.Spec.Transfer

/-! # Digital Butterworth poles: distance from the ideal ones -/

namespace Iir
open FArith Cx Exec Spec Proto

/-! ## How far images move -/

theorem sq_le_norm_one_sub {w : ℂ} (h : w.re ≤ 0) : 1 + ‖w‖ ^ 2 ≤ ‖1 - w‖ ^ 2 := by
  rw [← Complex.normSq_eq_norm_sq, ← Complex.normSq_eq_norm_sq, Complex.normSq_apply, Complex.normSq_apply]
  simp only [Complex.sub_re, Complex.one_re, Complex.sub_im, Complex.one_im]
  nlinarith

theorem mobius_move {w w' : ℂ} (h : w.re ≤ 0) (h' : w'.re ≤ 0) {e : ℝ} (he : 0 ≤ e)
    (hd : ‖w' - w‖ ^ 2 ≤ e ^ 2 * ((1 + ‖w‖ ^ 2) * (1 + ‖w'‖ ^ 2))) :
    ‖(1 + w') / (1 - w') - (1 + w) / (1 - w)‖ ≤ 2 * e := by
  have n1 : (1 : ℂ) - w ≠ 0 := by
    have := one_le_norm_one_sub h
    intro h0; rw [h0, norm_zero] at this; norm_num at this
  have n2 : (1 : ℂ) - w' ≠ 0 := by
    have := one_le_norm_one_sub h'
    intro h0; rw [h0, norm_zero] at this; norm_num at this
  have e1 : (1 + w') / (1 - w') - (1 + w) / (1 - w) = 2 * (w' - w) / ((1 - w) * (1 - w')) := by
    field_simp; ring
  have p1 := sq_le_norm_one_sub h
  have p2 := sq_le_norm_one_sub h'
  have hpos : 0 < ‖(1 - w) * (1 - w')‖ := norm_pos_iff.2 (mul_ne_zero n1 n2)
  rw [e1, norm_div, norm_mul, div_le_iff₀ hpos, Complex.norm_ofNat, mul_assoc]
  refine mul_le_mul_of_nonneg_left ?_ (by norm_num)
  refine abs_le_of_sq_le_sq' (b := e * ‖(1 - w) * (1 - w')‖) ?_ (by positivity) |>.2
  refine hd.trans ?_
  rw [mul_pow, norm_mul, mul_pow]
  exact mul_le_mul_of_nonneg_left (mul_le_mul p1 p2 (by positivity) (by positivity)) (by positivity)

theorem mobius_rel {w w' : ℂ} (h : w.re ≤ 0) (h' : w'.re ≤ 0) {ρ : ℝ} (he : 0 ≤ ρ) (hd : ‖w' - w‖ ≤ ρ * ‖w‖) :
    ‖(1 + w') / (1 - w') - (1 + w) / (1 - w)‖ ≤ 2 * ρ := by
  refine mobius_move h h' he ((pow_le_pow_left₀ (norm_nonneg _) hd 2).trans ?_)
  rw [mul_pow]
  refine mul_le_mul_of_nonneg_left ?_ (by positivity)
  nlinarith [sq_nonneg ‖w‖, sq_nonneg ‖w'‖, mul_nonneg (sq_nonneg ‖w‖) (sq_nonneg ‖w'‖)]

/-- A pole that is scaled with different positive factors. -/
theorem mobius_scale {P : ℂ} (h : P.re ≤ 0) (h1 : ‖P‖ = 1) {φ φ' : ℝ} (hφ : 0 ≤ φ) (hφ' : 0 ≤ φ') {e : ℝ} (he : 0 ≤ e)
    (hd : (φ' - φ) ^ 2 ≤ e ^ 2 * ((1 + φ ^ 2) * (1 + φ' ^ 2))) :
    ‖(1 + φ' * P) / (1 - φ' * P) - (1 + φ * P) / (1 - φ * P)‖ ≤ 2 * e := by
  have n : ∀ t : ℝ, ‖(t : ℂ) * P‖ ^ 2 = t ^ 2 := fun t => by rw [norm_mul, h1, mul_one, Complex.norm_real, Real.norm_eq_abs, sq_abs]
  have re : ∀ t : ℝ, 0 ≤ t → ((t : ℂ) * P).re ≤ 0 := fun t ht => by
    rw [Complex.re_ofReal_mul]; exact mul_nonpos_of_nonneg_of_nonpos ht h
  refine mobius_move (re _ hφ) (re _ hφ') he ?_
  rw [← sub_mul, ← Complex.ofReal_sub, n, n, n]
  exact hd

theorem tan_move {x y : ℝ} (hx : Real.cos x ≠ 0) (hy : Real.cos y ≠ 0) :
    (Real.tan y - Real.tan x) ^ 2 ≤ |y - x| ^ 2 * ((1 + Real.tan x ^ 2) * (1 + Real.tan y ^ 2)) := by
  have e : Real.tan y - Real.tan x = Real.sin (y - x) / (Real.cos x * Real.cos y) := by
    rw [Real.tan_eq_sin_div_cos, Real.tan_eq_sin_div_cos, Real.sin_sub]; field_simp
  have e1 : ∀ {t : ℝ}, Real.cos t ≠ 0 → 1 + Real.tan t ^ 2 = (Real.cos t ^ 2)⁻¹ := by
    intro t ht
    rw [Real.tan_eq_sin_div_cos, div_pow]; field_simp
    rw [Real.cos_sq_add_sin_sq]
  rw [e, e1 hx, e1 hy, div_pow, div_eq_mul_inv, mul_pow, mul_inv]
  refine mul_le_mul_of_nonneg_right ?_ (by positivity)
  rw [← sq_abs (Real.sin _)]
  exact pow_le_pow_left₀ (abs_nonneg _) Real.abs_sin_le_abs 2

theorem cot_move {x y : ℝ} (hx : Real.sin x ≠ 0) (hy : Real.sin y ≠ 0) :
    (1 / Real.tan y - 1 / Real.tan x) ^ 2 ≤ |y - x| ^ 2 * ((1 + (1 / Real.tan x) ^ 2) * (1 + (1 / Real.tan y) ^ 2)) := by
  have e : 1 / Real.tan y - 1 / Real.tan x = Real.sin (x - y) / (Real.sin x * Real.sin y) := by
    rw [Real.tan_eq_sin_div_cos, Real.tan_eq_sin_div_cos, Real.sin_sub]; field_simp
  have e1 : ∀ {t : ℝ}, Real.sin t ≠ 0 → 1 + (1 / Real.tan t) ^ 2 = (Real.sin t ^ 2)⁻¹ := by
    intro t ht
    rw [Real.tan_eq_sin_div_cos, one_div_div, div_pow]; field_simp
    rw [add_comm, Real.cos_sq_add_sin_sq]
  rw [e, e1 hx, e1 hy, div_pow, div_eq_mul_inv, mul_pow, mul_inv]
  refine mul_le_mul_of_nonneg_right ?_ (by positivity)
  rw [← sq_abs (Real.sin _), abs_sub_comm]
  exact pow_le_pow_left₀ (abs_nonneg _) Real.abs_sin_le_abs 2

/-! ## Ideal poles -/

theorem bwPole_norm (o k : ℕ) : ‖bwPole o k‖ = 1 := by
  have : bwPole o k = Complex.exp ((Real.pi * (2 * k + 1 + o) / (2 * o) : ℝ) * Complex.I) := by
    unfold bwPole; congr 1; push_cast; ring
  rw [this, Complex.norm_exp_ofReal_mul_I]

/-- where pole `k` is -/
theorem bwPole_exp {o : ℕ} (ho : 1 ≤ o) (k : ℕ) :
    bwPole o k = Complex.exp ((Real.pi / 2 + (2 * k + 1) * Real.pi / (2 * o) : ℝ) * Complex.I) := by
  have : (o : ℂ) ≠ 0 := by exact_mod_cast (by omega : o ≠ 0)
  unfold bwPole; congr 1; push_cast; field_simp; ring

theorem bwPole_left {o k : ℕ} (hk : k < o) : (bwPole o k).re = -Real.sin ((2 * k + 1) * Real.pi / (2 * o)) ∧
    1 / (o : ℝ) ≤ Real.sin ((2 * k + 1) * Real.pi / (2 * o)) := by
  have ho : 1 ≤ o := by omega
  have ho' : (0 : ℝ) < o := by exact_mod_cast ho
  constructor
  · rw [bwPole_exp ho, Complex.exp_ofReal_mul_I_re, add_comm, Real.cos_add_pi_div_two]
  · have := cos_angle (n := o) (j := 2 * k + 1 - o) ho (by rcases abs_cases (2 * (k : ℤ) + 1 - o) with ⟨h, -⟩ | ⟨h, -⟩ <;> omega)
    refine this.trans (le_of_eq ?_)
    rw [← Real.cos_sub_pi_div_two]
    congr 1
    push_cast
    field_simp

/-- The pole on the real axis. -/
theorem bwPole_mid {o : ℕ} (h : o % 2 = 1) : bwPole o (o / 2) = -1 := by
  have ho : (o : ℂ) ≠ 0 := by exact_mod_cast (by omega : o ≠ 0)
  have h2 : ((o / 2 : ℕ) : ℂ) * 2 + 1 = o := by exact_mod_cast (by omega : o / 2 * 2 + 1 = o)
  unfold bwPole
  rw [show (2 : ℂ) * ((o / 2 : ℕ) : ℂ) + 1 + o = 2 * o by rw [mul_comm 2 ((o / 2 : ℕ) : ℂ), h2]; ring]
  rw [mul_div_assoc, div_self (by simpa using ho), mul_one, mul_comm, Complex.exp_pi_mul_I]

theorem mobius_norm_sq {w : ℂ} (h : w.re ≤ 0) : 1 - ‖(1 + w) / (1 - w)‖ ^ 2 = -4 * w.re / ‖1 - w‖ ^ 2 := by
  have n1 : ‖1 - w‖ ≠ 0 := by
    have := one_le_norm_one_sub h
    intro h0; rw [h0] at this; norm_num at this
  rw [norm_div, div_pow, eq_div_iff (by positivity), sub_mul, div_mul_cancel₀ _ (by positivity)]
  rw [← Complex.normSq_eq_norm_sq, ← Complex.normSq_eq_norm_sq, Complex.normSq_apply, Complex.normSq_apply]
  simp only [Complex.sub_re, Complex.one_re, Complex.sub_im, Complex.one_im, Complex.add_re, Complex.add_im]
  ring

/-- Margin of the ideal poles. -/
theorem mobius_margin {w : ℂ} {φ : ℝ} (hw : ‖w‖ = φ) (hφ : 1 / 512 ≤ φ) (hφ' : φ ≤ 512) (hre : w.re ≤ -(φ / 16)) :
    ‖(1 + w) / (1 - w)‖ ≤ 1 - 1 / 2 ^ 13 := by
  have hφ0 : 0 < φ := by linarith
  have hre0 : w.re ≤ 0 := by linarith
  have e := mobius_norm_sq hre0
  have n1 : ‖1 - w‖ ≤ 1 + φ := by rw [← hw]; exact (norm_sub_le _ _).trans_eq (by rw [norm_one])
  have n0 : 1 ≤ ‖1 - w‖ := one_le_norm_one_sub hre0
  have h1 : φ / 4 / (1 + φ) ^ 2 ≤ -4 * w.re / ‖1 - w‖ ^ 2 :=
    div_le_div₀ (by linarith) (by linarith) (by positivity) (pow_le_pow_left₀ (by positivity) n1 2)
  have h2 : 1 / 2 ^ 12 ≤ φ / 4 / (1 + φ) ^ 2 := by
    rw [div_div, div_le_div_iff₀ (by positivity) (by positivity)]
    nlinarith
  have h3 : ‖(1 + w) / (1 - w)‖ ^ 2 ≤ (1 - 1 / 2 ^ 13) ^ 2 := by
    norm_num at *
    linarith
  exact abs_le_of_sq_le_sq' h3 (by norm_num) |>.2

/-! ## Computed poles -/

variable {R : Type} [FArith R] {u η Ω : ℝ} {r : Rounds R u η Ω}

section ops
variable (hl : r.Library)
include hl

/-- `j * pi / n2` -/
theorem angle_sharp {n : ℕ} (hn : 1 ≤ n) (h16 : n ≤ 16) {j : ℤ} (h0 : 0 ≤ j) (hj : j ≤ n) :
    r.Fin (ofI j * pi / ofI (2 * (n : ℤ)) : R) ∧
      |r.val (ofI j * pi / ofI (2 * (n : ℤ)) : R) - j * Real.pi / (2 * n)| ≤ 1 / 2 ^ 45 := by
  obtain ⟨j1, j2⟩ := ofI_val hl (i := j) (by rw [abs_of_nonneg h0]; omega)
  obtain ⟨n1, n2⟩ := ofI_val hl (i := 2 * (n : ℤ)) (by rw [abs_of_nonneg (by omega)]; omega)
  obtain ⟨p1, p2⟩ := hl.pi
  have hj0 : (0 : ℝ) ≤ j := by exact_mod_cast h0
  have hjn : (j : ℝ) ≤ n := by exact_mod_cast hj
  have hjr : |(j : ℝ)| ≤ n := by rw [abs_of_nonneg hj0]; exact hjn
  have hn1 : (1 : ℝ) ≤ n := by exact_mod_cast hn
  have hn16 : (n : ℝ) ≤ 16 := by exact_mod_cast h16
  have hp := In.abs (pi_in hl) (B := 4) (by norm_num) (by norm_num)
  have hM : |r.val (ofI j : R) * r.val (pi : R)| ≤ n * 4 := by
    rw [j2, abs_mul]
    exact mul_le_mul hjr hp (abs_nonneg _) (by linarith)
  obtain ⟨m1, m2⟩ := raw_mul hl.toAccurate j1 p1 hM (by norm_num; linarith)
  rw [j2] at m2
  have e1 : |(j : ℝ) * r.val (pi : R) - j * Real.pi| ≤ n * (1 / 2 ^ 45) := by
    rw [← mul_sub, abs_mul]
    exact mul_le_mul hjr p2 (abs_nonneg _) (by linarith)
  have e2 : |r.val (ofI j * pi : R) - j * Real.pi| ≤ n * (1.1 / 2 ^ 45) := by
    have := abs_sub_le (r.val (ofI j * pi : R)) (j * r.val (pi : R)) (j * Real.pi)
    norm_num at this m2 e1 ⊢
    linarith
  have ev : r.val (ofI (2 * (n : ℤ)) : R) = 2 * n := by rw [n2]; push_cast; ring
  have e3 : |r.val (ofI j * pi : R) / (2 * n) - j * Real.pi / (2 * n)| ≤ 0.55 / 2 ^ 45 := by
    rw [← sub_div, abs_div, abs_of_pos (a := 2 * (n : ℝ)) (by linarith), div_le_iff₀ (by linarith)]
    norm_num at e2 ⊢
    linarith
  have hM2 : |r.val (ofI j * pi : R) / r.val (ofI (2 * (n : ℤ)) : R)| ≤ 4 := by
    rw [ev, abs_div, abs_of_pos (a := 2 * (n : ℝ)) (by linarith), div_le_iff₀ (by linarith)]
    have h1 : |r.val (ofI j * pi : R)| ≤ |r.val (ofI j * pi : R) - j * r.val (pi : R)| + |(j : ℝ) * r.val (pi : R)| := by
      calc |r.val (ofI j * pi : R)| = |(r.val (ofI j * pi : R) - j * r.val (pi : R)) + (j : ℝ) * r.val (pi : R)| := by ring_nf
        _ ≤ _ := abs_add_le _ _
    rw [j2] at hM
    norm_num at m2
    linarith
  obtain ⟨d1, d2⟩ := raw_div hl.toAccurate m1 n1 (by rw [ev]; linarith) hM2 (by norm_num)
  refine ⟨d1, ?_⟩
  rw [ev] at d2
  have := abs_sub_le (r.val (ofI j * pi / ofI (2 * (n : ℤ)) : R)) (r.val (ofI j * pi : R) / (2 * n)) (j * Real.pi / (2 * n))
  norm_num at *
  linarith

omit [FArith R] hl in
theorem exp_move (s t : ℝ) : ‖Complex.exp (s * Complex.I) - Complex.exp (t * Complex.I)‖ ≤ |s - t| := by
  have h := exp_near_one (t := s - t)
  have e : Complex.exp (s * Complex.I) - Complex.exp (t * Complex.I) =
      Complex.exp (t * Complex.I) * (Complex.exp ((s - t : ℝ) * Complex.I) - 1) := by
    rw [mul_sub, ← Complex.exp_add, mul_one]; congr 2; push_cast; ring
  rw [e, norm_mul, Complex.norm_exp_ofReal_mul_I, one_mul]
  exact h

/-- The computed poles of the prototype. -/
theorem butterworth_pole_near {n i : ℕ} (hn : 1 ≤ n) (h16 : n ≤ 16) (hi : i < n / 2) :
    ∃ c, polarC (1 : R) (pi2 + ofI (2 * (i : ℤ) + 1) * pi / ofI (2 * (n : ℤ))) = .ok c ∧ r.APole c ∧
      ‖r.cval c - bwPole n i‖ ≤ 1 / 2 ^ 43 := by
  obtain ⟨c, hc, hA⟩ := butterworth_pole hl hn h16 hi
  refine ⟨c, hc, hA, ?_⟩
  obtain ⟨a1, a2⟩ := angle_sharp hl hn h16 (j := 2 * (i : ℤ) + 1) (by omega) (by omega)
  obtain ⟨q1, q2⟩ := hl.pi2
  rw [bwPole_exp hn]
  push_cast at a2
  set A : R := ofI (2 * (i : ℤ) + 1) * pi / ofI (2 * (n : ℤ)) with hA
  set α : ℝ := (2 * (i : ℝ) + 1) * Real.pi / (2 * n) with hα
  have hn0 : (0 : ℝ) < n := by exact_mod_cast hn
  have hpi := Real.pi_lt_d2
  have hpi' := Real.pi_gt_d2
  have α0 : 0 ≤ α := by rw [hα]; positivity
  have α1 : α ≤ Real.pi / 2 := by
    have : (2 * (i : ℝ) + 1) ≤ n := by
      have : 2 * i + 1 ≤ n := by omega
      exact_mod_cast this
    rw [hα, div_le_div_iff₀ (by positivity) (by norm_num)]
    nlinarith
  have hM : |r.val (pi2 : R) + r.val A| ≤ 4 := by
    rw [abs_le] at a2 q2 ⊢
    norm_num at *
    exact ⟨by linarith, by linarith⟩
  obtain ⟨t1, t2⟩ := raw_add hl.toAccurate q1 a1 hM (by norm_num)
  set t : R := pi2 + A with ht
  have hone := In.one hl.toAccurate (r := r)
  have hv1 : r.val (1 : R) = 1 := le_antisymm hone.2.2 hone.2.1
  obtain ⟨z, e, hz, hn'⟩ := hl.polar 1 t hone.1 t1 (by rw [hv1]; norm_num) (by rw [hv1]; exact one_le_pow₀ (by norm_num))
  obtain rfl : z = c := by unfold polarC at hc; rw [e] at hc; simpa using hc
  rw [hv1, Complex.ofReal_one, one_mul] at hn'
  have hη := hl.η_le
  have et : |r.val t - (Real.pi / 2 + α)| ≤ 2.1 / 2 ^ 45 := by
    rw [abs_le] at a2 q2 t2 ⊢
    norm_num at *
    exact ⟨by linarith, by linarith⟩
  have em := (exp_move (r.val t) (Real.pi / 2 + α)).trans et
  have := norm_sub_le_norm_sub_add_norm_sub (r.cval z) (Complex.exp (r.val t * Complex.I))
    (Complex.exp ((Real.pi / 2 + α : ℝ) * Complex.I))
  norm_num at *
  linarith

/-- Where a pole of the prototype is mapped to. -/
theorem pole_image_near {c : Cx R} {f : R} (hf : r.In f (1 / 512) 512) (hc : r.CFin c) (hre : r.val c.re ≤ -(1 / 2 ^ 14)) {P : ℂ}
    (hP : P.re ≤ 0) (hP1 : ‖P‖ = 1) (hcP : ‖r.cval c - P‖ ≤ 1 / 2 ^ 43) {φ φ1 : ℝ} (h0 : 0 ≤ φ) (h1 : 0 ≤ φ1)
    (hφ1 : |r.val f - φ1| ≤ φ1 / 2 ^ 43) (hφ : (φ1 - φ) ^ 2 ≤ (1 / 2 ^ 45) ^ 2 * ((1 + φ ^ 2) * (1 + φ1 ^ 2)))
    {tr : R → Cx R → Cx R} {s : ℝ} (hs : tr = lpTransform ∧ s = 1 ∨ tr = hpTransform ∧ s = -1) :
    ‖s * r.cval (tr f c) - (1 + φ * P) / (1 - φ * P)‖ ≤ 1 / 2 ^ 40 := by
  have hcn : ‖r.cval c‖ ≤ 2 := by
    have := norm_le_norm_add_norm_sub' (r.cval c) P
    rw [hP1] at this
    norm_num at *
    linarith
  have c1 : |r.val c.re| ≤ 2 := (Complex.abs_re_le_norm (r.cval c)).trans hcn
  have c2 : |r.val c.im| ≤ 2 := (Complex.abs_im_le_norm (r.cval c)).trans hcn
  have c1' : |r.val c.re| ≤ 32 := by linarith
  have c2' : |r.val c.im| ≤ 32 := by linarith
  obtain ⟨m1, m2, m3⟩ := mulR_raw hl hc hf c1' c2'
  have hf0 : 0 < r.val f := by have := hf.2.1; linarith
  have hfle := hf.2.2
  have hflo := hf.2.1
  have hprod : r.val c.re * r.val f ≤ -(1 / 2 ^ 24) := by
    norm_num at hre hflo ⊢
    nlinarith
  have hW : r.val (mulR c f).re ≤ 0 := by
    rw [abs_of_nonpos (a := r.val c.re * r.val f) (by norm_num at hprod; linarith), abs_le] at m2
    norm_num at m2 hprod
    linarith
  obtain ⟨-, t1, t2, -⟩ := transform_near hl hf hc c1' c2' hW hs
  obtain ⟨hX, hY⟩ := mobius_parts (w := r.cval (mulR c f)) hW
  rw [cval_re, cval_im] at hX hY
  rw [← hX] at t1
  rw [← hY] at t2
  set W := r.cval (mulR c f)
  have e1 : ‖s * r.cval (tr f c) - (1 + W) / (1 - W)‖ ≤ 2 / 2 ^ 43 := by
    refine (Complex.norm_le_abs_re_add_abs_im _).trans ?_
    rw [Complex.sub_re, Complex.sub_im, Complex.re_ofReal_mul, Complex.im_ofReal_mul, cval_re, cval_im]
    exact (add_le_add t1 t2).trans (by norm_num)
  have hfP : ‖(r.val f : ℂ) * P‖ = r.val f := by
    rw [norm_mul, hP1, mul_one, Complex.norm_real, Real.norm_eq_abs, abs_of_pos hf0]
  have hfre : ((r.val f : ℂ) * P).re ≤ 0 := by
    rw [Complex.re_ofReal_mul]; exact mul_nonpos_of_nonneg_of_nonpos hf0.le hP
  have d1 : ‖W - r.val f * r.cval c‖ ≤ r.val f / 2 ^ 50 := by
    refine (Complex.norm_le_abs_re_add_abs_im _).trans ?_
    rw [Complex.sub_re, Complex.sub_im, Complex.re_ofReal_mul, Complex.im_ofReal_mul, cval_re, cval_im, cval_re, cval_im,
      mul_comm (r.val f), mul_comm (r.val f)]
    have k1 : |r.val c.re * r.val f| ≤ 2 * r.val f := by
      rw [abs_mul, abs_of_pos hf0]; exact mul_le_mul_of_nonneg_right c1 hf0.le
    have k2 : |r.val c.im * r.val f| ≤ 2 * r.val f := by
      rw [abs_mul, abs_of_pos hf0]; exact mul_le_mul_of_nonneg_right c2 hf0.le
    generalize |r.val c.re * r.val f| = A at *
    generalize |r.val c.im * r.val f| = B at *
    norm_num at m2 m3 hflo ⊢
    linarith
  have d2 : ‖(r.val f : ℂ) * r.cval c - r.val f * P‖ ≤ r.val f / 2 ^ 43 := by
    rw [← mul_sub, norm_mul, Complex.norm_real, Real.norm_eq_abs, abs_of_pos hf0, div_eq_mul_one_div]
    exact mul_le_mul_of_nonneg_left hcP hf0.le
  have d3 : ‖W - r.val f * P‖ ≤ 1.01 / 2 ^ 43 * ‖(r.val f : ℂ) * P‖ := by
    refine (norm_sub_le_norm_sub_add_norm_sub _ _ _).trans ((add_le_add d1 d2).trans ?_)
    rw [hfP]
    norm_num
    linarith
  have e2 := mobius_rel hfre hW (by norm_num) d3
  have d4 : ‖(r.val f : ℂ) * P - φ1 * P‖ ≤ 1 / 2 ^ 43 * ‖(φ1 : ℂ) * P‖ := by
    rw [← sub_mul, norm_mul, norm_mul, hP1, mul_one, mul_one, ← Complex.ofReal_sub, Complex.norm_real, Complex.norm_real,
      Real.norm_eq_abs, Real.norm_eq_abs, abs_of_nonneg h1]
    exact hφ1.trans_eq (by ring)
  have e3 := mobius_rel (by rw [Complex.re_ofReal_mul]; exact mul_nonpos_of_nonneg_of_nonpos h1 hP) hfre (by norm_num) d4
  have e4 := mobius_scale hP hP1 h0 h1 (by norm_num) hφ
  have f1 := norm_sub_le_norm_sub_add_norm_sub (s * r.cval (tr f c)) ((1 + W) / (1 - W)) ((1 + φ * P) / (1 - φ * P))
  have f2 := norm_sub_le_norm_sub_add_norm_sub ((1 + W) / (1 - W)) ((1 + r.val f * P) / (1 - r.val f * P))
    ((1 + φ * P) / (1 - φ * P))
  have f3 := norm_sub_le_norm_sub_add_norm_sub ((1 + r.val f * P) / (1 - r.val f * P)) ((1 + φ1 * P) / (1 - φ1 * P))
    ((1 + φ * P) / (1 - φ * P))
  norm_num at e1 e2 e3 e4 ⊢
  linarith

/-! ## Frequencies -/

/-- `pi * fc` -/
theorem angle_freq {fc : R} (h : r.Freq fc) {fc0 : ℝ} (h0 : |r.val fc - fc0| ≤ 1 / 2 ^ 50) :
    r.Fin (pi * fc : R) ∧ 3 / 1024 ≤ r.val (pi * fc : R) ∧ 3 / 1024 ≤ Real.pi / 2 - r.val (pi * fc : R) ∧
      |r.val (pi * fc : R) - Real.pi * fc0| ≤ 1 / 2 ^ 45 := by
  obtain ⟨p1, p2⟩ := hl.pi
  obtain ⟨hf0, h1, h2⟩ := h
  have p3 := Real.pi_gt_d2
  have p4 := Real.pi_lt_d2
  have hf : |r.val fc| ≤ 1 / 2 := by rw [abs_le]; norm_num at *; exact ⟨by linarith, by linarith⟩
  have hp := In.abs (pi_in hl) (B := 4) (by norm_num) (by norm_num)
  have hM : |r.val (pi : R) * r.val fc| ≤ 2 := by
    rw [abs_mul]
    have := mul_le_mul hp hf (abs_nonneg _) (by norm_num)
    linarith
  obtain ⟨m1, m2⟩ := raw_mul hl.toAccurate p1 hf0 hM (by norm_num)
  have e1 : |r.val (pi : R) * r.val fc - Real.pi * r.val fc| ≤ 1 / 2 ^ 46 := by
    rw [← sub_mul, abs_mul]
    have := mul_le_mul p2 hf (abs_nonneg _) (by positivity)
    norm_num at *
    linarith
  have e2 : |Real.pi * r.val fc - Real.pi * fc0| ≤ 4 / 2 ^ 50 := by
    rw [← mul_sub, abs_mul, abs_of_pos Real.pi_pos]
    have := mul_le_mul p4.le h0 (abs_nonneg _) (by norm_num)
    norm_num at *
    linarith
  have k1 : Real.pi * (1 / 2 ^ 10) ≤ Real.pi * r.val fc := mul_le_mul_of_nonneg_left h1 (by linarith)
  have k2 : Real.pi * r.val fc ≤ Real.pi * (1 / 2 - 1 / 2 ^ 10) := mul_le_mul_of_nonneg_left h2 (by linarith)
  have f1 := abs_sub_le (r.val (pi * fc : R)) (r.val (pi : R) * r.val fc) (Real.pi * fc0)
  have f2 := abs_sub_le (r.val (pi : R) * r.val fc) (Real.pi * r.val fc) (Real.pi * fc0)
  refine ⟨m1, ?_, ?_, ?_⟩
  · rw [abs_le] at m2 e1; norm_num at m2 e1 k1; linarith
  · rw [abs_le] at m2 e1; norm_num at m2 e1 k2; linarith
  · norm_num at m2 e1 e2 ⊢; linarith

/-- The factor by which the poles are scaled, as computed (`f`), of the computed angle (`φ1`) and ideal (`φ`). -/
structure Warp (r : Rounds R u η Ω) (f : R) (φ : ℝ) : Prop where
  inn : r.In f (1 / 512) 512
  lo : 1 / 512 ≤ φ
  hi : φ ≤ 512
  near : ∃ φ1, 0 ≤ φ1 ∧ |r.val f - φ1| ≤ φ1 / 2 ^ 43 ∧
    (φ1 - φ) ^ 2 ≤ (1 / 2 ^ 45) ^ 2 * ((1 + φ ^ 2) * (1 + φ1 ^ 2))

omit [FArith R] hl in
theorem tan_bounds {x : ℝ} (h1 : 1 / 400 ≤ x) (h2 : 1 / 400 ≤ Real.pi / 2 - x) :
    1 / 400 ≤ Real.tan x ∧ Real.tan x ≤ 400 ∧ Real.cos x ≠ 0 ∧ Real.sin x ≠ 0 := by
  have p := Real.pi_pos
  have t1 : x ≤ Real.tan x := Real.le_tan (by linarith) (by linarith)
  have t2 := Real.le_tan (x := Real.pi / 2 - x) (by linarith) (by linarith)
  rw [Real.tan_pi_div_two_sub] at t2
  have t0 : 0 < Real.tan x := by linarith
  refine ⟨by linarith, ?_, ?_, ?_⟩
  · have h3 := h2.trans t2
    rw [← inv_inv (Real.tan x), show (400 : ℝ) = (1 / 400)⁻¹ by norm_num]
    exact inv_anti₀ (by norm_num) h3
  · exact (Real.cos_pos_of_mem_Ioo ⟨by linarith, by linarith⟩).ne'
  · exact (Real.sin_pos_of_pos_of_lt_pi (by linarith) (by linarith)).ne'

theorem warp_facts {fc : R} (h : r.Freq fc) {fc0 : ℝ} (h0 : |r.val fc - fc0| ≤ 1 / 2 ^ 50) :
    ∃ x1 : ℝ, |x1 - Real.pi * fc0| ≤ 1 / 2 ^ 45 ∧ (1 / 400 ≤ x1 ∧ 1 / 400 ≤ Real.pi / 2 - x1) ∧
      (1 / 400 ≤ Real.pi * fc0 ∧ 1 / 400 ≤ Real.pi / 2 - Real.pi * fc0) ∧
      |r.val (tan (pi * fc) : R) - Real.tan x1| ≤ Real.tan x1 / 2 ^ 44 := by
  obtain ⟨a1, a2, a3, a4⟩ := angle_freq hl h h0
  have b1 : 1 / 400 ≤ r.val (pi * fc : R) := by linarith
  have b2 : 1 / 400 ≤ Real.pi / 2 - r.val (pi * fc : R) := by linarith
  have t := tan_bounds b1 b2
  have p := Real.pi_pos
  have a5 := abs_le.1 a4
  refine ⟨r.val (pi * fc : R), a4, ⟨b1, b2⟩, ⟨?_, ?_⟩, ?_⟩
  · norm_num at a5 ⊢; linarith
  · norm_num at a5 ⊢; linarith
  · obtain ⟨g1, g2⟩ := hl.tan _ a1 (by linarith) (by linarith) (t.2.1.trans (by
      calc (400 : ℝ) ≤ 2 ^ 9 := by norm_num
        _ ≤ _ := pow_le_pow_right₀ (by norm_num) (by norm_num)))
    have := tiny_le hl (n := 100) (by norm_num)
    have := r.η_nonneg
    have t1 := t.1
    norm_num at *
    linarith

theorem warp_low {fc : R} (h : r.Freq fc) {fc0 : ℝ} (h0 : |r.val fc - fc0| ≤ 1 / 2 ^ 50) :
    Warp r (tan (pi * fc)) (Real.tan (Real.pi * fc0)) := by
  obtain ⟨x1, e1, ⟨l1, l2⟩, ⟨m1, m2⟩, e2⟩ := warp_facts hl h h0
  obtain ⟨t1, t2, t3, -⟩ := tan_bounds l1 l2
  obtain ⟨s1, s2, s3, -⟩ := tan_bounds m1 m2
  refine ⟨In.mono (tan_near hl h) (by norm_num) (by norm_num), by linarith, by linarith, Real.tan x1, by linarith, ?_, ?_⟩
  · norm_num at *; linarith
  · refine (tan_move s3 t3).trans ?_
    exact mul_le_mul_of_nonneg_right (pow_le_pow_left₀ (abs_nonneg _) e1 2) (by positivity)

theorem warp_high {fc : R} (h : r.Freq fc) {fc0 : ℝ} (h0 : |r.val fc - fc0| ≤ 1 / 2 ^ 50) :
    Warp r (1 / tan (pi * fc)) (1 / Real.tan (Real.pi * fc0)) := by
  obtain ⟨x1, e1, ⟨l1, l2⟩, ⟨m1, m2⟩, e2⟩ := warp_facts hl h h0
  obtain ⟨t1, t2, -, t3⟩ := tan_bounds l1 l2
  obtain ⟨s1, s2, -, s3⟩ := tan_bounds m1 m2
  have inv : ∀ {t : ℝ}, 1 / 400 ≤ t → t ≤ 400 → 1 / 512 ≤ 1 / t ∧ 1 / t ≤ 512 := by
    intro t a b
    rw [div_le_div_iff₀ (by norm_num) (by linarith), div_le_iff₀ (by linarith)]
    constructor <;> linarith
  refine ⟨inv_tan_near hl h, (inv s1 s2).1, (inv s1 s2).2, 1 / Real.tan x1, by linarith [(inv t1 t2).1], ?_, ?_⟩
  · have hone := In.one hl.toAccurate (r := r)
    have hv1 : r.val (1 : R) = 1 := le_antisymm hone.2.2 hone.2.1
    have ht := tan_near hl h
    have ht0 : 0 < r.val (tan (pi * fc) : R) := by linarith [ht.2.1]
    generalize (tan (pi * fc) : R) = T at *
    generalize Real.tan x1 = t at *
    have hq : |r.val (1 : R) / r.val T| ≤ 1 / r.val T := by rw [hv1, abs_of_pos (by positivity)]
    have hq1 : 1 / r.val T ≤ 2 ^ 200 := by
      rw [div_le_iff₀ ht0]
      have := ht.2.1
      norm_num at *
      linarith
    obtain ⟨d1, d2⟩ := raw_div hl.toAccurate hone.1 ht.1 ht0.ne' hq hq1
    rw [hv1] at d2
    have t0 : 0 < t := by linarith
    have k1 : |1 / r.val T - 1 / t| ≤ 1.01 / 2 ^ 44 * (1 / t) := by
      rw [div_sub_div _ _ ht0.ne' t0.ne', abs_div, abs_of_pos (a := r.val T * t) (by positivity), div_le_iff₀ (by positivity),
        one_mul, mul_one, abs_sub_comm]
      have : 1.01 / 2 ^ 44 * (1 / t) * (r.val T * t) = 1.01 / 2 ^ 44 * r.val T := by field_simp
      rw [this]
      rw [abs_le] at e2 ⊢
      norm_num at e2 ⊢
      constructor <;> linarith
    have k2 : 1 / r.val T ≤ 2 * (1 / t) := by
      rw [abs_le] at k1
      have : 0 < 1 / t := by positivity
      norm_num at *
      linarith
    have k3 := (inv t1 t2).1
    have := abs_sub_le (r.val (1 / T)) (1 / r.val T) (1 / t)
    generalize 1 / r.val T = A at *
    generalize 1 / t = B at *
    norm_num at *
    linarith
  · refine (cot_move s3 t3).trans ?_
    exact mul_le_mul_of_nonneg_right (pow_le_pow_left₀ (abs_nonneg _) e1 2) (by positivity)

end ops

end Iir
