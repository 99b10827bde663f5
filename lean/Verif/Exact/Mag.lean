import Verif.Exact.After
import Verif.Exact.Cheb

/-! # The five prototypes: `IsProto` and their magnitude on the imaginary axis -/

set_option linter.unusedSectionVars false

namespace Iir
open FArith Cx Exec Spec XR Finset Polynomial.Chebyshev

noncomputable section

variable {n o : ℕ}

theorem chebT_neg_sq (n : ℕ) (x : ℝ) : chebT n (-x) ^ 2 = chebT n x ^ 2 := by
  rw [chebT, T_eval_neg, mul_pow]
  rcases Int.even_or_odd n with h | h
  · simp [Int.negOnePow_even _ h]
  · simp [Int.negOnePow_odd _ h]

theorem chebT_zero_sq (n : ℕ) : chebT n 0 ^ 2 = if n % 2 = 1 then 0 else 1 := by
  split_ifs with h
  · rw [chebT, T_eval_zero_of_odd (R := ℝ) (n := n) (by rw [Int.odd_coe_nat, Nat.odd_iff]; exact h)]; norm_num
  · rw [chebT, T_eval_zero_of_even (R := ℝ) (n := n) (by rw [Int.even_coe_nat, Nat.even_iff]; omega)]
    rcases Int.even_or_odd ((n : ℤ) / 2) with h | h
    · simp [Int.negOnePow_even _ h]
    · simp [Int.negOnePow_odd _ h]

theorem Analog.mag_eq (A : Analog) (x y : ℝ) : A.mag x y =
    (∏ k ∈ range A.n, Complex.normSq (form (A.zero k) (Complex.I * x) y)) /
      ∏ k ∈ range A.n, Complex.normSq (Complex.I * x - A.pole k * y) := by
  simp only [Analog.mag, Analog.Z, Analog.P, map_prod, form]

theorem normSq_I_mul (z : ℂ) : Complex.normSq (Complex.I * z) = Complex.normSq z := by
  rw [map_mul, Complex.normSq_I, one_mul]

theorem normSq_conj_form (x : ℝ) (p y : ℂ) (hy : starRingEnd ℂ y = y) :
    Complex.normSq (Complex.I * x - starRingEnd ℂ p * y) = Complex.normSq (Complex.I * x + p * y) := by
  rw [← Complex.normSq_conj, ← Complex.normSq_neg]
  congr 1
  simp [hy]; ring

/-! ## Butterworth -/

theorem bwPole_eq (n k : ℕ) : (butterworth n).pole k = Complex.I * Complex.exp (angle n k * Complex.I) := by
  simp only [butterworth]
  push_cast
  rw [add_mul, Complex.exp_add, Complex.exp_pi_div_two_mul_I]

theorem butterworth_mag (hn : 0 < n) (x y : ℝ) :
    (butterworth n).mag x y = y ^ (2 * n) / (x ^ (2 * n) + y ^ (2 * n)) := by
  rw [Analog.mag_eq]
  congr 1
  · simp only [butterworth, form, Complex.normSq_ofReal, prod_const, card_range]
    rw [pow_mul, sq]
  · rw [← prod_circle hn]
    refine prod_congr rfl fun k _ => ?_
    rw [bwPole_eq, ← normSq_I_mul (x - _)]
    congr 1; ring

theorem bw_shelf_prod (hn : 0 < n) (x r : ℝ) :
    ∏ k ∈ range n, Complex.normSq (Complex.I * x - starRingEnd ℂ ((butterworth n).pole k) * r) =
      x ^ (2 * n) + r ^ (2 * n) := by
  rw [← (even_two_mul n).neg_pow r, ← prod_circle hn]
  refine prod_congr rfl fun k _ => ?_
  rw [normSq_conj_form _ _ _ (Complex.conj_ofReal _), bwPole_eq, ← normSq_I_mul (x - _)]
  congr 1; push_cast; ring

theorem butterworthShelf_mag (hn : 0 < n) (G x y : ℝ) : (butterworthShelf n G).mag x y =
    (x ^ (2 * n) + (G * y) ^ (2 * n)) / (x ^ (2 * n) + (1 / G * y) ^ (2 * n)) := by
  rw [Analog.mag_eq, ← bw_shelf_prod hn, ← bw_shelf_prod hn]
  congr 1
  · refine prod_congr rfl fun k _ => ?_
    simp only [butterworthShelf, form]; congr 1; push_cast; ring
  · refine prod_congr rfl fun k _ => ?_
    simp only [butterworthShelf]; congr 1; push_cast; ring

theorem bwPole_re_neg {k : ℕ} (hk : k < n) : ((butterworth n).pole k).re < 0 := by
  have := sin_angle_pos hk
  simp only [butterworth, Complex.exp_ofReal_mul_I_re]
  rw [add_comm, Real.cos_add_pi_div_two]; linarith

theorem butterworth_left (n : ℕ) : (butterworth n).Left where
  pole k hk := bwPole_re_neg hk
  zero k _ z hz := by simp [butterworth] at hz

theorem butterworthShelf_left (n : ℕ) {G : ℝ} (hG : 0 < G) : (butterworthShelf n G).Left where
  pole k hk := by
    have := bwPole_re_neg (n := n) hk
    simp only [butterworthShelf, Complex.re_mul_ofReal, Complex.conj_re]
    exact mul_neg_of_neg_of_pos this (by positivity)
  zero k hk z hz := by
    have := bwPole_re_neg (n := n) hk
    simp only [butterworthShelf, Option.some.injEq] at hz
    rw [← hz, Complex.re_mul_ofReal, Complex.conj_re]
    exact (mul_neg_of_neg_of_pos this hG).le

/-! ## Chebyshev -/

theorem cheb_prod (hn : 0 < n) (u : ℝ) {y : ℝ} (hy : y ≠ 0) (x : ℝ) :
    2 ^ (2 * n - 2) * ∏ k ∈ range n, Complex.normSq (Complex.I * x - chebPole n u k * y) =
      y ^ (2 * n) * (chebT n (x / y) ^ 2 + Real.sinh (n * u) ^ 2) := by
  rw [chebT, ← prod_ellipse hn, mul_left_comm]
  congr 1
  have : y ^ (2 * n) = ∏ k ∈ range n, Complex.normSq (Complex.I * y) := by
    rw [prod_const, card_range, normSq_I_mul, Complex.normSq_ofReal, pow_mul, sq]
  rw [this, ← prod_mul_distrib]
  refine prod_congr rfl fun k _ => ?_
  rw [chebPole_eq, ← map_mul]
  have hy' : (y : ℂ) ≠ 0 := by exact_mod_cast hy
  congr 1; push_cast; field_simp

theorem cheb_prod_conj (hn : 0 < n) (u : ℝ) {y : ℝ} (hy : y ≠ 0) (x : ℝ) :
    2 ^ (2 * n - 2) * ∏ k ∈ range n, Complex.normSq (Complex.I * x - starRingEnd ℂ (chebPole n u k) * y) =
      y ^ (2 * n) * (chebT n (x / y) ^ 2 + Real.sinh (n * u) ^ 2) := by
  have := cheb_prod hn u (neg_ne_zero.2 hy) x
  rw [(even_two_mul n).neg_pow, div_neg, chebT_neg_sq] at this
  rw [← this]
  congr 1
  refine prod_congr rfl fun k _ => ?_
  rw [normSq_conj_form _ _ _ (Complex.conj_ofReal _)]
  congr 1; push_cast; ring

theorem chebyshevI_mag (hn : 0 < n) (v x : ℝ) {y : ℝ} (hy : y ≠ 0) :
    (chebyshevI n v).mag x y = 2 ^ (2 * n - 2) / (chebT n (x / y) ^ 2 + Real.sinh (n * v) ^ 2) := by
  have h := cheb_prod_conj hn v hy x
  have hy2 : y ^ (2 * n) ≠ 0 := pow_ne_zero _ hy
  have h2 : (2 : ℝ) ^ (2 * n - 2) ≠ 0 := by positivity
  rw [Analog.mag_eq]
  simp only [chebyshevI, form, Complex.normSq_ofReal, prod_const, card_range]
  rw [show (y * y) ^ n = y ^ (2 * n) by rw [pow_mul, sq], ← mul_div_mul_left _ _ h2, h, mul_comm,
    mul_div_mul_left _ _ hy2]

theorem chebyshevI_mag_zero (hn : 0 < n) (v x : ℝ) : (chebyshevI n v).mag x 0 = 0 := by
  rw [Analog.mag_eq]
  simp only [chebyshevI, form, Complex.ofReal_zero, map_zero, prod_const, card_range]
  rw [zero_pow hn.ne', zero_div]

theorem chebyshevShelf_mag (hn : 0 < n) (u v x : ℝ) {y : ℝ} (hy : y ≠ 0) :
    (chebyshevShelf n u v).mag x y = (chebT n (x / y) ^ 2 + Real.sinh (n * v) ^ 2) /
      (chebT n (x / y) ^ 2 + Real.sinh (n * u) ^ 2) := by
  have hy2 : y ^ (2 * n) ≠ 0 := pow_ne_zero _ hy
  have h2 : (2 : ℝ) ^ (2 * n - 2) ≠ 0 := by positivity
  rw [Analog.mag_eq]
  simp only [chebyshevShelf, form]
  rw [← mul_div_mul_left _ _ h2, cheb_prod hn u hy, cheb_prod hn v hy, mul_div_mul_left _ _ hy2]

theorem chebyshevShelf_mag_zero (n : ℕ) (u v : ℝ) {x : ℝ} (hx : x ≠ 0) : (chebyshevShelf n u v).mag x 0 = 1 := by
  rw [Analog.mag_eq]
  simp only [chebyshevShelf, form, Complex.ofReal_zero, mul_zero, sub_zero]
  rw [div_self]
  rw [prod_const]
  apply pow_ne_zero
  rw [normSq_I_mul, Complex.normSq_ofReal]
  exact mul_ne_zero hx hx

theorem chebyshevI_left (n : ℕ) {v : ℝ} (hv : 0 < v) : (chebyshevI n v).Left where
  pole k hk := by
    simp only [chebyshevI, Complex.conj_re]
    exact chebPole_re_neg hk hv
  zero k _ z hz := by simp [chebyshevI] at hz

theorem chebyshevShelf_left (n : ℕ) {u v : ℝ} (hu : 0 < u) (hv : 0 < v) : (chebyshevShelf n u v).Left where
  pole k hk := chebPole_re_neg hk hu
  zero k hk z hz := by
    simp only [chebyshevShelf, Option.some.injEq] at hz
    rw [← hz]; exact (chebPole_re_neg hk hv).le

theorem chebyshevII_left (n : ℕ) {v : ℝ} (hv : 0 < v) : (chebyshevII n v).Left where
  pole k hk := by
    have h := chebPole_re_neg (n := n) hk hv
    simp only [chebyshevII, Complex.inv_re]
    exact div_neg_of_neg_of_pos h (Complex.normSq_pos.2 fun h0 => by rw [h0] at h; simp at h)
  zero k hk z hz := by
    simp only [chebyshevII] at hz
    split_ifs at hz
    rw [← Option.some.inj hz]; simp only [Complex.mul_re, Complex.I_re, Complex.I_im, Complex.ofReal_im]; simp

/-! ### Chebyshev II -/

theorem cos_angle_ne {k : ℕ} (hk : k < n) (h : 2 * k + 1 ≠ n) : Real.cos (angle n k) ≠ 0 := by
  rcases lt_or_ge k (n / 2) with h1 | h1
  · exact (cos_angle_pos h1).ne'
  · have h2 : n - 1 - k < n / 2 := by omega
    have := cos_angle_pos h2
    rw [angle_reflect hk, Real.cos_pi_sub] at this
    linarith

theorem cos_angle_mid {k : ℕ} (h : 2 * k + 1 = n) : Real.cos (angle n k) = 0 := by
  have : k = n / 2 := by omega
  rw [this, angle_mid (by omega), Real.cos_pi_div_two]

/-- product of the squared cosines, without the zero one -/
def cosProd (n : ℕ) : ℝ := ∏ k ∈ range n, if 2 * k + 1 = n then (1 : ℝ) else Real.cos (angle n k) ^ 2

theorem cosProd_ne (n : ℕ) : cosProd n ≠ 0 := by
  refine prod_ne_zero_iff.2 fun k hk => ?_
  split_ifs with h
  · norm_num
  · exact pow_ne_zero _ (cos_angle_ne (mem_range.1 hk) h)

theorem chebII_num (n : ℕ) (v x y : ℝ) :
    cosProd n * ∏ k ∈ range n, Complex.normSq (form ((chebyshevII n v).zero k) (Complex.I * x) y) =
      ∏ k ∈ range n, (y - Real.cos (angle n k) * x) ^ 2 := by
  rw [cosProd, ← prod_mul_distrib]
  refine prod_congr rfl fun k hk => ?_
  simp only [chebyshevII]
  split_ifs with h
  · rw [cos_angle_mid h, form, Complex.normSq_ofReal]; ring
  · have hc := cos_angle_ne (mem_range.1 hk) h
    rw [form, show Complex.I * (x : ℂ) - Complex.I * ((1 / Real.cos (angle n k) : ℝ) : ℂ) * y =
      Complex.I * ((x - 1 / Real.cos (angle n k) * y : ℝ) : ℂ) by push_cast; ring, normSq_I_mul,
      Complex.normSq_ofReal]
    field_simp; ring

theorem chebII_den (n : ℕ) {v : ℝ} (hv : 0 < v) (x y : ℝ) :
    (∏ k ∈ range n, Complex.normSq (chebPole n v k)) *
        ∏ k ∈ range n, Complex.normSq (Complex.I * x - (chebPole n v k)⁻¹ * y) =
      ∏ k ∈ range n, Complex.normSq (Complex.I * y - starRingEnd ℂ (chebPole n v k) * x) := by
  rw [← prod_mul_distrib]
  refine prod_congr rfl fun k hk => ?_
  have h := chebPole_re_neg (mem_range.1 hk) hv
  have h0 : chebPole n v k ≠ 0 := fun h0 => by rw [h0] at h; simp at h
  rw [← map_mul, normSq_conj_form _ _ _ (Complex.conj_ofReal _), ← normSq_I_mul (chebPole n v k * _)]
  rw [← Complex.normSq_neg (_ + _)]
  congr 1
  field_simp
  linear_combination (chebPole n v k * x) * Complex.I_sq

theorem chebyshevII_mag (hn : 0 < n) {v : ℝ} (hv : 0 < v) {x : ℝ} (hx : x ≠ 0) (y : ℝ) :
    (chebyshevII n v).mag x y = (chebyshevII n v).mag 0 1 *
      (chebT n (y / x) ^ 2 / (chebT n (y / x) ^ 2 + Real.sinh (n * v) ^ 2)) := by
  have hQ : (∏ k ∈ range n, Complex.normSq (chebPole n v k)) ≠ 0 := by
    refine prod_ne_zero_iff.2 fun k hk => ?_
    have h := chebPole_re_neg (mem_range.1 hk) hv
    exact (Complex.normSq_pos.2 fun h0 => by rw [h0] at h; simp at h).ne'
  have hx2 : x ^ (2 * n) ≠ 0 := pow_ne_zero _ hx
  have h2 : (2 : ℝ) ^ (2 * n - 2) ≠ 0 := by positivity
  have key : ∀ x y : ℝ, (chebyshevII n v).mag x y = (∏ k ∈ range n, Complex.normSq (chebPole n v k)) / cosProd n *
      ((∏ k ∈ range n, (y - Real.cos (angle n k) * x) ^ 2) /
        ∏ k ∈ range n, Complex.normSq (Complex.I * y - starRingEnd ℂ (chebPole n v k) * x)) := by
    intro x y
    rw [Analog.mag_eq, ← chebII_num n v x y, ← chebII_den n hv x y]
    have hC := cosProd_ne n
    change (∏ k ∈ range n, Complex.normSq (form ((chebyshevII n v).zero k) (Complex.I * x) y)) /
      (∏ k ∈ range n, Complex.normSq (Complex.I * x - (chebPole n v k)⁻¹ * y)) = _
    field_simp
  have e1 : 2 ^ (2 * n - 2) * (∏ k ∈ range n, (y - Real.cos (angle n k) * x) ^ 2) =
      x ^ (2 * n) * chebT n (y / x) ^ 2 := by
    rw [chebT, ← prod_cheb_roots hn, mul_left_comm]
    congr 1
    rw [pow_mul]
    conv_rhs => rw [← card_range n, ← prod_const, card_range, ← prod_mul_distrib]
    refine prod_congr rfl fun k _ => ?_
    field_simp
  rw [key x y, key 0 1]
  have e3 : (∏ k ∈ range n, ((1 : ℝ) - Real.cos (angle n k) * 0) ^ 2) = 1 := by simp
  have e4 : (∏ k ∈ range n, Complex.normSq (Complex.I * ((1 : ℝ) : ℂ) -
      starRingEnd ℂ (chebPole n v k) * ((0 : ℝ) : ℂ))) = 1 := by simp
  rw [e3, e4, div_one, mul_one]
  congr 1
  rw [← mul_div_mul_left _ _ h2, e1, cheb_prod_conj hn v hx, mul_div_mul_left _ _ hx2]

theorem chebyshevII_mag0_ne (n : ℕ) {v : ℝ} (hv : 0 < v) : (chebyshevII n v).mag 0 1 ≠ 0 := by
  have hQ : ∀ k ∈ range n, Complex.normSq (Complex.I * ((0 : ℝ) : ℂ) - (chebPole n v k)⁻¹ * ((1 : ℝ) : ℂ)) ≠ 0 := by
    intro k hk
    have h := chebPole_re_neg (mem_range.1 hk) hv
    have h0 : chebPole n v k ≠ 0 := fun h0 => by rw [h0] at h; simp at h
    rw [Ne, Complex.normSq_eq_zero]
    simp [h0]
  rw [Analog.mag_eq]
  refine div_ne_zero ?_ (prod_ne_zero_iff.2 hQ)
  have := chebII_num n v 0 1
  intro h
  change (∏ k ∈ range n, Complex.normSq (form ((chebyshevII n v).zero k) (Complex.I * ((0 : ℝ) : ℂ)) ((1 : ℝ) : ℂ))) = 0 at h
  rw [h] at this
  simp at this

theorem chebyshevII_mag_zero (n : ℕ) (v : ℝ) {y : ℝ} (hy : y ≠ 0) :
    (chebyshevII n v).mag 0 y = (chebyshevII n v).mag 0 1 := by
  simpa using (chebyshevII n v).mag_smul hy 0 1

/-! ## `IsProto` -/

theorem Design.proto_bw (d : Design XR) (ho : 1 ≤ o) (hon : o ≤ n) (hn : n < 2 ^ 30)
    (hb : d.build (o : ℤ) = Butterworth.lowPassBuild (o : ℤ)) (hw : (d.cls.lay0 n : Layout XR).normalW = fin 0)
    (hg : (d.cls.lay0 n : Layout XR).normalGain = fin 1) : IsProto d n o (butterworth o) (normW false) 1 where
  sym := butterworth_sym o
  left := butterworth_left o
  n_eq := rfl
  gain := one_pos
  build := by
    rw [hb, hw, hg]
    exact Butterworth.done_lowPassBuild ho (by omega) (by omega)

/-- `n`-th root of the square root of the gain of a Butterworth shelf -/
def bwShelfRoot (o : ℕ) (gainDb : ℝ) : ℝ := ((10 : ℝ) ^ (gainDb / 20)) ^ (1 / (2 * o) : ℝ)

theorem bwShelfRoot_pos (o : ℕ) (gainDb : ℝ) : 0 < bwShelfRoot o gainDb := by unfold bwShelfRoot; positivity

theorem bwShelfRoot_pow (ho : 1 ≤ o) (gainDb : ℝ) : bwShelfRoot o gainDb ^ (2 * o) = (10 : ℝ) ^ (gainDb / 20) := by
  have h0 : (2 * o : ℝ) ≠ 0 := by positivity
  rw [bwShelfRoot, ← Real.rpow_natCast, ← Real.rpow_mul (by positivity)]
  push_cast
  rw [one_div_mul_cancel h0, Real.rpow_one]

theorem Design.proto_bwShelf (d : Design XR) (gainDb : ℝ) (ho : 1 ≤ o) (hon : o ≤ n) (hn : n < 2 ^ 30)
    (hb : d.build (o : ℤ) = Butterworth.lowShelfBuild (o : ℤ) (fin gainDb))
    (hw : (d.cls.lay0 n : Layout XR).normalW = fin Real.pi)
    (hg : (d.cls.lay0 n : Layout XR).normalGain = fin 1) :
    IsProto d n o (butterworthShelf o (bwShelfRoot o gainDb)) (normW true) 1 where
  sym := butterworthShelf_sym o _
  left := butterworthShelf_left o (bwShelfRoot_pos _ _)
  n_eq := rfl
  gain := one_pos
  build := by
    rw [hb, hw, hg]
    exact Butterworth.done_lowShelfBuild ho (by omega) (by omega) gainDb

/-- gain of a Chebyshev I filter at the normalisation frequency -/
def c1Gain (o : ℕ) (r : ℝ) : ℝ := if o % 2 = 1 then 1 else (10 : ℝ) ^ (-r / 20)

theorem Design.proto_c1 (d : Design XR) {r : ℝ} (hr : 0 < r) (ho : 1 ≤ o) (hon : o ≤ n) (hn : n < 2 ^ 30)
    (hb : d.build (o : ℤ) = ChebyshevI.lowPassBuild (o : ℤ) (fin r)) :
    IsProto d n o (chebyshevI o (chebV o (chebEps r))) (normW false) (c1Gain o r) where
  sym := chebyshevI_sym o _
  left := chebyshevI_left o (chebV_pos ho (chebEps_pos hr))
  n_eq := rfl
  gain := by unfold c1Gain; split_ifs <;> positivity
  build := by
    have e : fin (c1Gain o r) = if o % 2 = 1 then fin 1 else fin ((10 : ℝ) ^ (-r / 20)) := by
      unfold c1Gain; split_ifs <;> rfl
    rw [hb, e]
    exact ChebyshevI.done_lowPassBuild ho (by omega) (by omega) hr

theorem Design.proto_c2 (d : Design XR) {r : ℝ} (hr : 0 < r) (ho : 1 ≤ o) (hon : o ≤ n) (hn : n < 2 ^ 30)
    (hb : d.build (o : ℤ) = ChebyshevII.lowPassBuild (o : ℤ) (fin r))
    (hw : (d.cls.lay0 n : Layout XR).normalW = fin 0)
    (hg : (d.cls.lay0 n : Layout XR).normalGain = fin 1) :
    IsProto d n o (chebyshevII o (chebV o (chebEpsII r))) (normW false) 1 where
  sym := chebyshevII_sym o _
  left := chebyshevII_left o (chebV_pos ho (chebEpsII_pos hr))
  n_eq := rfl
  gain := one_pos
  build := by
    rw [hb, hw, hg]
    exact ChebyshevII.done_lowPassBuild ho (by omega) (by omega) hr

theorem Design.proto_chebShelf (d : Design XR) {G r : ℝ} (hr : 0 < r) (hrG : r < |G|) (ho : 1 ≤ o) (hon : o ≤ n)
    (hn : n < 2 ^ 30) (hb : d.build (o : ℤ) = ChebyshevI.lowShelfBuild (o : ℤ) (fin G) (fin r))
    (hw : (d.cls.lay0 n : Layout XR).normalW = fin Real.pi)
    (hg : (d.cls.lay0 n : Layout XR).normalGain = fin 1) :
    IsProto d n o (chebyshevShelf o (chebV o (shelfEps G r / shelfG G)) (chebV o (shelfEps G r))) (normW true) 1 where
  sym := chebyshevShelf_sym o _ _
  left := chebyshevShelf_left o (chebV_pos ho (div_pos (shelfEps_pos hr hrG) (shelfG_pos G)))
    (chebV_pos ho (shelfEps_pos hr hrG))
  n_eq := rfl
  gain := one_pos
  build := by
    rw [hb, hw, hg]
    exact ChebyshevI.done_lowShelfBuild ho (by omega) (by omega) hr hrG

theorem lay0_bw : ((.bwLowPass : Cls).lay0 n : Layout XR).normalW = fin 0 ∧
    ((.bwLowPass : Cls).lay0 n : Layout XR).normalGain = fin 1 := ⟨lit_zero, lit_one⟩
theorem lay0_bwShelf : ((.bwLowShelf : Cls).lay0 n : Layout XR).normalW = fin Real.pi ∧
    ((.bwLowShelf : Cls).lay0 n : Layout XR).normalGain = fin 1 := ⟨pi_eq, lit_one⟩
theorem lay0_c2 : ((.c2LowPass : Cls).lay0 n : Layout XR).normalW = fin 0 ∧
    ((.c2LowPass : Cls).lay0 n : Layout XR).normalGain = fin 1 := ⟨lit_zero, lit_one⟩
theorem lay0_c1Shelf : ((.c1LowShelf : Cls).lay0 n : Layout XR).normalW = fin Real.pi ∧
    ((.c1LowShelf : Cls).lay0 n : Layout XR).normalGain = fin 1 := ⟨pi_eq, lit_one⟩

end
end Iir
