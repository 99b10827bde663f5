import Verif.Spec.LibraryComplex
import Verif.Lemmas.DoubleLibrary
import Mathlib.Analysis.Complex.Trigonometric
import Mathlib.Analysis.Real.Pi.Bounds

/-! # Doubles with correctly rounded complex quotients, moduli and `polar`, and the products of libgcc -/

namespace Iir
open FArith Spec Dbl

theorem pow_le_maxDouble {n : ℕ} (h : n ≤ 971) : (2 : ℝ) ^ n ≤ maxDouble := by
  unfold maxDouble
  calc (2 : ℝ) ^ n ≤ 1 * 2 ^ 971 := by
        rw [one_mul]; exact pow_le_pow_right₀ (by norm_num) h
    _ ≤ _ := mul_le_mul_of_nonneg_right (by norm_num) (by positivity)

theorem Dbl.exists_num {a : Dbl} (h : a.Finite) : ∃ s x, a = num s x := by
  rcases a with _ | s | ⟨s, x⟩
  · exact h.elim
  · exact h.elim
  · exact ⟨s, x, rfl⟩

theorem Dbl.isDouble_val {a : Dbl} (h : a.Finite) : IsDouble a.val := by
  obtain ⟨s, x, rfl⟩ := exists_num h
  obtain ⟨m, e, a, b, c, d⟩ := x.2.2
  cases s
  · exact ⟨m, e, a, b, c, d⟩
  · refine ⟨-m, e, by rwa [abs_neg], b, c, ?_⟩
    show -x.1 = _
    rw [d]; push_cast; ring

theorem Dbl.toCx_finite {z : Cx Dbl} (h : doubleRounds.CFin z) : toCx z = ofC (doubleRounds.cval z) := by
  show Cx.mk _ _ = Cx.mk _ _
  rw [toXR_finite h.1, toXR_finite h.2]; rfl

theorem Dbl.complex_error {a b a' b' e n : ℝ} (h1 : |a' - a| ≤ n / 2 ^ 48 + 8 * e) (h2 : |b' - b| ≤ n / 2 ^ 48 + 8 * e)
    (hn : 0 ≤ n) : ‖(⟨a', b'⟩ : ℂ) - ⟨a, b⟩‖ ≤ n / 2 ^ 45 + 16 * e := by
  refine (Complex.norm_le_abs_re_add_abs_im _).trans ?_
  show |a' - a| + |b' - b| ≤ _
  have : n / 2 ^ 48 + n / 2 ^ 48 ≤ n / 2 ^ 45 := by norm_num; linarith
  linarith

theorem Dbl.round_le {a n e : ℝ} (he : 0 ≤ e) (h : a ≤ n) (hn : 0 ≤ n) : (1 / 2) ^ 53 * a + e ≤ n / 2 ^ 48 + 8 * e := by
  have : (1 / 2 : ℝ) ^ 53 * a ≤ n / 2 ^ 48 := by norm_num; linarith
  linarith

theorem Dbl.complex_round {w : ℂ} (h : ‖w‖ ≤ maxDouble) :
    doubleRounds.CFin (ofCx (ofC w)) ∧
      ‖doubleRounds.cval (ofCx (ofC w)) - w‖ ≤ ‖w‖ / 2 ^ 45 + 16 * (1 / 2) ^ 1075 := by
  obtain ⟨h1, h2⟩ := ofReal_close false ((Complex.abs_re_le_norm w).trans h)
  obtain ⟨h3, h4⟩ := ofReal_close false ((Complex.abs_im_le_norm w).trans h)
  refine ⟨⟨h1, h3⟩, ?_⟩
  have hr := Complex.abs_re_le_norm w
  have hi := Complex.abs_im_le_norm w
  have hn := norm_nonneg w
  have he : (0 : ℝ) ≤ (1 / 2) ^ 1075 := by positivity
  exact complex_error (a := w.re) (b := w.im) (h2.trans (round_le he hr hn)) (h4.trans (round_le he hi hn)) hn

theorem Dbl.g0 {p d P t e N B : ℝ} (h5 : t ≤ 1 * P) (h6 : p ≤ d + P) (hp : d ≤ t + e) (he : e ≤ 1) (hP : P ≤ N)
    (hN : N ≤ B) (hB : 1 ≤ B) : p ≤ 3 * B := by linarith

theorem Dbl.g1 {d c e : ℝ} (h : d ≤ (1 / 2) ^ 53 * c + e) (he : e ≤ 1 / 2 ^ 60) (hc : c ≤ 1) : d ≤ 1 / 2 ^ 52 := by
  norm_num at *; linarith

theorem Dbl.g2 {v w t x e : ℝ} (h1 : |v - w| ≤ x / 2 ^ 52 + e) (h2 : |w - t| ≤ x * (1 / 2 ^ 52)) (h0 : 0 ≤ x)
    (he : 0 ≤ e) : |v - t| ≤ x / 2 ^ 48 + 8 * e := by
  rw [abs_le] at *
  norm_num at *
  constructor <;> linarith

/-- the sum of two rounded products -/
theorem Dbl.dot_error {p q x P Q u e n : ℝ} (hu : u ≤ 1 / 2 ^ 53) (he : 0 ≤ e) (hP : |P| ≤ n)
    (hQ : |Q| ≤ n) (hPQ : |P + Q| ≤ n) (hp : |p - P| ≤ u * |P| + e) (hq : |q - Q| ≤ u * |Q| + e)
    (hx : |x - (p + q)| ≤ u * |p + q| + e) : |x - (P + Q)| ≤ n / 2 ^ 48 + 8 * e := by
  have hn : 0 ≤ n := (abs_nonneg _).trans hP
  have f : ∀ {a b : ℝ}, 0 ≤ b → |a| ≤ b → u * |a| ≤ b / 2 ^ 53 := fun {a b} hb h => by
    calc u * |a| ≤ 1 / 2 ^ 53 * b := mul_le_mul hu h (abs_nonneg _) (by positivity)
      _ = _ := by ring
  have h1 := hp.trans (add_le_add_left (f hn hP) _)
  have h2 := hq.trans (add_le_add_left (f hn hQ) _)
  have h3 : |p + q| ≤ 2 * n + 2 * e := by
    rw [abs_le] at *
    norm_num at *
    constructor <;> linarith
  have h4 := hx.trans (add_le_add_left (f (by linarith) h3) _)
  rw [abs_le] at *
  norm_num at *
  constructor <;> linarith

theorem doubleRounds_library : doubleRounds.Library where
  toAccurate := doubleRounds_accurate
  η_tiny := by
    rw [one_div_pow]
    exact one_div_le_one_div_of_le (by positivity) (pow_le_pow_right₀ (by norm_num) (by norm_num))
  Ω_huge := by
    unfold maxDouble
    calc (2 : ℝ) ^ 1000 ≤ 2 ^ 52 * 2 ^ 971 := by
          rw [← pow_add]; exact pow_le_pow_right₀ (by norm_num) (by norm_num)
      _ ≤ _ := mul_le_mul_of_nonneg_right (by norm_num) (by positivity)
  feq x y hx hy := by
    show XR.eq x.toXR y.toXR = true ↔ _
    rw [toXR_finite hx, toXR_finite hy]
    exact decide_eq_true_iff
  flt x y hx hy := by
    show XR.lt x.toXR y.toXR = true ↔ _
    rw [toXR_finite hx, toXR_finite hy]
    exact decide_eq_true_iff
  inf_eq := rfl
  inf_ne x hx := by
    show XR.eq x.toXR _ = false
    rw [toXR_finite hx]; rfl
  half := by
    have h : IsDouble (OfScientific.ofScientific 5 true 1 : ℝ) := ⟨1, -1, by norm_num, by norm_num, by norm_num, by norm_num⟩
    obtain ⟨h1, h2⟩ := ofReal_isDouble false h
    exact ⟨h1, h2.trans (by norm_num)⟩
  tenth := by
    obtain ⟨h1, h2⟩ := ofReal_close false (x := (OfScientific.ofScientific 1 true 1 : ℝ))
      (maxDouble_large (by rw [abs_le]; constructor <;> norm_num))
    refine ⟨h1, ?_⟩
    have e : (OfScientific.ofScientific 1 true 1 : ℝ) = 1 / 10 := by norm_num
    have h3 : (1 / 2 : ℝ) ^ 1075 ≤ (1 / 2) ^ 60 := pow_le_pow_of_le_one (by norm_num) (by norm_num) (by norm_num)
    refine le_trans (le_of_eq (by rw [← e]; rfl)) (h2.trans ?_)
    rw [e]
    clear h1 h2
    generalize ((1 / 2) ^ 1075 : ℝ) = ε at h3 ⊢
    norm_num at *
    linarith
  mul_zero x y hx hy h := by
    obtain ⟨s, x, rfl⟩ := exists_num hx
    obtain ⟨t, y, rfl⟩ := exists_num hy
    show val (ofReal _ (val (num s x) * val (num t y))) = 0
    have : val (num s x) * val (num t y) = 0 := mul_eq_zero.2 h
    rw [this, ofReal_zero, val_zero]
  zero_div x y hx hy h0 h := by
    obtain ⟨s, x, rfl⟩ := exists_num hx
    obtain ⟨t, y, rfl⟩ := exists_num hy
    show val (if y.1 = 0 then _ else ofReal _ (val (num s x) / val (num t y))) = 0
    have : val (num s x) = 0 := h
    rw [if_neg, this, zero_div, ofReal_zero, val_zero]
    intro h1
    apply h0
    show val (num t y) = 0
    rw [← abs_eq_zero, abs_val, h1]
  sub_zero x y hx hy h := by
    have hd := isDouble_val hx
    obtain ⟨s, x, rfl⟩ := exists_num hx
    obtain ⟨t, y, rfl⟩ := exists_num hy
    show val (ofReal _ (val (num s x) + val (num (!t) y))) = val (num s x)
    have h1 : val (num (!t) y) = 0 := by
      rw [← abs_eq_zero, abs_val, ← abs_val t, abs_eq_zero]; exact h
    rw [h1, _root_.add_zero]
    exact (ofReal_isDouble _ hd).2
  half_turn x hx h := by
    obtain ⟨hp, hpi⟩ := doubleRounds_accurate.pi
    change (FArith.pi : Dbl).Finite at hp
    have hpi' : |(FArith.pi : Dbl).val - Real.pi| ≤ 1 / 2 ^ 45 := hpi
    have h3 := Real.pi_gt_three
    have h4 := Real.pi_lt_four
    obtain ⟨q1, q2⟩ := abs_le.1 hpi'
    have hd := isDouble_val hp
    have hpos : 0 < (FArith.pi : Dbl).val := by norm_num at *; linarith
    have hlt : (FArith.pi : Dbl).val < 5 := by norm_num at *; linarith
    have hd2 : IsDouble (2 * (FArith.pi : Dbl).val) := by
      obtain ⟨m, e, a, b, c, d⟩ := hd
      refine ⟨m, e + 1, a, by omega, ?_, by rw [d, zpow_add_one₀ (by norm_num)]; ring⟩
      by_contra hc
      have he : (5 : ℝ) ≤ 2 ^ e := by
        calc (5 : ℝ) ≤ 2 ^ (3 : ℤ) := by norm_num
          _ ≤ _ := zpow_le_zpow_right₀ (by norm_num) (by omega)
      rw [d] at hpos hlt
      have hm : (0 : ℝ) < m := by
        by_contra hm
        exact absurd hpos (not_lt.2 (mul_nonpos_of_nonpos_of_nonneg (not_lt.1 hm) (by linarith)))
      have hm1 : (1 : ℝ) ≤ m := by
        have : (0 : ℤ) < m := by exact_mod_cast hm
        exact_mod_cast this
      nlinarith
    have h2 := doubleRounds_accurate.int 2 (by norm_num)
    have e2 : (2 * FArith.pi : Dbl).Finite ∧ (2 * FArith.pi : Dbl).val = 2 * (FArith.pi : Dbl).val := by
      have hf2 : (2 : Dbl).Finite := h2.1
      have hv2 : (2 : Dbl).val = 2 := by
        have h5 : (2 : Dbl).val = ((2 : ℤ) : ℝ) := h2.2
        rw [h5]; norm_num
      generalize (2 : Dbl) = w at *
      generalize (FArith.pi : Dbl) = v at *
      obtain ⟨s, w, rfl⟩ := exists_num hf2
      obtain ⟨t, v, rfl⟩ := exists_num hp
      show (ofReal _ (val (num s w) * val (num t v))).Finite ∧ val (ofReal _ (val (num s w) * val (num t v))) = _
      rw [hv2]
      exact ofReal_isDouble _ hd2
    have hx' : x.val = (FArith.pi : Dbl).val := h
    change (x / (2 * FArith.pi) : Dbl).val = 1 / 2
    generalize (2 * FArith.pi : Dbl) = w at *
    generalize (FArith.pi : Dbl) = v at *
    obtain ⟨hw, e2⟩ := e2
    obtain ⟨s, x, rfl⟩ := exists_num hx
    obtain ⟨t, w, rfl⟩ := exists_num hw
    show val (if w.1 = 0 then _ else ofReal _ (val (num s x) / val (num t w))) = 1 / 2
    rw [if_neg, hx', e2]
    · have e : v.val / (2 * v.val) = 1 / 2 := by field_simp
      rw [e]
      exact (ofReal_isDouble _ ⟨1, -1, by norm_num, by norm_num, by norm_num, by norm_num⟩).2
    · intro h1
      have : val (num t w) = 0 := by rw [← abs_eq_zero, abs_val, h1]
      linarith
  pi2 := by
    have := Real.pi_pos
    have := Real.pi_le_four
    have hp : 0 < Real.pi / 2 := by linarith
    have h : |Real.pi / 2| ≤ 100 := by rw [abs_of_pos hp]; linarith
    obtain ⟨h1, h2⟩ := ofReal_close false (maxDouble_large h)
    refine ⟨h1, h2.trans ?_⟩
    rw [abs_of_pos hp]
    have h3 : (1 / 2 : ℝ) ^ 1075 ≤ (1 / 2) ^ 60 := pow_le_pow_of_le_one (by norm_num) (by norm_num) (by norm_num)
    generalize ((1 / 2) ^ 1075 : ℝ) = e at *
    norm_num at *
    linarith
  ln10 := by
    have h0 : 0 < Real.log 10 := Real.log_pos (by norm_num)
    have h1 : Real.log 10 ≤ 9 := by have := Real.log_le_sub_one_of_pos (x := 10) (by norm_num); linarith
    have h : |Real.log 10| ≤ 100 := by rw [abs_of_pos h0]; linarith
    obtain ⟨h1, h2⟩ := ofReal_close false (maxDouble_large h)
    refine ⟨h1, h2.trans ?_⟩
    rw [abs_of_pos h0]
    have h3 : (1 / 2 : ℝ) ^ 1075 ≤ (1 / 2) ^ 60 := pow_le_pow_of_le_one (by norm_num) (by norm_num) (by norm_num)
    generalize ((1 / 2) ^ 1075 : ℝ) = e at *
    norm_num at *
    linarith
  tan x hx h0 h1 h2 := by
    have hc : Real.cos x.val ≠ 0 := (Real.cos_pos_of_mem_Ioo ⟨by linarith [Real.pi_pos, show 0 ≤ x.val from h0], h1⟩).ne'
    have ht : 0 ≤ Real.tan x.val := Real.tan_nonneg_of_nonneg_of_le_pi_div_two h0 h1.le
    have e : tan x = ofReal x.sign (Real.tan x.val) := by
      show ofXR _ (XR.tan x.toXR) = _
      rw [toXR_finite hx]
      show ofXR _ (XR.div (.fin (Real.sin x.val)) (.fin (Real.cos x.val))) = _
      simp only [XR.div, if_neg hc]
      rw [Real.tan_eq_sin_div_cos]; rfl
    rw [e]
    refine library _ ?_ (abs_of_nonneg ht).symm
    rw [abs_of_nonneg ht]
    exact le_trans h2 (pow_le_maxDouble (by norm_num))
  log x hx h0 h1 := by
    have e : log x = ofReal false (Real.log x.val) := by
      show ofXR _ (XR.log x.toXR) = _
      rw [toXR_finite hx]
      show ofXR _ (if 0 < x.val then _ else _) = _
      rw [if_pos (show 0 < x.val from h0)]; rfl
    rw [e]
    exact library _ (le_trans h1 (pow_le_maxDouble (by norm_num))) rfl
  cosh x hx h := by
    have e : cosh x = ofReal false (Real.cosh x.val) := by show ofXR _ (XR.cosh x.toXR) = _; rw [toXR_finite hx]; rfl
    have h1 := Real.cosh_pos x.val
    rw [e]
    refine library _ ?_ (abs_of_pos h1).symm
    rw [abs_of_pos h1]
    exact le_trans h (pow_le_maxDouble (by norm_num))
  cmul z w hz hw h1 h2 := by
    have hN : ‖doubleRounds.cval z‖ * ‖doubleRounds.cval w‖ ≤ 2 ^ 800 := by
      calc _ ≤ (2 : ℝ) ^ 400 * 2 ^ 400 := mul_le_mul h1 h2 (norm_nonneg _) (by positivity)
        _ = _ := by rw [← pow_add]
    have hN' : 8 * (2 : ℝ) ^ 800 ≤ maxDouble := by
      have := pow_le_maxDouble (n := 803) (by norm_num)
      rwa [show (803 : ℕ) = 3 + 800 by norm_num, pow_add, show (2 : ℝ) ^ 3 = 8 by norm_num] at this
    have hN1 : (1 : ℝ) ≤ 2 ^ 800 := one_le_pow₀ (by norm_num)
    rw [norm_mul]
    generalize (2 : ℝ) ^ 800 = B at hN hN' hN1
    have a1 := Complex.abs_re_le_norm (doubleRounds.cval z)
    have a2 := Complex.abs_im_le_norm (doubleRounds.cval z)
    have a3 := Complex.abs_re_le_norm (doubleRounds.cval w)
    have a4 := Complex.abs_im_le_norm (doubleRounds.cval w)
    have r1 := Complex.abs_re_le_norm (doubleRounds.cval z * doubleRounds.cval w)
    have r2 := Complex.abs_im_le_norm (doubleRounds.cval z * doubleRounds.cval w)
    rw [norm_mul, Complex.mul_re] at r1
    rw [norm_mul, Complex.mul_im] at r2
    generalize hn1 : ‖doubleRounds.cval z‖ = n1 at *
    generalize hn2 : ‖doubleRounds.cval w‖ = n2 at *
    have hn1' : 0 ≤ n1 := hn1 ▸ norm_nonneg _
    have hn2' : 0 ≤ n2 := hn2 ▸ norm_nonneg _
    have f : ∀ {x y : ℝ}, |x| ≤ n1 → |y| ≤ n2 → |x * y| ≤ n1 * n2 := fun hx hy => by
      rw [abs_mul]; exact mul_le_mul hx hy (abs_nonneg _) hn1'
    obtain ⟨za, zb⟩ := z
    obtain ⟨wa, wb⟩ := w
    change |doubleRounds.val za| ≤ n1 at a1
    change |doubleRounds.val zb| ≤ n1 at a2
    change |doubleRounds.val wa| ≤ n2 at a3
    change |doubleRounds.val wb| ≤ n2 at a4
    change |doubleRounds.val za * doubleRounds.val wa - doubleRounds.val zb * doubleRounds.val wb| ≤ _ at r1
    change |doubleRounds.val za * doubleRounds.val wb + doubleRounds.val zb * doubleRounds.val wa| ≤ _ at r2
    have hlt : n1 * n2 ≤ maxDouble := by linarith
    obtain ⟨p1, q1⟩ := doubleRounds.mul za wa hz.1 hw.1 ((f a1 a3).trans hlt)
    obtain ⟨p2, q2⟩ := doubleRounds.mul zb wb hz.2 hw.2 ((f a2 a4).trans hlt)
    obtain ⟨p3, q3⟩ := doubleRounds.mul za wb hz.1 hw.2 ((f a1 a4).trans hlt)
    obtain ⟨p4, q4⟩ := doubleRounds.mul zb wa hz.2 hw.1 ((f a2 a3).trans hlt)
    have hu : (1 / 2 : ℝ) ^ 53 ≤ 1 / 2 ^ 53 := by norm_num
    have hu0 : (0 : ℝ) ≤ (1 / 2) ^ 53 := by positivity
    have hη0 : (0 : ℝ) ≤ (1 / 2) ^ 1075 := by positivity
    have hη1 : (1 / 2 : ℝ) ^ 1075 ≤ 1 := pow_le_one₀ (by norm_num) (by norm_num)
    have g : ∀ {p P : ℝ}, |P| ≤ n1 * n2 → |p - P| ≤ (1 / 2) ^ 53 * |P| + (1 / 2) ^ 1075 → |p| ≤ 3 * B := by
      intro p P hP hp
      have h5 : (1 / 2 : ℝ) ^ 53 * |P| ≤ 1 * |P| := mul_le_mul_of_nonneg_right (by norm_num) (abs_nonneg _)
      have h6 : |p| ≤ |p - P| + |P| := by
        calc |p| = |(p - P) + P| := by ring_nf
          _ ≤ _ := abs_add_le _ _
      exact g0 h5 h6 hp hη1 hP hN hN1
    have g1 := g (f a1 a3) q1
    have g2 := g (f a2 a4) q2
    have g3 := g (f a1 a4) q3
    have g4 := g (f a2 a3) q4
    obtain ⟨s1, t1⟩ := doubleRounds.sub _ _ p1 p2 ((abs_sub _ _).trans (le_trans (add_le_add g1 g2) (by linarith)))
    obtain ⟨s2, t2⟩ := doubleRounds.add _ _ p3 p4 ((abs_add_le _ _).trans (le_trans (add_le_add g3 g4) (by linarith)))
    have e : FArith.cmul (⟨za, zb⟩ : Cx Dbl) ⟨wa, wb⟩ = ⟨za * wa - zb * wb, za * wb + zb * wa⟩ := by
      show Dbl.cmul _ _ = _
      have : Dbl.isNaN (Dbl.sub (Dbl.mul za wa) (Dbl.mul zb wb)) = false := by
        obtain ⟨s, x, h⟩ := exists_num s1
        rw [show Dbl.sub (Dbl.mul za wa) (Dbl.mul zb wb) = num s x from h]
        rfl
      unfold Dbl.cmul
      simp only [this, Bool.false_and, Bool.false_eq_true, if_false]
      rfl
    rw [e]
    refine ⟨⟨s1, s2⟩, ?_⟩
    have e' : doubleRounds.cval (⟨za, zb⟩ : Cx Dbl) * doubleRounds.cval ⟨wa, wb⟩ =
      ⟨doubleRounds.val za * doubleRounds.val wa + -(doubleRounds.val zb * doubleRounds.val wb),
        doubleRounds.val za * doubleRounds.val wb + doubleRounds.val zb * doubleRounds.val wa⟩ := by
      apply Complex.ext
      · rw [Complex.mul_re]; exact sub_eq_add_neg _ _
      · rw [Complex.mul_im]; rfl
    rw [e']
    refine complex_error ?_ ?_ (mul_nonneg hn1' hn2')
    · refine dot_error (p := doubleRounds.val (za * wa)) (q := -doubleRounds.val (zb * wb)) hu hη0 (f a1 a3)
        (by rw [abs_neg]; exact f a2 a4) (by rw [← sub_eq_add_neg]; exact r1) q1 ?_ ?_
      · rw [abs_neg, ← neg_sub', abs_neg]; exact q2
      · rw [← sub_eq_add_neg]; exact t1
    · exact dot_error hu hη0 (f a1 a4) (f a2 a3) r2 q3 q4 t2
  cdiv z w hz hw h1 h2 h3 := by
    have h0 : doubleRounds.cval w ≠ 0 := by
      rw [← norm_pos_iff]; exact lt_of_lt_of_le (by positivity) h2
    have e : FArith.cdiv z w = ofCx (ofC (doubleRounds.cval z / doubleRounds.cval w)) := by
      rw [← Cx.cdiv_ofC _ h0, ← toCx_finite hz, ← toCx_finite hw]; rfl
    rw [e]
    apply complex_round
    rw [norm_div, div_le_iff₀ (norm_pos_iff.2 h0)]
    calc _ ≤ (2 : ℝ) ^ 400 := h1
      _ = 2 ^ 800 * (1 / 2 ^ 400) := by rw [show (800 : ℕ) = 400 + 400 by norm_num, pow_add, mul_one_div, mul_div_cancel_right₀ _ (by positivity)]
      _ ≤ 2 ^ 800 * ‖doubleRounds.cval w‖ := mul_le_mul_of_nonneg_left h2 (by positivity)
      _ ≤ _ := mul_le_mul_of_nonneg_right (pow_le_maxDouble (by norm_num)) (norm_nonneg _)
  cdiv_real z w hz hw h0 h1 h2 := by
    have e : FArith.cdiv z w = ofCx (ofC (doubleRounds.cval z / doubleRounds.cval w)) := by
      rw [← Cx.cdiv_ofC _ h0, ← toCx_finite hz, ← toCx_finite hw]; rfl
    rw [e]
    show val (ofReal false (doubleRounds.cval z / doubleRounds.cval w).im) = 0
    have : (doubleRounds.cval z / doubleRounds.cval w).im = 0 := by
      rw [Complex.div_im, show (doubleRounds.cval z).im = 0 from h1, show (doubleRounds.cval w).im = 0 from h2]
      ring
    rw [this, ofReal_zero, val_zero]
  cabs z hz h := by
    have e : FArith.cabs z = ofReal false ‖doubleRounds.cval z‖ := by
      show ofXR false (xcabs (toCx z)) = _
      rw [toCx_finite hz]
      show ofReal false (Real.sqrt _) = _
      rw [← Complex.normSq_apply, Complex.norm_def]
    rw [e]
    refine library _ ?_ (abs_of_nonneg (norm_nonneg _)).symm
    rw [abs_of_nonneg (norm_nonneg _)]
    exact le_trans h (pow_le_maxDouble (by norm_num))
  polar x t hx ht h0 h1 := by
    refine ⟨⟨x * ofReal false (Real.cos t.val), x * ofReal t.sign (Real.sin t.val)⟩, ?_, ?_⟩
    · show some (Cx.mk _ _) = _
      rw [toXR_finite ht]; rfl
    · have key : ∀ s {c : ℝ}, |c| ≤ 1 → doubleRounds.Fin (x * ofReal s c) ∧
          |doubleRounds.val (x * ofReal s c) - doubleRounds.val x * c| ≤ doubleRounds.val x / 2 ^ 48 + 8 * (1 / 2) ^ 1075 := by
        intro s c hc
        obtain ⟨f1, e1⟩ := ofReal_close s (maxDouble_large (hc.trans (by norm_num)))
        change |doubleRounds.val (ofReal s c) - c| ≤ _ at e1
        change doubleRounds.Fin (ofReal s c) at f1
        have hη : (1 / 2 : ℝ) ^ 1075 ≤ 1 / 2 ^ 60 := by
          rw [one_div_pow]
          exact one_div_le_one_div_of_le (by positivity) (pow_le_pow_right₀ (by norm_num) (by norm_num))
        have hη0 : (0 : ℝ) ≤ (1 / 2) ^ 1075 := by positivity
        have e2 : |doubleRounds.val (ofReal s c) - c| ≤ 1 / 2 ^ 52 := by
          exact g1 e1 hη hc
        have e3 : |doubleRounds.val (ofReal s c)| ≤ 2 := by
          rw [abs_le] at *
          norm_num at *
          constructor <;> linarith
        have hb : |doubleRounds.val x * doubleRounds.val (ofReal s c)| ≤ doubleRounds.val x * 2 := by
          rw [abs_mul, abs_of_nonneg h0]; exact mul_le_mul_of_nonneg_left e3 h0
        have hM : doubleRounds.val x * 2 ≤ maxDouble := by
          have := pow_le_maxDouble (n := 401) (by norm_num)
          rw [pow_succ] at this
          exact (mul_le_mul_of_nonneg_right h1 (by norm_num)).trans this
        obtain ⟨f4, e4⟩ := doubleRounds.mul x _ hx f1 (hb.trans hM)
        refine ⟨f4, ?_⟩
        have e5 : |doubleRounds.val x * doubleRounds.val (ofReal s c) - doubleRounds.val x * c| ≤ doubleRounds.val x * (1 / 2 ^ 52) := by
          rw [← mul_sub, abs_mul, abs_of_nonneg h0]; exact mul_le_mul_of_nonneg_left e2 h0
        have e6 : (1 / 2 : ℝ) ^ 53 * |doubleRounds.val x * doubleRounds.val (ofReal s c)| ≤ doubleRounds.val x / 2 ^ 52 := by
          calc _ ≤ (1 / 2 : ℝ) ^ 53 * (doubleRounds.val x * 2) := mul_le_mul_of_nonneg_left hb (by positivity)
            _ = _ := by ring
        have e7 := e4.trans (add_le_add_left e6 _)
        exact g2 e7 e5 h0 hη0
      obtain ⟨k1, k2⟩ := key false (Real.abs_cos_le_one t.val)
      obtain ⟨k3, k4⟩ := key t.sign (Real.abs_sin_le_one t.val)
      refine ⟨⟨k1, k3⟩, ?_⟩
      have e : (doubleRounds.val x : ℂ) * Complex.exp (doubleRounds.val t * Complex.I) =
          ⟨doubleRounds.val x * Real.cos t.val, doubleRounds.val x * Real.sin t.val⟩ := by
        apply Complex.ext
        · rw [Complex.re_ofReal_mul, Complex.exp_ofReal_mul_I_re]; rfl
        · rw [Complex.im_ofReal_mul, Complex.exp_ofReal_mul_I_im]; rfl
      rw [e]
      exact complex_error k2 k4 h0

end Iir
