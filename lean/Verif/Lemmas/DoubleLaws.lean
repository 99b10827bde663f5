import Verif.Exact.IEEE
import Verif.Spec.Rounding
import Verif.Lemmas.Cache
import Verif.Props.NaN

/-! # The laws that IEEE doubles satisfy -/

namespace Iir
open FArith Spec

namespace Dbl

theorem add_num (s t : Bool) (x y : {x : ℝ // 0 ≤ x ∧ IsDouble x}) :
    (num s x + num t y : Dbl) = ofReal (s && t) (val (num s x) + val (num t y)) := rfl

theorem mul_num (s t : Bool) (x y : {x : ℝ // 0 ≤ x ∧ IsDouble x}) :
    (num s x * num t y : Dbl) = ofReal (s ^^ t) (val (num s x) * val (num t y)) := rfl

theorem val_neg (a : Dbl) : (-a).val = -a.val := by
  rcases a with _ | s | ⟨s, x⟩
  · exact neg_zero.symm
  · exact neg_zero.symm
  · cases s
    · rfl
    · exact (neg_neg _).symm

theorem sub_def (a b : Dbl) : a - b = a + -b := rfl

theorem finite_neg {a : Dbl} : a.Finite → (-a).Finite := by
  rcases a with _ | s | ⟨s, x⟩
  · exact id
  · exact id
  · exact id

theorem lit_zero : (0 : Dbl) = zero false := by
  show ofReal false ((0 : ℤ) : ℝ) = _
  rw [Int.cast_zero, ofReal_zero]

theorem val_zero (s : Bool) : (zero s).val = 0 := by
  cases s
  · rfl
  · exact neg_zero

end Dbl

open Dbl

/-- Doubles have relative error `2⁻⁵³` and absolute error `2⁻¹⁰⁷⁵`. -/
noncomputable def doubleRounds : Rounds Dbl ((1 / 2) ^ 53) ((1 / 2) ^ 1075) maxDouble where
  Fin := Dbl.Finite
  val := Dbl.val
  u_nonneg := by positivity
  η_nonneg := by positivity
  zero := by rw [lit_zero]; exact ⟨trivial, val_zero _⟩
  add := by
    rintro (_ | s | ⟨s, x⟩) (_ | t | ⟨t, y⟩) hx hy h <;> first | exact hx.elim | exact hy.elim | exact ofReal_close _ h
  sub := by
    rintro (_ | s | ⟨s, x⟩) (_ | t | ⟨t, y⟩) hx hy h <;> try first | exact hx.elim | exact hy.elim
    have e : (num s x).val - (num t y).val = (num s x).val + (-num t y).val := by rw [val_neg, sub_eq_add_neg]
    rw [e] at h ⊢
    exact ofReal_close _ h
  mul := by
    rintro (_ | s | ⟨s, x⟩) (_ | t | ⟨t, y⟩) hx hy h <;> first | exact hx.elim | exact hy.elim | exact ofReal_close _ h

theorem Dbl.isNan_iff (a : Dbl) : isNan a = true ↔ a = .nan := by
  show (!(XR.eq a.toXR a.toXR)) = true ↔ _
  rcases a with _ | s | ⟨s, x⟩
  · simp [toXR, XR.eq]
  · cases s <;> simp [toXR, XR.eq]
  · simp [toXR, XR.eq]

instance : NanPropagates Dbl where
  add_left x y h := by
    rw [Dbl.isNan_iff] at h ⊢; subst h; cases y <;> rfl
  add_right x y h := by
    rw [Dbl.isNan_iff] at h ⊢; subst h; cases x <;> rfl
  sub_left x y h := by
    rw [Dbl.isNan_iff] at h ⊢; subst h; cases y <;> rfl
  sub_right x y h := by
    rw [Dbl.isNan_iff] at h ⊢; subst h; cases x <;> rfl
  mul_left x y h := by
    rw [Dbl.isNan_iff] at h ⊢; subst h; cases y <;> rfl
  mul_right x y h := by
    rw [Dbl.isNan_iff] at h ⊢; subst h; cases x <;> rfl

theorem Dbl.toXR_zero (s : Bool) : (zero s).toXR = .fin 0 := by
  show XR.fin (val (zero s)) = _
  rw [val_zero]

theorem Dbl.isZero_iff (a : Dbl) : IsZero a ↔ ∃ s, a = zero s := by
  have h0 : (0 : Dbl).toXR = .fin 0 := by rw [lit_zero, toXR_zero]
  show XR.eq a.toXR (0 : Dbl).toXR = true ↔ _
  rw [h0]
  rcases a with _ | s | ⟨s, x⟩
  · simp [toXR, XR.eq, zero]
  · cases s <;> simp [toXR, XR.eq, zero]
  · simp only [toXR, XR.eq, decide_eq_true_eq]
    constructor
    · intro h
      refine ⟨s, num_ext rfl ?_⟩
      rw [← abs_val s x, h, abs_zero]
    · rintro ⟨t, h⟩
      rw [h, val_zero]

/-- zero times a finite number -/
theorem Dbl.zero_mul {s : Bool} {a : Dbl} (h : a.Finite) : ∃ t, zero s * a = zero t := by
  rcases a with _ | t | ⟨t, y⟩
  · exact h.elim
  · exact h.elim
  · exact ⟨s ^^ t, by show ofReal _ (val (zero s) * _) = _; rw [val_zero, MulZeroClass.zero_mul, ofReal_zero]⟩

theorem Dbl.zero_add_zero (s t : Bool) : zero s + zero t = zero (s && t) := by
  show ofReal _ (val (zero s) + val (zero t)) = _
  rw [val_zero, val_zero, add_zero, ofReal_zero]

theorem Dbl.neg_zero' (s : Bool) : -zero s = zero (!s) := rfl

theorem Dbl.ofReal_ne {s t : Bool} {x : ℝ} (h : x ≠ 0) : ofReal s x = ofReal t x := by
  unfold ofReal; rw [if_neg h, if_neg h]

theorem Dbl.val_ne_zero {s : Bool} {x : {x : ℝ // 0 ≤ x ∧ IsDouble x}} (h : ¬ IsZero (num s x)) :
    val (num s x) ≠ 0 := fun h1 => h ((Dbl.isZero_iff _).2 ⟨s, num_ext rfl (by rw [← abs_val s x, h1, abs_zero])⟩)

theorem Dbl.add_zeros {s t : Bool} {z : Dbl} (h : ¬ IsZero z) : zero s + z = zero t + z := by
  rcases z with _ | r | ⟨r, x⟩
  · rfl
  · rfl
  · show ofReal _ (val (zero s) + val (num r x)) = ofReal _ (val (zero t) + val (num r x))
    rw [val_zero, val_zero, _root_.zero_add]
    exact Dbl.ofReal_ne (val_ne_zero h)

theorem Dbl.add_comm' (a b : Dbl) : a + b = b + a := by
  rcases a with _ | s | ⟨s, x⟩ <;> rcases b with _ | t | ⟨t, y⟩ <;> try rfl
  · show (if s = t then Dbl.inf s else .nan) = if t = s then Dbl.inf t else .nan
    by_cases h : s = t
    · rw [h]
    · rw [if_neg h, if_neg (Ne.symm h)]
  · rw [add_num, add_num, Bool.and_comm, _root_.add_comm]

theorem maxDouble_large {x : ℝ} (h : |x| ≤ 100) : |x| ≤ maxDouble := by
  refine h.trans ?_
  unfold maxDouble
  calc (100 : ℝ) ≤ (2 ^ 53 - 1) * 1 := by norm_num
    _ ≤ _ := mul_le_mul_of_nonneg_left (one_le_pow₀ (by norm_num)) (by norm_num)

instance : SignedZeros Dbl where
  eq_or x y h := by
    have h1 : XR.eq x.toXR y.toXR = true := h
    rcases x with _ | s | ⟨s, x⟩ <;> rcases y with _ | t | ⟨t, y⟩
    · simp [toXR, XR.eq] at h1
    · cases t <;> simp [toXR, XR.eq] at h1
    · simp [toXR, XR.eq] at h1
    · cases s <;> simp [toXR, XR.eq] at h1
    · cases s <;> cases t <;> simp [toXR, XR.eq] at h1 ⊢
    · cases s <;> simp [toXR, XR.eq] at h1
    · simp [toXR, XR.eq] at h1
    · cases t <;> simp [toXR, XR.eq] at h1
    · simp only [toXR, XR.eq, decide_eq_true_eq] at h1
      have h2 : x.1 = y.1 := by rw [← abs_val s x, ← abs_val t y, h1]
      by_cases h3 : s = t
      · exact .inl (num_ext h3 h2)
      · have h4 : x.1 = 0 := by
          have h5 := x.2.1
          cases s <;> cases t <;> first | exact (h3 rfl).elim | skip
          · have : x.1 = -y.1 := h1
            linarith
          · have : -x.1 = y.1 := h1
            linarith
        exact .inr ⟨(Dbl.isZero_iff _).2 ⟨s, num_ext rfl h4⟩, (Dbl.isZero_iff _).2 ⟨t, num_ext rfl (h2 ▸ h4)⟩⟩
  neg x h := by
    obtain ⟨s, rfl⟩ := (Dbl.isZero_iff _).1 h
    exact (Dbl.isZero_iff _).2 ⟨!s, rfl⟩
  decibel x h := by
    obtain ⟨s, rfl⟩ := (Dbl.isZero_iff _).1 h
    have h1 : (0.1 : Dbl).Finite := (ofReal_close false (maxDouble_large (by norm_num))).1
    have h2 : (FArith.ln10 : Dbl).Finite := (ofReal_close false (maxDouble_large (by
      rw [abs_of_nonneg (Real.log_nonneg (by norm_num))]
      exact (Real.log_le_sub_one_of_pos (by norm_num)).trans (by norm_num)))).1
    obtain ⟨t, ht⟩ := Dbl.zero_mul (s := s) h1
    obtain ⟨r, hr⟩ := Dbl.zero_mul (s := t) h2
    exact (Dbl.isZero_iff _).2 ⟨r, by rw [ht, hr]⟩
  div20 x h := by
    obtain ⟨s, rfl⟩ := (Dbl.isZero_iff _).1 h
    have h1 := ofReal_isDouble false (isDouble_int (i := 20) (by norm_num))
    have e : (20 : Dbl) = ofReal false ((20 : ℤ) : ℝ) := rfl
    rw [← e] at h1
    rcases h20 : (20 : Dbl) with _ | t | ⟨t, y⟩ <;> rw [h20] at h1
    · exact h1.1.elim
    · exact h1.1.elim
    · have hy : y.1 ≠ 0 := fun h0 => by
        have := abs_val t y
        rw [h1.2, h0] at this
        norm_num at this
      refine (Dbl.isZero_iff _).2 ⟨s ^^ t, ?_⟩
      show (if y.1 = 0 then _ else ofReal (s ^^ t) (val (zero s) / _)) = _
      rw [if_neg hy, val_zero, zero_div, ofReal_zero]
  exp x y hx hy := by
    obtain ⟨s, rfl⟩ := (Dbl.isZero_iff _).1 hx
    obtain ⟨t, rfl⟩ := (Dbl.isZero_iff _).1 hy
    show ofXR false (XR.exp (zero s).toXR) = ofXR false (XR.exp (zero t).toXR)
    rw [toXR_zero, toXR_zero]
  pow x y hx hy := by
    obtain ⟨s, rfl⟩ := (Dbl.isZero_iff _).1 hx
    obtain ⟨t, rfl⟩ := (Dbl.isZero_iff _).1 hy
    show ofXR false (XR.pow _ (zero s).toXR) = ofXR false (XR.pow _ (zero t).toXR)
    rw [toXR_zero, toXR_zero]
  fabs x y hx hy := by
    obtain ⟨s, rfl⟩ := (Dbl.isZero_iff _).1 hx
    obtain ⟨t, rfl⟩ := (Dbl.isZero_iff _).1 hy
    rfl
  lt x y hx hy := by
    obtain ⟨s, rfl⟩ := (Dbl.isZero_iff _).1 hx
    obtain ⟨t, rfl⟩ := (Dbl.isZero_iff _).1 hy
    show XR.lt (zero s).toXR _ = XR.lt (zero t).toXR _
    rw [toXR_zero, toXR_zero]
  le z x y hx hy := by
    obtain ⟨s, rfl⟩ := (Dbl.isZero_iff _).1 hx
    obtain ⟨t, rfl⟩ := (Dbl.isZero_iff _).1 hy
    show XR.le _ (zero s).toXR = XR.le _ (zero t).toXR
    rw [toXR_zero, toXR_zero]
  sub x y hx hy := by
    obtain ⟨s, rfl⟩ := (Dbl.isZero_iff _).1 hx
    obtain ⟨t, rfl⟩ := (Dbl.isZero_iff _).1 hy
    exact (Dbl.isZero_iff _).2 ⟨_, Dbl.zero_add_zero s (!t)⟩
  sub_left x y z hx hy hz := by
    obtain ⟨s, rfl⟩ := (Dbl.isZero_iff _).1 hx
    obtain ⟨t, rfl⟩ := (Dbl.isZero_iff _).1 hy
    refine Dbl.add_zeros fun h => hz ?_
    obtain ⟨r, hr⟩ := (Dbl.isZero_iff _).1 h
    refine (Dbl.isZero_iff _).2 ⟨!r, ?_⟩
    rcases z with _ | a | ⟨a, x⟩
    · cases hr
    · cases hr
    · have : num (!a) x = num r ⟨0, le_rfl, isDouble_zero⟩ := hr
      injection this with h1 h2
      rw [h2, ← h1, Bool.not_not]; rfl
  sub_right x y z hx hy hz := by
    obtain ⟨s, rfl⟩ := (Dbl.isZero_iff _).1 hx
    obtain ⟨t, rfl⟩ := (Dbl.isZero_iff _).1 hy
    rw [sub_def, sub_def, Dbl.neg_zero', Dbl.neg_zero', Dbl.add_comm' z, Dbl.add_comm' z]
    exact Dbl.add_zeros hz

end Iir
