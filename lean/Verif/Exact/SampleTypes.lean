import Verif.Exact.IEEE
import Verif.Model.Cascade
import Verif.Props.Samples

/-! # Sample types other than double, in double arithmetic

`filter<Sample>` converts its argument to `double` and the result back with `static_cast<Sample>` (iir/Cascade.h:156-164,
iir/RBJ.h:70-73).  Here are IEEE 754 binary32 (`float`) and the integer types, as types of their own. -/

namespace Iir

/-- `x` is a finite float. -/
def Spec.IsSingle (x : ℝ) : Prop := ∃ m e : ℤ, |m| < 2 ^ 24 ∧ -149 ≤ e ∧ e ≤ 104 ∧ x = m * (2 : ℝ) ^ e

open Spec

noncomputable section

/-- Exponent of the last bit of the floats around `x`. -/
def ulpExpF (x : ℝ) : ℤ := max (Int.log 2 |x| - 23) (-149)

/-- `x` rounded to a multiple of the last bit; the range of the exponent is not limited above. -/
def roundSingle (x : ℝ) : ℝ := roundEven (x / (2 : ℝ) ^ ulpExpF x) * (2 : ℝ) ^ ulpExpF x

theorem ulp_posF (x : ℝ) : (0 : ℝ) < (2 : ℝ) ^ ulpExpF x := by positivity

theorem roundSingle_zero : roundSingle 0 = 0 := by
  have : roundEven 0 = 0 := by exact_mod_cast roundEven_int 0
  simp [roundSingle, this]

/-- Half a unit in the last place. -/
theorem roundSingle_ulp (x : ℝ) : |roundSingle x - x| ≤ (2 : ℝ) ^ ulpExpF x / 2 := by
  have h := ulp_posF x
  have h1 := roundEven_half (x / (2 : ℝ) ^ ulpExpF x)
  have h2 : roundSingle x - x =
      ((roundEven (x / (2 : ℝ) ^ ulpExpF x) : ℝ) - x / (2 : ℝ) ^ ulpExpF x) * (2 : ℝ) ^ ulpExpF x := by
    unfold roundSingle; rw [sub_mul, div_mul_cancel₀ _ h.ne']
  rw [h2, abs_mul, abs_of_pos h]
  nlinarith

/-- The relative and absolute error of rounding. -/
theorem roundSingle_close (x : ℝ) : |roundSingle x - x| ≤ (1 / 2) ^ 24 * |x| + (1 / 2) ^ 150 := by
  by_cases hx : x = 0
  · subst hx; rw [roundSingle_zero]; simp
  refine (roundSingle_ulp x).trans ?_
  have h1 : (2 : ℝ) ^ (Int.log 2 |x| - 23) / 2 ≤ (1 / 2) ^ 24 * |x| := by
    rw [zpow_sub₀ (by norm_num)]
    have := zpow_log_le hx
    norm_num at this ⊢
    linarith
  have h2 : (2 : ℝ) ^ (-149 : ℤ) / 2 = (1 / 2) ^ 150 := by
    rw [show (-149 : ℤ) = -((149 : ℕ) : ℤ) by norm_num, zpow_neg, zpow_natCast, pow_succ (1 / 2 : ℝ) 149, one_div,
      inv_pow]
    rfl
  unfold ulpExpF
  rcases max_choice (Int.log 2 |x| - 23) (-149) with h | h <;> rw [h]
  · exact h1.trans (le_add_of_nonneg_right (by positivity))
  · rw [h2]
    exact le_add_of_nonneg_left (by positivity)

theorem scaled_ltF (x : ℝ) : |x| / (2 : ℝ) ^ ulpExpF x < 2 ^ 24 := by
  rw [div_lt_iff₀ (ulp_posF x)]
  refine (lt_zpow_log x).trans_le ?_
  have : Int.log 2 |x| + 1 ≤ 24 + ulpExpF x := by
    have := le_max_left (Int.log 2 |x| - 23) (-149)
    unfold ulpExpF; omega
  calc (2 : ℝ) ^ (Int.log 2 |x| + 1) ≤ (2 : ℝ) ^ (24 + ulpExpF x) := zpow_le_zpow_right₀ (by norm_num) this
    _ = 2 ^ 24 * (2 : ℝ) ^ ulpExpF x := by rw [zpow_add₀ (by norm_num)]; norm_num

/-- Rounding a magnitude gives a float unless it overflows. -/
theorem isSingle_roundSingle {x : ℝ} (hx : 0 ≤ x) (h : roundSingle x < 2 ^ 128) :
    0 ≤ roundSingle x ∧ IsSingle (roundSingle x) := by
  have hpos := ulp_posF x
  have hs := scaled_ltF x
  rw [abs_of_nonneg hx] at hs
  set t := x / (2 : ℝ) ^ ulpExpF x with ht
  have ht0 : 0 ≤ t := by positivity
  have hm0 : 0 ≤ roundEven t := le_roundEven (by exact_mod_cast ht0)
  have hm1 : roundEven t ≤ 2 ^ 24 := roundEven_le (by exact_mod_cast hs.le)
  have hr : roundSingle x = roundEven t * (2 : ℝ) ^ ulpExpF x := rfl
  refine ⟨by rw [hr]; have : (0 : ℝ) ≤ roundEven t := by exact_mod_cast hm0
             positivity, ?_⟩
  have he0 : -149 ≤ ulpExpF x := le_max_right _ _
  rcases hm1.lt_or_eq with hlt | heq
  · refine ⟨roundEven t, ulpExpF x, by rw [abs_of_nonneg hm0]; exact hlt, he0, ?_, hr⟩
    rcases max_choice (Int.log 2 |x| - 23) (-149) with hc | hc
    · have hc' : ulpExpF x = Int.log 2 |x| - 23 := hc
      by_cases hx0 : x = 0
      · subst hx0; rw [hc']; simp
      have h1 : (2 : ℝ) ^ 23 ≤ t := by
        rw [ht, le_div_iff₀ hpos, hc', zpow_sub₀ (by norm_num)]
        have := zpow_log_le hx0
        rw [abs_of_nonneg hx] at this ⊢
        norm_num at this ⊢
        linarith
      have h2 : (2 : ℤ) ^ 23 ≤ roundEven t := le_roundEven (by exact_mod_cast h1)
      have h3 : (2 : ℝ) ^ (23 + ulpExpF x) < (2 : ℝ) ^ (128 : ℤ) := by
        rw [zpow_add₀ (by norm_num)]
        have h4 : (2 : ℝ) ^ 23 ≤ roundEven t := by exact_mod_cast h2
        have h5 : (2 : ℝ) ^ 23 * (2 : ℝ) ^ ulpExpF x ≤ roundSingle x := by
          rw [hr]; exact mul_le_mul_of_nonneg_right h4 hpos.le
        refine lt_of_le_of_lt ?_ (lt_of_lt_of_eq h (zpow_natCast 2 128).symm)
        exact_mod_cast h5
      have := (zpow_lt_zpow_iff_right₀ (by norm_num : (1 : ℝ) < 2)).1 h3
      omega
    · have hc' : ulpExpF x = -149 := hc
      omega
  · have hr2 : roundSingle x = ((2 ^ 23 : ℤ) : ℝ) * (2 : ℝ) ^ (ulpExpF x + 1) := by
      rw [hr, heq, zpow_add₀ (by norm_num)]; push_cast; ring
    refine ⟨2 ^ 23, ulpExpF x + 1, by norm_num, by omega, ?_, hr2⟩
    have h3 : (2 : ℝ) ^ (23 + (ulpExpF x + 1)) < (2 : ℝ) ^ (128 : ℤ) := by
      rw [zpow_add₀ (by norm_num)]
      refine lt_of_eq_of_lt ?_ (lt_of_lt_of_eq h (zpow_natCast 2 128).symm)
      rw [hr2]; push_cast; exact_mod_cast rfl
    have := (zpow_lt_zpow_iff_right₀ (by norm_num : (1 : ℝ) < 2)).1 h3
    omega

/-- No float is nearer. -/
theorem roundSingle_nearest (x : ℝ) {y : ℝ} (hy : IsSingle y) : |roundSingle x - x| ≤ |y - x| := by
  by_cases hx0 : x = 0
  · rw [hx0, roundSingle_zero, sub_zero, abs_zero]; exact abs_nonneg _
  have hpos := ulp_posF x
  have key : ∀ k : ℤ, |roundSingle x - x| ≤ |k * (2 : ℝ) ^ ulpExpF x - x| := by
    intro k
    have h1 := roundEven_nearest (x / (2 : ℝ) ^ ulpExpF x) k
    have h2 : ∀ a : ℝ, a * (2 : ℝ) ^ ulpExpF x - x = (a - x / (2 : ℝ) ^ ulpExpF x) * (2 : ℝ) ^ ulpExpF x := fun a => by
      rw [sub_mul, div_mul_cancel₀ _ hpos.ne']
    unfold roundSingle
    rw [h2, h2, abs_mul, abs_mul]
    exact mul_le_mul_of_nonneg_right h1 (abs_nonneg _)
  obtain ⟨m, e, hm, he0, he1, rfl⟩ := hy
  rcases le_or_gt (ulpExpF x) e with he | he
  · obtain ⟨j, hj⟩ := Int.eq_ofNat_of_zero_le (sub_nonneg.2 he)
    have : (m : ℝ) * (2 : ℝ) ^ e = ((m * 2 ^ j : ℤ) : ℝ) * (2 : ℝ) ^ ulpExpF x := by
      rw [show e = (j : ℤ) + ulpExpF x by omega, zpow_add₀ (by norm_num)]; push_cast; rw [zpow_natCast]; ring
    rw [this]; exact key _
  · have hc : ulpExpF x = Int.log 2 |x| - 23 := by
      rcases max_choice (Int.log 2 |x| - 23) (-149) with hc | hc
      · exact hc
      · have : ulpExpF x = -149 := hc
        omega
    have hl := zpow_log_le hx0
    have hy : |(m : ℝ) * (2 : ℝ) ^ e| ≤ (2 : ℝ) ^ Int.log 2 |x| := by
      rw [abs_mul, abs_of_pos (by positivity : (0 : ℝ) < (2 : ℝ) ^ e)]
      have h1 : |(m : ℝ)| ≤ 2 ^ 24 := by exact_mod_cast hm.le
      calc |(m : ℝ)| * (2 : ℝ) ^ e ≤ 2 ^ 24 * (2 : ℝ) ^ e := mul_le_mul_of_nonneg_right h1 (by positivity)
        _ = (2 : ℝ) ^ (24 + e) := by rw [zpow_add₀ (by norm_num)]; norm_num
        _ ≤ _ := zpow_le_zpow_right₀ (by norm_num) (by omega)
    have hz : ∀ s : ℤ, (s : ℝ) * (2 : ℝ) ^ Int.log 2 |x| = ((s * 2 ^ 23 : ℤ) : ℝ) * (2 : ℝ) ^ ulpExpF x := fun s => by
      rw [hc, zpow_sub₀ (by norm_num)]; push_cast; norm_num; ring
    have h1 := key ((-1) * 2 ^ 23)
    have h2 := key (1 * 2 ^ 23)
    rw [← hz] at h1 h2
    push_cast at h1 h2
    generalize (2 : ℝ) ^ Int.log 2 |x| = L at *
    have h3 := abs_le.1 hy
    rcases lt_or_gt_of_ne hx0 with hx | hx
    · refine h1.trans ?_
      rw [abs_of_neg hx] at hl
      rw [abs_of_nonneg (by linarith), abs_of_nonneg (by linarith)]
      linarith
    · refine h2.trans ?_
      rw [abs_of_pos hx] at hl
      rw [abs_of_nonpos (by linarith), abs_of_nonpos (by linarith)]
      linarith

/-- A float is rounded to itself. -/
theorem roundSingle_isSingle {x : ℝ} (hx : IsSingle x) : roundSingle x = x := by
  have := roundSingle_nearest x hx
  rw [sub_self, abs_zero] at this
  exact sub_eq_zero.1 (abs_eq_zero.1 (le_antisymm this (abs_nonneg _)))


/-- The largest float. -/
def maxSingle : ℝ := (2 ^ 24 - 1) * 2 ^ 104

theorem isSingle_maxSingle : IsSingle maxSingle :=
  ⟨2 ^ 24 - 1, 104, by norm_num, by norm_num, by norm_num, by
    unfold maxSingle; rw [show ((104 : ℤ)) = ((104 : ℕ) : ℤ) by norm_num, zpow_natCast]; norm_num⟩

theorem roundSingle_le {x : ℝ} (h : x ≤ maxSingle) : roundSingle x ≤ maxSingle := by
  have h1 := roundSingle_nearest x isSingle_maxSingle
  rw [abs_of_nonneg (sub_nonneg.2 h)] at h1
  exact sub_le_sub_iff_right _ |>.1 (abs_le.1 h1).2

theorem roundSingle_spec {x : ℝ} (h0 : 0 ≤ x) (h : x ≤ maxSingle) : 0 ≤ roundSingle x ∧ IsSingle (roundSingle x) :=
  isSingle_roundSingle h0 ((roundSingle_le h).trans_lt (by unfold maxSingle; norm_num))

theorem Spec.IsSingle.isDouble {x : ℝ} : IsSingle x → IsDouble x
  | ⟨m, e, h1, h2, h3, h4⟩ => ⟨m, e, h1.trans (by norm_num), by omega, by omega, h4⟩

theorem Spec.IsSingle.le_max {x : ℝ} (h : IsSingle x) : x ≤ maxSingle := by
  obtain ⟨m, e, a, b, c, d⟩ := h
  rw [d]
  have h3 : (m : ℝ) ≤ 2 ^ 24 - 1 := by
    have : m ≤ 2 ^ 24 - 1 := by have := le_abs_self m; omega
    exact_mod_cast this
  have h4 : (2 : ℝ) ^ e ≤ 2 ^ 104 := by
    rw [← zpow_natCast]; exact zpow_le_zpow_right₀ (by norm_num) (by exact_mod_cast c)
  exact (mul_le_mul_of_nonneg_right h3 (by positivity)).trans (mul_le_mul_of_nonneg_left h4 (by norm_num))

/-! ## `float` -/

/-- A double that is also a float: NaN, the infinities, and the finite ones. -/
def Dbl.IsFlt : Dbl → Prop
  | .num _ x => IsSingle x.1
  | _ => True

/-- IEEE 754 binary32.  All are doubles; the conversion to `double` is exact. -/
def Flt : Type := {d : Dbl // d.IsFlt}

namespace Flt

/-- The real number a finite float stands for. -/
def val (t : Flt) : ℝ := Dbl.val t.1

/-- Is it finite? -/
def Finite (t : Flt) : Prop := Dbl.Finite t.1

open Classical in
/-- `static_cast<float> (double)` in iir/Cascade.h:163 and iir/RBJ.h:72: rounded to the nearest float, ties to even.  A number
above the largest float is not between two floats: undefined ([conv.double]). -/
def cast : Dbl → Res Flt
  | .nan => .ok ⟨.nan, trivial⟩
  | .inf s => .ok ⟨.inf s, trivial⟩
  | .num s x =>
    if h : x.1 ≤ maxSingle then
      .ok ⟨.num s ⟨roundSingle x.1, (roundSingle_spec x.2.1 h).1, (roundSingle_spec x.2.1 h).2.isDouble⟩,
        (roundSingle_spec x.2.1 h).2⟩
    else .ub .castOutOfRange

end Flt

/-- `Sample = float` (iir/Cascade.h:158, iir/RBJ.h:72: `double out = in`, `(double) s`). -/
instance : Sample Flt Dbl := ⟨Subtype.val, Flt.cast⟩

/-! ## Integers -/

/-- An integer type with the values `lo..hi`. -/
def BoundedInt (lo hi : ℤ) : Type := {i : ℤ // lo ≤ i ∧ i ≤ hi}

/-- `std::int16_t` -/
abbrev Int16T : Type := BoundedInt (-2 ^ 15) (2 ^ 15 - 1)
/-- `std::int32_t` -/
abbrev Int32T : Type := BoundedInt (-2 ^ 31) (2 ^ 31 - 1)
/-- `std::uint8_t` -/
abbrev UInt8T : Type := BoundedInt 0 (2 ^ 8 - 1)

open Classical in
/-- `static_cast<Sample> (double)` in iir/Cascade.h:163 and iir/RBJ.h:72 for an integer type: truncation; undefined if the
truncated value does not fit, for NaN and for infinities ([conv.fpint]). -/
def BoundedInt.cast (lo hi : ℤ) : Dbl → Res (BoundedInt lo hi)
  | .num s x =>
    if h : lo ≤ truncR (Dbl.val (.num s x)) ∧ truncR (Dbl.val (.num s x)) ≤ hi then .ok ⟨_, h⟩ else .ub .castOutOfRange
  | _ => .ub .castOutOfRange

/-- An integer type as `Sample`; the conversion to `double` (iir/Cascade.h:158, iir/RBJ.h:72) is the nearest double: exact below
`2^53`. -/
instance (lo hi : ℤ) : Sample (BoundedInt lo hi) Dbl := ⟨fun i => .ofReal false (i.1 : ℝ), BoundedInt.cast lo hi⟩

end

end Iir
