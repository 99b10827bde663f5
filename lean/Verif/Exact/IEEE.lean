import Verif.Exact.XR
import Mathlib.Data.Int.Log
import Mathlib.Algebra.Order.Round

/-! # IEEE 754 binary64

The finite doubles are the reals `m · 2^e` with integers `|m| < 2^53`, `-1074 ≤ e ≤ 971`.  Sums, differences, products,
quotients and square roots are the exact results rounded to the nearest double, ties to even; zeros have a sign.  The
functions of the math library are taken to be rounded correctly. -/

namespace Iir

/-- `x` is a finite double. -/
def Spec.IsDouble (x : ℝ) : Prop := ∃ m e : ℤ, |m| < 2 ^ 53 ∧ -1074 ≤ e ∧ e ≤ 971 ∧ x = m * (2 : ℝ) ^ e

open Spec

noncomputable section

/-- The integer next to `x`, the even one of two. -/
def roundEven (x : ℝ) : ℤ :=
  if Int.fract x < 1 / 2 then ⌊x⌋
  else if 1 / 2 < Int.fract x then ⌊x⌋ + 1
  else if Even ⌊x⌋ then ⌊x⌋ else ⌊x⌋ + 1

/-- Exponent of the last bit of the doubles around `x`. -/
def ulpExp (x : ℝ) : ℤ := max (Int.log 2 |x| - 52) (-1074)

/-- `x` rounded to a multiple of the last bit; the range of the exponent is not limited above. -/
def roundReal (x : ℝ) : ℝ := roundEven (x / (2 : ℝ) ^ ulpExp x) * (2 : ℝ) ^ ulpExp x

theorem roundEven_or (x : ℝ) : (roundEven x = ⌊x⌋ ∧ Int.fract x ≤ 1 / 2) ∨
    (roundEven x = ⌊x⌋ + 1 ∧ 1 / 2 ≤ Int.fract x) := by
  unfold roundEven
  split_ifs with h1 h2 h3
  · exact .inl ⟨rfl, h1.le⟩
  · exact .inr ⟨rfl, h2.le⟩
  · exact .inl ⟨rfl, not_lt.1 h2⟩
  · exact .inr ⟨rfl, not_lt.1 h1⟩

theorem roundEven_nearest (x : ℝ) (k : ℤ) : |(roundEven x : ℝ) - x| ≤ |(k : ℝ) - x| := by
  have h0 := Int.fract_add_floor x
  have h1 := Int.fract_nonneg x
  have h2 := Int.fract_lt_one x
  rcases le_or_gt k ⌊x⌋ with hk | hk
  · have hk' : (k : ℝ) ≤ ⌊x⌋ := by exact_mod_cast hk
    rw [abs_sub_comm (k : ℝ), abs_of_nonneg (by linarith : (0 : ℝ) ≤ x - k)]
    rcases roundEven_or x with ⟨h, h'⟩ | ⟨h, h'⟩ <;> rw [h] <;> push_cast <;> exact abs_le.2 ⟨by linarith, by linarith⟩
  · have hk' : (⌊x⌋ : ℝ) + 1 ≤ k := by exact_mod_cast hk
    rw [abs_of_nonneg (by linarith : (0 : ℝ) ≤ k - x)]
    rcases roundEven_or x with ⟨h, h'⟩ | ⟨h, h'⟩ <;> rw [h] <;> push_cast <;> exact abs_le.2 ⟨by linarith, by linarith⟩

theorem roundEven_half (x : ℝ) : |(roundEven x : ℝ) - x| ≤ 1 / 2 := by
  have h0 := Int.fract_add_floor x
  have h1 := Int.fract_nonneg x
  have h2 := Int.fract_lt_one x
  rcases roundEven_or x with ⟨h, h'⟩ | ⟨h, h'⟩ <;> rw [h] <;> push_cast <;> exact abs_le.2 ⟨by linarith, by linarith⟩

theorem roundEven_even {x : ℝ} (h : Int.fract x = 1 / 2) : Even (roundEven x) := by
  unfold roundEven
  rw [if_neg (by rw [h]; exact lt_irrefl _), if_neg (by rw [h]; exact lt_irrefl _)]
  split_ifs with h1
  · exact h1
  · exact Int.even_add_one.2 h1

theorem roundEven_int (k : ℤ) : roundEven (k : ℝ) = k := by simp [roundEven]

theorem roundEven_le {x : ℝ} {k : ℤ} (h : x ≤ k) : roundEven x ≤ k := by
  rcases roundEven_or x with ⟨h1, h2⟩ | ⟨h1, h2⟩ <;> rw [h1]
  · exact_mod_cast (Int.floor_le x).trans h
  · have h3 := Int.fract_add_floor x
    have : (⌊x⌋ : ℝ) < k := by linarith
    exact_mod_cast this

theorem le_roundEven {x : ℝ} {k : ℤ} (h : (k : ℝ) ≤ x) : k ≤ roundEven x := by
  have h3 : k ≤ ⌊x⌋ := Int.le_floor.2 h
  rcases roundEven_or x with ⟨h1, h2⟩ | ⟨h1, h2⟩ <;> rw [h1] <;> omega

theorem zpow_log_le {x : ℝ} (hx : x ≠ 0) : (2 : ℝ) ^ Int.log 2 |x| ≤ |x| := by
  have := Int.zpow_log_le_self (R := ℝ) (b := 2) (r := |x|) (by norm_num) (abs_pos.2 hx)
  simpa using this

theorem lt_zpow_log (x : ℝ) : |x| < (2 : ℝ) ^ (Int.log 2 |x| + 1) := by
  have := Int.lt_zpow_succ_log_self (R := ℝ) (b := 2) (by norm_num) |x|
  simpa using this

theorem ulp_pos (x : ℝ) : (0 : ℝ) < (2 : ℝ) ^ ulpExp x := by positivity

theorem roundReal_zero : roundReal 0 = 0 := by
  have : roundEven 0 = 0 := by exact_mod_cast roundEven_int 0
  simp [roundReal, this]

/-- Half a unit in the last place. -/
theorem roundReal_ulp (x : ℝ) : |roundReal x - x| ≤ (2 : ℝ) ^ ulpExp x / 2 := by
  have h := ulp_pos x
  have h1 := roundEven_half (x / (2 : ℝ) ^ ulpExp x)
  have h2 : roundReal x - x =
      ((roundEven (x / (2 : ℝ) ^ ulpExp x) : ℝ) - x / (2 : ℝ) ^ ulpExp x) * (2 : ℝ) ^ ulpExp x := by
    unfold roundReal; rw [sub_mul, div_mul_cancel₀ _ h.ne']
  rw [h2, abs_mul, abs_of_pos h]
  nlinarith

/-- The relative and absolute error of rounding. -/
theorem roundReal_close (x : ℝ) : |roundReal x - x| ≤ (1 / 2) ^ 53 * |x| + (1 / 2) ^ 1075 := by
  by_cases hx : x = 0
  · subst hx; rw [roundReal_zero]; simp
  refine (roundReal_ulp x).trans ?_
  have h1 : (2 : ℝ) ^ (Int.log 2 |x| - 52) / 2 ≤ (1 / 2) ^ 53 * |x| := by
    rw [zpow_sub₀ (by norm_num)]
    have := zpow_log_le hx
    norm_num at this ⊢
    linarith
  have h2 : (2 : ℝ) ^ (-1074 : ℤ) / 2 = (1 / 2) ^ 1075 := by
    rw [show (-1074 : ℤ) = -((1074 : ℕ) : ℤ) by norm_num, zpow_neg, zpow_natCast, pow_succ (1 / 2 : ℝ) 1074, one_div,
      inv_pow]
    rfl
  unfold ulpExp
  rcases max_choice (Int.log 2 |x| - 52) (-1074) with h | h <;> rw [h]
  · exact h1.trans (le_add_of_nonneg_right (by positivity))
  · rw [h2]
    exact le_add_of_nonneg_left (by positivity)

theorem scaled_lt (x : ℝ) : |x| / (2 : ℝ) ^ ulpExp x < 2 ^ 53 := by
  rw [div_lt_iff₀ (ulp_pos x)]
  refine (lt_zpow_log x).trans_le ?_
  have : Int.log 2 |x| + 1 ≤ 53 + ulpExp x := by
    have := le_max_left (Int.log 2 |x| - 52) (-1074)
    unfold ulpExp; omega
  calc (2 : ℝ) ^ (Int.log 2 |x| + 1) ≤ (2 : ℝ) ^ (53 + ulpExp x) := zpow_le_zpow_right₀ (by norm_num) this
    _ = 2 ^ 53 * (2 : ℝ) ^ ulpExp x := by rw [zpow_add₀ (by norm_num)]; norm_num

/-- Rounding a magnitude gives a double unless it overflows. -/
theorem isDouble_roundReal {x : ℝ} (hx : 0 ≤ x) (h : roundReal x < 2 ^ 1024) :
    0 ≤ roundReal x ∧ IsDouble (roundReal x) := by
  have hpos := ulp_pos x
  have hs := scaled_lt x
  rw [abs_of_nonneg hx] at hs
  set t := x / (2 : ℝ) ^ ulpExp x with ht
  have ht0 : 0 ≤ t := by positivity
  have hm0 : 0 ≤ roundEven t := le_roundEven (by exact_mod_cast ht0)
  have hm1 : roundEven t ≤ 2 ^ 53 := roundEven_le (by exact_mod_cast hs.le)
  have hr : roundReal x = roundEven t * (2 : ℝ) ^ ulpExp x := rfl
  refine ⟨by rw [hr]; have : (0 : ℝ) ≤ roundEven t := by exact_mod_cast hm0
             positivity, ?_⟩
  have he0 : -1074 ≤ ulpExp x := le_max_right _ _
  rcases hm1.lt_or_eq with hlt | heq
  · refine ⟨roundEven t, ulpExp x, by rw [abs_of_nonneg hm0]; exact hlt, he0, ?_, hr⟩
    rcases max_choice (Int.log 2 |x| - 52) (-1074) with hc | hc
    · have hc' : ulpExp x = Int.log 2 |x| - 52 := hc
      by_cases hx0 : x = 0
      · subst hx0; rw [hc']; simp
      have h1 : (2 : ℝ) ^ 52 ≤ t := by
        rw [ht, le_div_iff₀ hpos, hc', zpow_sub₀ (by norm_num)]
        have := zpow_log_le hx0
        rw [abs_of_nonneg hx] at this ⊢
        norm_num at this ⊢
        linarith
      have h2 : (2 : ℤ) ^ 52 ≤ roundEven t := le_roundEven (by exact_mod_cast h1)
      have h3 : (2 : ℝ) ^ (52 + ulpExp x) < (2 : ℝ) ^ (1024 : ℤ) := by
        rw [zpow_add₀ (by norm_num)]
        have h4 : (2 : ℝ) ^ 52 ≤ roundEven t := by exact_mod_cast h2
        have h5 : (2 : ℝ) ^ 52 * (2 : ℝ) ^ ulpExp x ≤ roundReal x := by
          rw [hr]; exact mul_le_mul_of_nonneg_right h4 hpos.le
        refine lt_of_le_of_lt ?_ (lt_of_lt_of_eq h (zpow_natCast 2 1024).symm)
        exact_mod_cast h5
      have := (zpow_lt_zpow_iff_right₀ (by norm_num : (1 : ℝ) < 2)).1 h3
      omega
    · have hc' : ulpExp x = -1074 := hc
      omega
  · have hr2 : roundReal x = ((2 ^ 52 : ℤ) : ℝ) * (2 : ℝ) ^ (ulpExp x + 1) := by
      rw [hr, heq, zpow_add₀ (by norm_num)]; push_cast; ring
    refine ⟨2 ^ 52, ulpExp x + 1, by norm_num, by omega, ?_, hr2⟩
    have h3 : (2 : ℝ) ^ (52 + (ulpExp x + 1)) < (2 : ℝ) ^ (1024 : ℤ) := by
      rw [zpow_add₀ (by norm_num)]
      refine lt_of_eq_of_lt ?_ (lt_of_lt_of_eq h (zpow_natCast 2 1024).symm)
      rw [hr2]; push_cast; exact_mod_cast rfl
    have := (zpow_lt_zpow_iff_right₀ (by norm_num : (1 : ℝ) < 2)).1 h3
    omega

/-- No double is nearer. -/
theorem roundReal_nearest (x : ℝ) {y : ℝ} (hy : IsDouble y) : |roundReal x - x| ≤ |y - x| := by
  by_cases hx0 : x = 0
  · rw [hx0, roundReal_zero, sub_zero, abs_zero]; exact abs_nonneg _
  have hpos := ulp_pos x
  have key : ∀ k : ℤ, |roundReal x - x| ≤ |k * (2 : ℝ) ^ ulpExp x - x| := by
    intro k
    have h1 := roundEven_nearest (x / (2 : ℝ) ^ ulpExp x) k
    have h2 : ∀ a : ℝ, a * (2 : ℝ) ^ ulpExp x - x = (a - x / (2 : ℝ) ^ ulpExp x) * (2 : ℝ) ^ ulpExp x := fun a => by
      rw [sub_mul, div_mul_cancel₀ _ hpos.ne']
    unfold roundReal
    rw [h2, h2, abs_mul, abs_mul]
    exact mul_le_mul_of_nonneg_right h1 (abs_nonneg _)
  obtain ⟨m, e, hm, he0, he1, rfl⟩ := hy
  rcases le_or_gt (ulpExp x) e with he | he
  · obtain ⟨j, hj⟩ := Int.eq_ofNat_of_zero_le (sub_nonneg.2 he)
    have : (m : ℝ) * (2 : ℝ) ^ e = ((m * 2 ^ j : ℤ) : ℝ) * (2 : ℝ) ^ ulpExp x := by
      rw [show e = (j : ℤ) + ulpExp x by omega, zpow_add₀ (by norm_num)]; push_cast; rw [zpow_natCast]; ring
    rw [this]; exact key _
  · have hc : ulpExp x = Int.log 2 |x| - 52 := by
      rcases max_choice (Int.log 2 |x| - 52) (-1074) with hc | hc
      · exact hc
      · have : ulpExp x = -1074 := hc
        omega
    have hl := zpow_log_le hx0
    have hy : |(m : ℝ) * (2 : ℝ) ^ e| ≤ (2 : ℝ) ^ Int.log 2 |x| := by
      rw [abs_mul, abs_of_pos (by positivity : (0 : ℝ) < (2 : ℝ) ^ e)]
      have h1 : |(m : ℝ)| ≤ 2 ^ 53 := by exact_mod_cast hm.le
      calc |(m : ℝ)| * (2 : ℝ) ^ e ≤ 2 ^ 53 * (2 : ℝ) ^ e := mul_le_mul_of_nonneg_right h1 (by positivity)
        _ = (2 : ℝ) ^ (53 + e) := by rw [zpow_add₀ (by norm_num)]; norm_num
        _ ≤ _ := zpow_le_zpow_right₀ (by norm_num) (by omega)
    have hz : ∀ s : ℤ, (s : ℝ) * (2 : ℝ) ^ Int.log 2 |x| = ((s * 2 ^ 52 : ℤ) : ℝ) * (2 : ℝ) ^ ulpExp x := fun s => by
      rw [hc, zpow_sub₀ (by norm_num)]; push_cast; norm_num; ring
    have h1 := key ((-1) * 2 ^ 52)
    have h2 := key (1 * 2 ^ 52)
    rw [← hz] at h1 h2
    push_cast at h1 h2
    generalize (2 : ℝ) ^ Int.log 2 |x| = L at *
    have h3 := abs_le.1 hy
    rcases lt_or_gt_of_ne hx0 with hx | hx
    · refine h1.trans ?_
      rw [abs_of_neg hx] at hl
      rw [abs_of_nonneg (by linarith), abs_of_nonneg (by linarith)]
      linarith
    · refine h2.trans ?_
      rw [abs_of_pos hx] at hl
      rw [abs_of_nonpos (by linarith), abs_of_nonpos (by linarith)]
      linarith

/-- A double is rounded to itself. -/
theorem roundReal_isDouble {x : ℝ} (hx : IsDouble x) : roundReal x = x := by
  have := roundReal_nearest x hx
  rw [sub_self, abs_zero] at this
  exact sub_eq_zero.1 (abs_eq_zero.1 (le_antisymm this (abs_nonneg _)))

/-- The largest double. -/
def maxDouble : ℝ := (2 ^ 53 - 1) * 2 ^ 971

theorem isDouble_maxDouble : IsDouble maxDouble :=
  ⟨2 ^ 53 - 1, 971, by norm_num, by norm_num, by norm_num, by
    unfold maxDouble; rw [show ((971 : ℤ)) = ((971 : ℕ) : ℤ) by norm_num, zpow_natCast]; norm_num⟩

theorem maxDouble_lt : maxDouble < 2 ^ 1024 := by
  unfold maxDouble
  rw [show (1024 : ℕ) = 53 + 971 by norm_num, pow_add]
  exact mul_lt_mul_of_pos_right (by norm_num) (by positivity)

theorem roundReal_lt {x : ℝ} (h : |x| ≤ maxDouble) : roundReal |x| < 2 ^ 1024 := by
  have h1 := roundReal_nearest |x| isDouble_maxDouble
  rw [abs_of_nonneg (sub_nonneg.2 h)] at h1
  exact lt_of_le_of_lt (sub_le_sub_iff_right _ |>.1 (abs_le.1 h1).2) maxDouble_lt

/-! ## The numbers -/

/-- The doubles: NaN, the infinities, and finite numbers as sign (`true` for negative) and magnitude. -/
inductive Dbl
  | nan
  | inf (neg : Bool)
  | num (neg : Bool) (x : {x : ℝ // 0 ≤ x ∧ IsDouble x})

namespace Dbl

/-- Sign bit (of NaN: clear). -/
def sign : Dbl → Bool
  | nan => false
  | inf s => s
  | num s _ => s

/-- The real number a finite double stands for (0 for the others). -/
def val : Dbl → ℝ
  | num true x => -x.1
  | num false x => x.1
  | _ => 0

/-- The extended real number a double stands for. -/
def toXR : Dbl → XR
  | nan => .nan
  | inf true => .ninf
  | inf false => .pinf
  | num s x => .fin (val (num s x))

/-- Is it finite? -/
def Finite : Dbl → Prop
  | num _ _ => True
  | _ => False

open Classical in
/-- The magnitude of `x`, rounded, with the given sign. -/
def ofMag (s : Bool) (x : ℝ) : Dbl :=
  if h : roundReal |x| < 2 ^ 1024 then num s ⟨roundReal |x|, isDouble_roundReal (abs_nonneg x) h⟩ else inf s

open Classical in
/-- `x` rounded; an exact zero gets the sign `s`. -/
def ofReal (s : Bool) (x : ℝ) : Dbl := ofMag (if x = 0 then s else decide (x < 0)) x

/-- The result of a library function, rounded; an exact zero gets the sign `s`. -/
def ofXR (s : Bool) : XR → Dbl
  | .nan => nan
  | .ninf => inf true
  | .pinf => inf false
  | .fin x => ofReal s x

def neg : Dbl → Dbl
  | nan => nan
  | inf s => inf !s
  | num s x => num (!s) x

/-- An exact sum of zero is `+0` unless both are `-0`. -/
def add : Dbl → Dbl → Dbl
  | nan, _ => nan
  | _, nan => nan
  | inf s, inf t => if s = t then inf s else nan
  | inf s, num _ _ => inf s
  | num _ _, inf t => inf t
  | num s x, num t y => ofReal (s && t) (val (num s x) + val (num t y))

def sub (a b : Dbl) : Dbl := add a (neg b)

open Classical in
def mul : Dbl → Dbl → Dbl
  | nan, _ => nan
  | _, nan => nan
  | inf s, inf t => inf (s ^^ t)
  | inf s, num t y => if y.1 = 0 then nan else inf (s ^^ t)
  | num s x, inf t => if x.1 = 0 then nan else inf (s ^^ t)
  | num s x, num t y => ofReal (s ^^ t) (val (num s x) * val (num t y))

open Classical in
def div : Dbl → Dbl → Dbl
  | nan, _ => nan
  | _, nan => nan
  | inf _, inf _ => nan
  | inf s, num t _ => inf (s ^^ t)
  | num s _, inf t => ofReal (s ^^ t) 0
  | num s x, num t y =>
    if y.1 = 0 then (if x.1 = 0 then nan else inf (s ^^ t))
    else ofReal (s ^^ t) (val (num s x) / val (num t y))

def abs : Dbl → Dbl
  | nan => nan
  | inf _ => inf false
  | num _ x => num false x

def isNaN : Dbl → Bool
  | nan => true
  | _ => false

def isInf : Dbl → Bool
  | inf _ => true
  | _ => false

/-- `copysign (isinf (a) ? 1 : 0, a)` -/
def unitInf : Dbl → Dbl
  | inf s => ofReal s (if s then -1 else 1)
  | a => ofReal a.sign 0

/-- NaN replaced by 0 -/
def nan0 : Dbl → Dbl
  | nan => ofReal false 0
  | x => x

/-- libgcc `__muldc3` (C99 G.5.1). -/
def cmul (z w : Cx Dbl) : Cx Dbl :=
  let a := z.re; let b := z.im; let c := w.re; let d := w.im
  let x := sub (mul a c) (mul b d)
  let y := add (mul a d) (mul b c)
  if x.isNaN && y.isNaN then
    let i1 := a.isInf || b.isInf
    let i2 := c.isInf || d.isInf
    let i3 := (mul a c).isInf || (mul b d).isInf || (mul a d).isInf || (mul b c).isInf
    let (a, b, c, d) := if i1 then (unitInf a, unitInf b, nan0 c, nan0 d) else (a, b, c, d)
    let (a, b, c, d) := if i2 then (nan0 a, nan0 b, unitInf c, unitInf d) else (a, b, c, d)
    let (a, b, c, d) :=
      if !i1 && !i2 && i3 then (nan0 a, nan0 b, nan0 c, nan0 d) else (a, b, c, d)
    if i1 || i2 || i3 then
      ⟨mul (inf false) (sub (mul a c) (mul b d)), mul (inf false) (add (mul a d) (mul b c))⟩
    else ⟨x, y⟩
  else ⟨x, y⟩

/-- the extended complex number -/
def toCx (z : Cx Dbl) : Cx XR := ⟨z.re.toXR, z.im.toXR⟩
/-- both parts rounded -/
def ofCx (z : Cx XR) : Cx Dbl := ⟨ofXR false z.re, ofXR false z.im⟩

end Dbl

open Dbl in
/-- The arithmetic of doubles.  Complex products are those of libgcc; complex quotients and roots, `abs` and the real
functions are the exact results rounded (an idealisation: libraries have errors of an ulp or so).  `polar` has no
assertion. -/
instance dblArith : FArith Dbl where
  add := Dbl.add
  sub := Dbl.sub
  mul := Dbl.mul
  div := Dbl.div
  neg := Dbl.neg
  ofInt i := ofReal false i
  sci m s e := ofReal false (OfScientific.ofScientific m s e : ℝ)
  flt a b := XR.lt a.toXR b.toXR
  fle a b := XR.le a.toXR b.toXR
  feq a b := XR.eq a.toXR b.toXR
  pi := ofReal false Real.pi
  pi2 := ofReal false (Real.pi / 2)
  ln2 := ofReal false (Real.log 2)
  ln10 := ofReal false (Real.log 10)
  inf := .inf false
  fabs := Dbl.abs
  sqrt a := ofXR a.sign (XR.sqrt a.toXR)
  exp a := ofXR false (XR.exp a.toXR)
  log a := ofXR false (XR.log a.toXR)
  sin a := ofXR a.sign (XR.sin a.toXR)
  cos a := ofXR false (XR.cos a.toXR)
  tan a := ofXR a.sign (XR.tan a.toXR)
  atan a := ofXR a.sign (XR.atan a.toXR)
  sinh a := ofXR a.sign (XR.sinh a.toXR)
  cosh a := ofXR false (XR.cosh a.toXR)
  pow a b := ofXR false (XR.pow a.toXR b.toXR)
  cmul := Dbl.cmul
  cdiv z w := ofCx (xcdiv (toCx z) (toCx w))
  csqrt z := ofCx (xcsqrt (toCx z))
  cabs z := ofXR false (xcabs (toCx z))
  polar rho theta :=
    some ⟨Dbl.mul rho (ofXR false (XR.cos theta.toXR)), Dbl.mul rho (ofXR theta.sign (XR.sin theta.toXR))⟩

namespace Dbl

theorem num_ext {s t : Bool} {x y : {x : ℝ // 0 ≤ x ∧ IsDouble x}} (h : s = t) (h' : x.1 = y.1) :
    num s x = num t y := by
  rw [h, Subtype.ext h']

theorem abs_val (s : Bool) (x : {x : ℝ // 0 ≤ x ∧ IsDouble x}) : |val (num s x)| = x.1 := by
  cases s
  · exact abs_of_nonneg x.2.1
  · show |-x.1| = x.1
    rw [abs_neg, abs_of_nonneg x.2.1]

/-- In range: the value is `x` rounded. -/
theorem ofReal_finite (s : Bool) {x : ℝ} (h : roundReal |x| < 2 ^ 1024) :
    (ofReal s x).Finite ∧ (ofReal s x).val = if x < 0 then -roundReal |x| else roundReal |x| := by
  unfold ofReal ofMag
  rw [dif_pos h]
  refine ⟨trivial, ?_⟩
  by_cases h0 : x = 0
  · rw [if_pos h0, if_neg (by rw [h0]; exact lt_irrefl _)]
    have : roundReal |x| = 0 := by rw [h0, abs_zero, roundReal_zero]
    cases s <;> simp [val, this]
  · rw [if_neg h0]
    by_cases h1 : x < 0
    · rw [if_pos h1, decide_eq_true h1]; rfl
    · rw [if_neg h1, decide_eq_false h1]; rfl

theorem ofReal_close (s : Bool) {x : ℝ} (h : |x| ≤ maxDouble) :
    (ofReal s x).Finite ∧ |(ofReal s x).val - x| ≤ (1 / 2) ^ 53 * |x| + (1 / 2) ^ 1075 := by
  obtain ⟨h1, h2⟩ := ofReal_finite s (roundReal_lt h)
  refine ⟨h1, ?_⟩
  rw [h2]
  have h3 := roundReal_close |x|
  rw [abs_abs] at h3
  refine le_trans (le_of_eq ?_) h3
  split_ifs with h4
  · rw [abs_of_neg h4, ← abs_neg]; congr 1; ring
  · rw [abs_of_nonneg (not_lt.1 h4)]

/-- Doubles are represented exactly. -/
theorem ofReal_isDouble (s : Bool) {x : ℝ} (h : IsDouble x) : (ofReal s x).Finite ∧ (ofReal s x).val = x := by
  have ha : IsDouble |x| := by
    rcases abs_choice x with h1 | h1 <;> rw [h1]
    · exact h
    · obtain ⟨m, e, a, b, c, d⟩ := h
      exact ⟨-m, e, by rwa [abs_neg], b, c, by rw [d]; push_cast; ring⟩
  have h1 : roundReal |x| = |x| := roundReal_isDouble ha
  have h2 : roundReal |x| < 2 ^ 1024 := by
    rw [h1]
    obtain ⟨m, e, a, b, c, d⟩ := ha
    rw [d]
    have h3 : (m : ℝ) ≤ 2 ^ 53 - 1 := by
      have : m ≤ 2 ^ 53 - 1 := by have := le_abs_self m; omega
      exact_mod_cast this
    have h4 : (2 : ℝ) ^ e ≤ 2 ^ 971 := by
      rw [← zpow_natCast]; exact zpow_le_zpow_right₀ (by norm_num) (by exact_mod_cast c)
    refine lt_of_le_of_lt ?_ maxDouble_lt
    exact (mul_le_mul_of_nonneg_right h3 (by positivity)).trans (mul_le_mul_of_nonneg_left h4 (by norm_num))
  obtain ⟨h5, h6⟩ := ofReal_finite s h2
  refine ⟨h5, h6.trans ?_⟩
  rw [h1]
  split_ifs with h7
  · rw [abs_of_neg h7]; ring
  · exact abs_of_nonneg (not_lt.1 h7)

theorem isDouble_int {i : ℤ} (h : |i| < 2 ^ 53) : IsDouble i := ⟨i, 0, h, by norm_num, by norm_num, by simp⟩

theorem isDouble_zero : IsDouble 0 := by simpa using isDouble_int (i := 0) (by norm_num)

/-- the zero of either sign -/
def zero (s : Bool) : Dbl := num s ⟨0, le_rfl, isDouble_zero⟩

theorem ofReal_zero (s : Bool) : ofReal s 0 = zero s := by
  have h : roundReal |(0 : ℝ)| < 2 ^ 1024 := roundReal_lt (by
    rw [abs_zero]; exact mul_nonneg (by norm_num) (by positivity))
  unfold ofReal ofMag
  rw [dif_pos h, if_pos rfl]
  exact num_ext rfl (by show roundReal |0| = 0; rw [abs_zero, roundReal_zero])

end Dbl

end

end Iir
