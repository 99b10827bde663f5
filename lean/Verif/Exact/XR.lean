import Verif.Model.Arith
import Mathlib.Analysis.SpecialFunctions.Pow.Real
import Mathlib.Analysis.SpecialFunctions.Trigonometric.Arctan
import Mathlib.Analysis.SpecialFunctions.Trigonometric.Deriv
import Mathlib.Analysis.Complex.Trigonometric

/-! # Exact arithmetic

`XR` is the real line with the two infinities and NaN: the arithmetic of IEEE 754 without rounding
and with a single zero (no `-0`).  Dividing by zero gives an infinity of the sign of the numerator,
`0/0` is NaN, functions outside their domain give NaN, comparisons with NaN are false.  Complex
operations follow C99 Annex G (as libgcc and libstdc++ do). -/

namespace Iir

/-- Extended reals with NaN. -/
inductive XR
  | nan
  | ninf
  | pinf
  | fin (x : ℝ)

noncomputable section
namespace XR
open XR

/-- infinity with the sign of `x`, NaN if `x = 0` -/
def signInf (x : ℝ) : XR := if 0 < x then pinf else if x < 0 then ninf else nan

def isNaN : XR → Bool
  | nan => true
  | _ => false

def isInf : XR → Bool
  | ninf => true
  | pinf => true
  | _ => false

def isFin : XR → Bool
  | fin _ => true
  | _ => false

def neg : XR → XR
  | nan => nan
  | ninf => pinf
  | pinf => ninf
  | fin x => fin (-x)

def add : XR → XR → XR
  | fin x, fin y => fin (x + y)
  | nan, _ => nan
  | _, nan => nan
  | pinf, ninf => nan
  | ninf, pinf => nan
  | pinf, _ => pinf
  | _, pinf => pinf
  | ninf, _ => ninf
  | _, ninf => ninf

def sub (a b : XR) : XR := add a (neg b)

def mul : XR → XR → XR
  | fin x, fin y => fin (x * y)
  | nan, _ => nan
  | _, nan => nan
  | pinf, pinf => pinf
  | ninf, ninf => pinf
  | pinf, ninf => ninf
  | ninf, pinf => ninf
  | pinf, fin y => signInf y
  | fin y, pinf => signInf y
  | ninf, fin y => signInf (-y)
  | fin y, ninf => signInf (-y)

def div : XR → XR → XR
  | fin x, fin y => if y = 0 then signInf x else fin (x / y)
  | nan, _ => nan
  | _, nan => nan
  | fin _, pinf => fin 0
  | fin _, ninf => fin 0
  | pinf, fin y => if y < 0 then ninf else pinf
  | ninf, fin y => if y < 0 then pinf else ninf
  | pinf, pinf => nan
  | pinf, ninf => nan
  | ninf, pinf => nan
  | ninf, ninf => nan

def lt : XR → XR → Bool
  | nan, _ => false
  | _, nan => false
  | fin x, fin y => decide (x < y)
  | ninf, ninf => false
  | ninf, _ => true
  | _, ninf => false
  | pinf, _ => false
  | fin _, pinf => true

def eq : XR → XR → Bool
  | fin x, fin y => decide (x = y)
  | pinf, pinf => true
  | ninf, ninf => true
  | _, _ => false

def le (a b : XR) : Bool := lt a b || eq a b

def abs : XR → XR
  | nan => nan
  | fin x => fin |x|
  | _ => pinf

def sqrt : XR → XR
  | fin x => if x < 0 then nan else fin (Real.sqrt x)
  | pinf => pinf
  | _ => nan

def exp : XR → XR
  | nan => nan
  | ninf => fin 0
  | pinf => pinf
  | fin x => fin (Real.exp x)

def log : XR → XR
  | fin x => if 0 < x then fin (Real.log x) else if x < 0 then nan else ninf
  | pinf => pinf
  | _ => nan

def sin : XR → XR
  | fin x => fin (Real.sin x)
  | _ => nan

def cos : XR → XR
  | fin x => fin (Real.cos x)
  | _ => nan

def tan (x : XR) : XR := div (sin x) (cos x)

def atan : XR → XR
  | nan => nan
  | ninf => fin (-(Real.pi / 2))
  | pinf => fin (Real.pi / 2)
  | fin x => fin (Real.arctan x)

def sinh : XR → XR
  | fin x => fin (Real.sinh x)
  | x => x

def cosh : XR → XR
  | fin x => fin (Real.cosh x)
  | nan => nan
  | _ => pinf

/-- `pow`, C99 7.12.7.4 and F.9.4.4. -/
def pow : XR → XR → XR
  | a, fin y =>
    if y = 0 then fin 1
    else match a with
      | nan => nan
      | pinf => if 0 < y then pinf else fin 0
      | ninf => if 0 < y then (if y = ⌊y⌋ ∧ ⌊y⌋ % 2 = 1 then ninf else pinf) else fin 0
      | fin x =>
        if 0 < x then fin (x ^ y)
        else if x = 0 then (if 0 < y then fin 0 else pinf)
        else if y = ⌊y⌋ then fin (x ^ ⌊y⌋) else nan
  | fin x, b =>
    if x = 1 then fin 1
    else match b with
      | nan => nan
      | pinf => if |x| < 1 then fin 0 else if |x| = 1 then fin 1 else pinf
      | ninf => if |x| < 1 then pinf else if |x| = 1 then fin 1 else fin 0
      | fin _ => nan -- covered by the first case
  | nan, _ => nan
  | _, nan => nan
  | _, pinf => pinf
  | _, ninf => fin 0

/-- `copysign (isinf (a) ? 1 : 0, a)` -/
def unitInf : XR → XR
  | pinf => fin 1
  | ninf => fin (-1)
  | _ => fin 0

/-- NaN replaced by 0 -/
def nan0 : XR → XR
  | nan => fin 0
  | x => x

end XR

open XR

/-- libgcc `__muldc3` (C99 G.5.1). -/
def xcmul (z w : Cx XR) : Cx XR :=
  let a := z.re; let b := z.im; let c := w.re; let d := w.im
  let x := sub (mul a c) (mul b d)
  let y := add (mul a d) (mul b c)
  if x.isNaN && y.isNaN then
    let i1 := a.isInf || b.isInf
    let i2 := c.isInf || d.isInf
    let i3 := (mul a c).isInf || (mul b d).isInf || (mul a d).isInf || (mul b c).isInf
    let (a, b, c, d) := if i1 then (unitInf a, unitInf b, nan0 c, nan0 d) else (a, b, c, d)
    let (a, b, c, d) := if i2 then (nan0 a, nan0 b, unitInf c, unitInf d) else (a, b, c, d)
    let (a, b, c, d) :=
      if !i1 && !i2 && i3 then (nan0 a, nan0 b, nan0 c, nan0 d) else (a, b, c, d)
    if i1 || i2 || i3 then
      ⟨mul pinf (sub (mul a c) (mul b d)), mul pinf (add (mul a d) (mul b c))⟩
    else ⟨x, y⟩
  else ⟨x, y⟩

/-- libgcc `__divdc3` (C99 G.5.1), without scaling (exact arithmetic does not overflow). -/
def xcdiv (z w : Cx XR) : Cx XR :=
  let a := z.re; let b := z.im; let c := w.re; let d := w.im
  let den := add (mul c c) (mul d d)
  let x := div (add (mul a c) (mul b d)) den
  let y := div (sub (mul b c) (mul a d)) den
  if x.isNaN && y.isNaN then
    if eq den (fin 0) && (!a.isNaN || !b.isNaN) then
      ⟨mul pinf a, mul pinf b⟩
    else if (a.isInf || b.isInf) && c.isFin && d.isFin then
      ⟨mul pinf (add (mul (unitInf a) c) (mul (unitInf b) d)),
        mul pinf (sub (mul (unitInf b) c) (mul (unitInf a) d))⟩
    else if (c.isInf || d.isInf) && a.isFin && b.isFin then
      ⟨mul (fin 0) (add (mul a (unitInf c)) (mul b (unitInf d))),
        mul (fin 0) (sub (mul b (unitInf c)) (mul a (unitInf d)))⟩
    else ⟨x, y⟩
  else ⟨x, y⟩

/-- `csqrt` (C99 G.6.4.2): principal square root. -/
def xcsqrt (z : Cx XR) : Cx XR :=
  match z.re, z.im with
  | fin x, fin y =>
    ⟨fin (Real.sqrt ((Real.sqrt (x * x + y * y) + x) / 2)),
      fin ((if y < 0 then -1 else 1) * Real.sqrt ((Real.sqrt (x * x + y * y) - x) / 2))⟩
  | _, pinf => ⟨pinf, pinf⟩
  | _, ninf => ⟨pinf, ninf⟩
  | nan, _ => ⟨nan, nan⟩
  | pinf, fin _ => ⟨pinf, fin 0⟩
  | ninf, fin y => ⟨fin 0, if y < 0 then ninf else pinf⟩
  | pinf, nan => ⟨pinf, nan⟩
  | ninf, nan => ⟨nan, pinf⟩
  | fin _, nan => ⟨nan, nan⟩

/-- `hypot` -/
def xcabs (z : Cx XR) : XR :=
  match z.re, z.im with
  | fin x, fin y => fin (Real.sqrt (x * x + y * y))
  | a, b => if a.isInf || b.isInf then pinf else nan

/-- The exact instance.  `polar` is the formula `(rho cos theta, rho sin theta)` for all arguments
(what libstdc++ computes when its assertions are off). -/
instance exactArith : FArith XR where
  add := XR.add
  sub := XR.sub
  mul := XR.mul
  div := XR.div
  neg := XR.neg
  ofInt i := fin (i : ℝ)
  sci m s e := fin (OfScientific.ofScientific m s e : ℝ)
  flt := XR.lt
  fle := XR.le
  feq := XR.eq
  pi := fin Real.pi
  pi2 := fin (Real.pi / 2)
  ln2 := fin (Real.log 2)
  ln10 := fin (Real.log 10)
  inf := pinf
  fabs := XR.abs
  sqrt := XR.sqrt
  exp := XR.exp
  log := XR.log
  sin := XR.sin
  cos := XR.cos
  tan := XR.tan
  atan := XR.atan
  sinh := XR.sinh
  cosh := XR.cosh
  pow := XR.pow
  cmul := xcmul
  cdiv := xcdiv
  csqrt := xcsqrt
  cabs := xcabs
  polar rho theta := some ⟨XR.mul rho (XR.cos theta), XR.mul rho (XR.sin theta)⟩

open FArith

namespace XR

/-! ## Finite values -/

@[simp] theorem fin_inj {x y : ℝ} : fin x = fin y ↔ x = y := by simp
@[simp] theorem fin_add (x y : ℝ) : fin x + fin y = fin (x + y) := rfl
@[simp] theorem fin_sub (x y : ℝ) : fin x - fin y = fin (x - y) := by
  show fin (x + -y) = _; rw [sub_eq_add_neg]
@[simp] theorem fin_mul (x y : ℝ) : fin x * fin y = fin (x * y) := rfl
@[simp] theorem fin_neg (x : ℝ) : -fin x = fin (-x) := rfl
theorem fin_div' (x y : ℝ) : fin x / fin y = if y = 0 then signInf x else fin (x / y) := rfl
theorem fin_div {y : ℝ} (x : ℝ) (hy : y ≠ 0) : fin x / fin y = fin (x / y) := by
  rw [fin_div', if_neg hy]
@[simp] theorem flt_fin (x y : ℝ) : flt (fin x) (fin y) = decide (x < y) := rfl
@[simp] theorem feq_fin (x y : ℝ) : feq (fin x) (fin y) = decide (x = y) := rfl
@[simp] theorem fle_fin (x y : ℝ) : fle (fin x) (fin y) = decide (x ≤ y) := by
  show (decide (x < y) || decide (x = y)) = _
  rw [← Bool.decide_or, decide_eq_decide]
  exact le_iff_lt_or_eq.symm
@[simp] theorem fabs_fin (x : ℝ) : fabs (fin x) = fin |x| := rfl
@[simp] theorem exp_fin (x : ℝ) : FArith.exp (fin x) = fin (Real.exp x) := rfl
@[simp] theorem sin_fin (x : ℝ) : FArith.sin (fin x) = fin (Real.sin x) := rfl
@[simp] theorem cos_fin (x : ℝ) : FArith.cos (fin x) = fin (Real.cos x) := rfl
@[simp] theorem atan_fin (x : ℝ) : FArith.atan (fin x) = fin (Real.arctan x) := rfl
@[simp] theorem sinh_fin (x : ℝ) : FArith.sinh (fin x) = fin (Real.sinh x) := rfl
@[simp] theorem cosh_fin (x : ℝ) : FArith.cosh (fin x) = fin (Real.cosh x) := rfl
theorem sqrt_fin {x : ℝ} (h : 0 ≤ x) : FArith.sqrt (fin x) = fin (Real.sqrt x) := if_neg h.not_gt
theorem sqrt_fin_neg {x : ℝ} (h : x < 0) : FArith.sqrt (fin x) = nan := if_pos h
theorem log_fin {x : ℝ} (h : 0 < x) : FArith.log (fin x) = fin (Real.log x) := if_pos h
theorem tan_fin {x : ℝ} (h : Real.cos x ≠ 0) : FArith.tan (fin x) = fin (Real.tan x) := by
  rw [Real.tan_eq_sin_div_cos]; exact if_neg h
theorem pow_fin {x : ℝ} (y : ℝ) (h : 0 < x) : FArith.pow (fin x) (fin y) = fin (x ^ y) := by
  show (if y = 0 then fin 1 else if 0 < x then fin (x ^ y) else _) = _
  split_ifs with h1
  · rw [h1, Real.rpow_zero]
  · rfl
@[simp] theorem pi_eq : (FArith.pi : XR) = fin Real.pi := rfl
@[simp] theorem pi2_eq : (FArith.pi2 : XR) = fin (Real.pi / 2) := rfl
@[simp] theorem ln10_eq : (FArith.ln10 : XR) = fin (Real.log 10) := rfl
@[simp] theorem ln2_eq : (FArith.ln2 : XR) = fin (Real.log 2) := rfl
@[simp] theorem inf_eq : (FArith.inf : XR) = pinf := rfl
@[simp] theorem ofInt_eq (i : ℤ) : (FArith.ofInt i : XR) = fin (i : ℝ) := rfl
@[simp] theorem lit_zero : @OfNat.ofNat XR 0 FArith.instOfNat = fin 0 := by
  show fin ((0 : ℤ) : ℝ) = fin 0; rw [Int.cast_zero]
@[simp] theorem lit_one : @OfNat.ofNat XR 1 FArith.instOfNat = fin 1 := by
  show fin ((1 : ℤ) : ℝ) = fin 1; rw [Int.cast_one]
@[simp] theorem lit_ofNat (n : ℕ) [n.AtLeastTwo] :
    @OfNat.ofNat XR n FArith.instOfNat = fin (OfNat.ofNat n) := by
  show fin (((n : ℕ) : ℤ) : ℝ) = _
  rw [Int.cast_natCast]; rfl
@[simp] theorem lit_sci (m : ℕ) (s : Bool) (e : ℕ) :
    @OfScientific.ofScientific XR FArith.instOfScientific m s e =
      fin (OfScientific.ofScientific m s e) := rfl
@[simp] theorem isNan_fin (x : ℝ) : FArith.isNan (fin x) = false := by simp [FArith.isNan]
theorem isNan_eq (x : XR) : FArith.isNan x = x.isNaN := by
  cases x <;> simp [FArith.isNan, isNaN] <;> rfl
@[simp] theorem isNan_nan : FArith.isNan nan = true := rfl
@[simp] theorem fne_fin (x y : ℝ) : fne (fin x) (fin y) = decide (x ≠ y) := by
  simp [FArith.fne]

example : (0.25 : XR) = fin (1 / 4) := by norm_num
example : (2 * FArith.pi * 0.5 : XR) = fin Real.pi := by simp; norm_num; ring

end XR

/-! ## Complex values -/

/-- A complex number as a pair of finite values. -/
def ofC (z : ℂ) : Cx XR := ⟨fin z.re, fin z.im⟩

@[simp] theorem ofC_re (z : ℂ) : (ofC z).re = fin z.re := rfl
@[simp] theorem ofC_im (z : ℂ) : (ofC z).im = fin z.im := rfl
@[simp] theorem ofC_inj {z w : ℂ} : ofC z = ofC w ↔ z = w := by
  simp [ofC, Complex.ext_iff]

theorem mk_eq_ofC (x y : ℝ) : (⟨fin x, fin y⟩ : Cx XR) = ofC ⟨x, y⟩ := rfl

namespace Cx

@[simp] theorem ofR_fin (x : ℝ) : (Cx.ofR (fin x) : Cx XR) = ofC (x : ℂ) := by
  simp [Cx.ofR, ofC]
@[simp] theorem conj_ofC (z : ℂ) : (ofC z).conj = ofC (starRingEnd ℂ z) := by
  simp [Cx.conj, ofC]
@[simp] theorem cneg_ofC (z : ℂ) : (ofC z).cneg = ofC (-z) := by simp [Cx.cneg, ofC]
@[simp] theorem cadd_ofC (z w : ℂ) : (ofC z).cadd (ofC w) = ofC (z + w) := by simp [Cx.cadd, ofC]
@[simp] theorem addR_ofC (z : ℂ) (x : ℝ) : (ofC z).addR (fin x) = ofC (z + x) := by
  simp [Cx.addR, ofC]
@[simp] theorem subR_ofC (z : ℂ) (x : ℝ) : (ofC z).subR (fin x) = ofC (z - x) := by
  simp [Cx.subR, ofC]
@[simp] theorem rsub_ofC (z : ℂ) (x : ℝ) : Cx.rsub (fin x) (ofC z) = ofC (x - z) := by
  simp [Cx.rsub, ofC]
@[simp] theorem mulR_ofC (z : ℂ) (x : ℝ) : (ofC z).mulR (fin x) = ofC (z * x) := by
  simp [Cx.mulR, ofC]
theorem divR_ofC (z : ℂ) {x : ℝ} (hx : x ≠ 0) : (ofC z).divR (fin x) = ofC (z / x) := by
  simp [Cx.divR, ofC, fin_div _ hx, Complex.div_ofReal_re, Complex.div_ofReal_im]
@[simp] theorem cnorm_ofC (z : ℂ) : (ofC z).cnorm = fin (Complex.normSq z) := by
  simp [Cx.cnorm, ofC, Complex.normSq_apply]
@[simp] theorem addmul_ofC (z w : ℂ) (v : ℝ) : (ofC z).addmul (fin v) (ofC w) = ofC (z + v * w) := by
  simp [Cx.addmul, ofC]
@[simp] theorem isNan_ofC (z : ℂ) : (ofC z).isNan = false := by simp [Cx.isNan, ofC]
@[simp] theorem ceq_ofC (z w : ℂ) : (ofC z).ceq (ofC w) = decide (z = w) := by
  simp [Cx.ceq, ofC, Complex.ext_iff]
@[simp] theorem ceq_ofC_infinity (z : ℂ) : (ofC z).ceq Cx.infinity = false := rfl
@[simp] theorem ceq_infinity : (Cx.infinity : Cx XR).ceq Cx.infinity = true := by
  simp [Cx.ceq, Cx.infinity, Cx.ofR]; rfl
@[simp] theorem isNan_infinity : (Cx.infinity : Cx XR).isNan = false := by
  simp [Cx.isNan, Cx.infinity, Cx.ofR]; rfl

@[simp] theorem cmul_ofC (z w : ℂ) : cmul (ofC z) (ofC w) = ofC (z * w) := by
  show xcmul _ _ = _
  simp [xcmul, ofC, XR.mul, XR.add, XR.sub, XR.neg, XR.isNaN, sub_eq_add_neg]

theorem cdiv_ofC (z : ℂ) {w : ℂ} (hw : w ≠ 0) : cdiv (ofC z) (ofC w) = ofC (z / w) := by
  have h : w.re * w.re + w.im * w.im ≠ 0 := by
    rw [← Complex.normSq_apply]; exact (Complex.normSq_pos.2 hw).ne'
  show xcdiv _ _ = _
  simp only [xcdiv, ofC, XR.mul, XR.add, XR.sub, XR.neg, XR.isNaN, XR.div, if_neg h]
  simp only [Bool.and_self, Bool.false_eq_true, if_false, Cx.mk.injEq, fin_inj, Complex.div_re,
    Complex.div_im, Complex.normSq_apply]
  constructor
  · field_simp
  · field_simp
    ring

/-- The square root the library computes. -/
def sqrtC (z : ℂ) : ℂ :=
  ⟨Real.sqrt ((‖z‖ + z.re) / 2), (if z.im < 0 then -1 else 1) * Real.sqrt ((‖z‖ - z.re) / 2)⟩

theorem norm_eq_sqrt_mul (z : ℂ) : Real.sqrt (z.re * z.re + z.im * z.im) = ‖z‖ := by
  rw [Complex.norm_def, Complex.normSq_apply]

@[simp] theorem csqrt_ofC (z : ℂ) : csqrt (ofC z) = ofC (sqrtC z) := by
  show xcsqrt _ = _
  simp [xcsqrt, ofC, sqrtC, norm_eq_sqrt_mul]

theorem sqrtC_sq (z : ℂ) : sqrtC z * sqrtC z = z := by
  have h1 : 0 ≤ (‖z‖ + z.re) / 2 := by
    have := Complex.abs_re_le_norm z
    have := neg_abs_le z.re; linarith
  have h2 : 0 ≤ (‖z‖ - z.re) / 2 := by
    have := Complex.abs_re_le_norm z
    have := le_abs_self z.re; linarith
  have h3 : ‖z‖ * ‖z‖ = z.re * z.re + z.im * z.im := by
    rw [← Complex.normSq_apply, Complex.normSq_eq_norm_sq, sq]
  have e1 := Real.mul_self_sqrt h1
  have e2 := Real.mul_self_sqrt h2
  have e3 : Real.sqrt ((‖z‖ + z.re) / 2) * Real.sqrt ((‖z‖ - z.re) / 2) = |z.im| / 2 := by
    rw [← Real.sqrt_mul h1]
    have : (‖z‖ + z.re) / 2 * ((‖z‖ - z.re) / 2) = (|z.im| / 2) * (|z.im| / 2) := by
      have := abs_mul_abs_self z.im
      linear_combination h3 / 4 - this / 4
    rw [this, Real.sqrt_mul_self (by positivity)]
  apply Complex.ext
  · simp only [sqrtC, Complex.mul_re]
    split_ifs <;> linear_combination e1 - e2
  · simp only [sqrtC, Complex.mul_im]
    split_ifs with h
    · rw [abs_of_neg h] at e3
      linear_combination (-2) * e3
    · rw [abs_of_nonneg (not_lt.1 h)] at e3
      linear_combination 2 * e3

@[simp] theorem cabs_ofC (z : ℂ) : cabs (ofC z) = fin ‖z‖ := by
  show xcabs _ = _
  simp [xcabs, ofC, norm_eq_sqrt_mul]

theorem polar_fin (r t : ℝ) :
    polar (fin r) (fin t) = some (ofC (r * Complex.exp (t * Complex.I))) := by
  show some _ = some _
  congr 1
  simp [ofC, XR.mul, XR.cos, XR.sin, Complex.exp_ofReal_mul_I_re, Complex.exp_ofReal_mul_I_im]

end Cx

end
end Iir
