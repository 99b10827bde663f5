/-!
# Floating point operations used by iir1

`FArith R` lists every floating point operation that the code in `/repo/iir` performs, without any
law.  `R` stands for `double`.  Everything in `Verif/Model` is generic in `R`, so a theorem proved
for all `FArith R` holds whatever the rounding, the optimisation flags or the math library are, as
long as each operation is a function of its arguments.

Instances: `XR` (exact arithmetic with infinities and NaN, `Verif/Exact/XR.lean`) and Lean's `Float`
(IEEE double, `Verif/FloatCheck.lean`, used for testing the model only).
-/

namespace Iir

/-- `std::complex<double>` (`complex_t`, iir/MathSupplement.h:56). -/
structure Cx (R : Type) where
  re : R
  im : R

/-- The operations on `double` and `std::complex<double>` the library uses. -/
class FArith (R : Type) extends Add R, Sub R, Mul R, Div R, Neg R where
  /-- conversion `int` → `double` (also integer valued literals such as `2`, `1.`, `20.0`) -/
  ofInt : Int → R
  /-- decimal literals such as `0.5`, `1e-8` (arguments as in `OfScientific.ofScientific`) -/
  sci : Nat → Bool → Nat → R
  /-- C++ `<` -/
  flt : R → R → Bool
  /-- C++ `<=` -/
  fle : R → R → Bool
  /-- C++ `==` -/
  feq : R → R → Bool
  /-- `doublePi`, iir/MathSupplement.h:51 -/
  pi : R
  /-- `doublePi_2`, iir/MathSupplement.h:52 -/
  pi2 : R
  /-- `doubleLn2`, iir/MathSupplement.h:53 -/
  ln2 : R
  /-- `doubleLn10`, iir/MathSupplement.h:54 -/
  ln10 : R
  /-- `std::numeric_limits<double>::infinity()` -/
  inf : R
  fabs : R → R
  sqrt : R → R
  exp : R → R
  log : R → R
  sin : R → R
  cos : R → R
  tan : R → R
  atan : R → R
  sinh : R → R
  cosh : R → R
  pow : R → R → R
  /-- `std::complex` product -/
  cmul : Cx R → Cx R → Cx R
  /-- `std::complex` quotient -/
  cdiv : Cx R → Cx R → Cx R
  /-- `std::sqrt (std::complex)` -/
  csqrt : Cx R → Cx R
  /-- `std::abs (std::complex)` -/
  cabs : Cx R → R
  /-- `std::polar (rho, theta)`; `none` where the library treats the arguments as a violated
  precondition ([complex.value.ops]: rho non-negative, not NaN, theta finite). -/
  polar : R → R → Option (Cx R)

namespace FArith
variable {R : Type} [FArith R]

/-- integer literals -/
scoped instance (priority := low) instOfNat {n : Nat} : OfNat R n := ⟨FArith.ofInt (n : Int)⟩
/-- decimal literals -/
scoped instance (priority := low) instOfScientific : OfScientific R := ⟨FArith.sci⟩

/-- C++ `!=` -/
def fne (x y : R) : Bool := !(feq x y)

/-- `Iir::is_nan (double)`, iir/MathSupplement.h:79-83: `!(v == v)`. -/
def isNan (v : R) : Bool := !(feq v v)

end FArith

open FArith

namespace Cx
variable {R : Type} [FArith R]

/-- implicit conversion `double` → `complex_t`: imaginary part `0` -/
def ofR (x : R) : Cx R := ⟨x, 0⟩

/-- `infinity()`, iir/MathSupplement.h:59-62: `complex_t (inf)`, imaginary part 0. -/
def infinity : Cx R := ofR inf

/-- `operator==` on `std::complex` -/
def ceq (a b : Cx R) : Bool := feq a.re b.re && feq a.im b.im

/-- `std::conj` -/
def conj (a : Cx R) : Cx R := ⟨a.re, -a.im⟩

/-- unary minus -/
def cneg (a : Cx R) : Cx R := ⟨-a.re, -a.im⟩

/-- complex + complex -/
def cadd (a b : Cx R) : Cx R := ⟨a.re + b.re, a.im + b.im⟩

/-- complex + double, double + complex, `complex += double` -/
def addR (a : Cx R) (x : R) : Cx R := ⟨a.re + x, a.im⟩

/-- complex - double -/
def subR (a : Cx R) (x : R) : Cx R := ⟨a.re - x, a.im⟩

/-- double - complex -/
def rsub (x : R) (a : Cx R) : Cx R := ⟨x - a.re, -a.im⟩

/-- complex * double, double * complex, `complex *= double` (componentwise in libstdc++) -/
def mulR (a : Cx R) (x : R) : Cx R := ⟨a.re * x, a.im * x⟩

/-- complex / double (componentwise in libstdc++) -/
def divR (a : Cx R) (x : R) : Cx R := ⟨a.re / x, a.im / x⟩

/-- `std::norm`: squared magnitude -/
def cnorm (a : Cx R) : R := a.re * a.re + a.im * a.im

/-- `addmul (c, v, c1)`, iir/MathSupplement.h:64-71: `c + v * c1` componentwise. -/
def addmul (c : Cx R) (v : R) (c1 : Cx R) : Cx R := ⟨c.re + v * c1.re, c.im + v * c1.im⟩

/-- `is_nan<complex_t>`, iir/MathSupplement.h:85-89. -/
def isNan (a : Cx R) : Bool := FArith.isNan a.re || FArith.isNan a.im

end Cx

/-- `Iir::asinh`, iir/MathSupplement.h:73-77: `log (x + sqrt (x*x + 1))`. Unqualified calls inside
namespace `Iir` resolve to this template, not to `::asinh`. -/
def asinh {R : Type} [FArith R] (x : R) : R := log (x + sqrt (x * x + 1))

end Iir
