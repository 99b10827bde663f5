import Verif.Model.Filters
import Verif.Model.RBJ

/-!
# Testing the model against the library's own test suite

Lean's `Float` (IEEE binary64) as an instance of the arithmetic.  The checks below run the model on
the inputs of `/repo/test/*.cpp` and compare with the numbers found there.  They are tests of the
transcription, not proofs; nothing else depends on this file.
-/

namespace Iir.FloatCheck
open Iir FArith

/-- Textbook complex arithmetic on `Float` (libstdc++ computes the same up to rounding). -/
instance : FArith Float where
  ofInt := Float.ofInt
  sci m s e := OfScientific.ofScientific m s e
  flt x y := decide (x < y)
  fle x y := decide (x ≤ y)
  feq x y := x == y
  pi := 3.1415926535897932384626433832795028841971
  pi2 := 1.5707963267948966192313216916397514420986
  ln2 := 0.69314718055994530941723212145818
  ln10 := 2.3025850929940456840179914546844
  inf := 1.0 / 0.0
  fabs := Float.abs
  sqrt := Float.sqrt
  exp := Float.exp
  log := Float.log
  sin := Float.sin
  cos := Float.cos
  tan := Float.tan
  atan := Float.atan
  sinh := Float.sinh
  cosh := Float.cosh
  pow := Float.pow
  cmul a b := ⟨a.re * b.re - a.im * b.im, a.re * b.im + a.im * b.re⟩
  cdiv a b :=
    let n := b.re * b.re + b.im * b.im
    ⟨(a.re * b.re + a.im * b.im) / n, (a.im * b.re - a.re * b.im) / n⟩
  csqrt z :=
    let m := Float.sqrt (z.re * z.re + z.im * z.im)
    let s := Float.sqrt ((m - z.re) / 2)
    ⟨Float.sqrt ((m + z.re) / 2), if z.im < 0 then -s else s⟩
  cabs z := Float.sqrt (z.re * z.re + z.im * z.im)
  polar rho theta := some ⟨rho * Float.cos theta, rho * Float.sin theta⟩

/-- Filter a list of samples. -/
def run {S : Type → Type} [StateType S Float] (f : PoleFilter S Float) :
    List Float → List Float × PoleFilter S Float
  | [] => ([], f)
  | x :: xs =>
    match PoleFilter.filter (T := Float) x f with
    | (.ok y, f') => let r := run f' xs; (y :: r.1, r.2)
    | (_, f') => ([], f')

/-- An object of class `c` after one call. -/
def made (S : Type → Type) [StateType S Float] (c : Cls) (n : Nat) (call : Call Float) :
    PoleFilter S Float :=
  (PoleFilter.setup n call (PoleFilter.init S c n)).2

/-- Equal to six significant digits. -/
def close (a b : Float) : Bool := (a - b).abs < 1e-6 * (1 + b.abs)

def closeL (a b : List Float) : Bool := a.length == b.length && (a.zip b).all fun p => close p.1 p.2

def mag (r : Res (Cx Float)) : Float := match r with
  | .ok z => FArith.cabs z
  | _ => 0.0 / 0.0

def isOk {σ : Type} (r : Res Unit × σ) : Bool := match r.1 with
  | .ok _ => true
  | _ => false

/-! ## test/assignment.cpp -/

def hp8 : PoleFilter DirectFormII Float := made DirectFormII .bwHighPass 8 (.setupN (.bwHighPass 0.1))

#guard closeL (run hp8 (List.replicate 10 1.0)).1
  [0.192873, -0.427308, -0.00869136, 0.266734, 0.2204,
   0.0189142, -0.150791, -0.197797, -0.129944, -0.00990682]
#guard closeL
  (run (made DirectFormI .bwHighPass 8 (.setupN (.bwHighPass 0.1))) (List.replicate 5 1.0)).1
  [0.192873, -0.427308, -0.00869136, 0.266734, 0.2204]
#guard closeL
  (run (made TransposedDirectFormII .bwHighPass 8 (.setupN (.bwHighPass 0.1)))
    (List.replicate 5 1.0)).1
  [0.192873, -0.427308, -0.00869136, 0.266734, 0.2204]

/-! ## test/state.cpp -/

def sosRun {S : Type → Type} [StateType S Float] (f : Custom.SOS S Float) :
    List Float → List Float
  | [] => []
  | x :: xs =>
    match Custom.SOS.filter (T := Float) x f with
    | (.ok y, f') => y :: sosRun f' xs
    | _ => []

def coeff1 : List (CascadeStages.SosRow Float) :=
  [⟨0.02008337, 0.04016673, 0.02008337, 1, -1.56101808, 0.64135154⟩]
def coeff2 : List (CascadeStages.SosRow Float) :=
  [⟨1.78260999e-03, 3.56521998e-03, 1.78260999e-03, 1.00000000e+00, -1.25544047e+00,
    4.09013783e-01⟩,
   ⟨1.00000000e+00, 2.00000000e+00, 1.00000000e+00, 1.00000000e+00, -1.51824184e+00,
    7.03962657e-01⟩]
def input1 : List Float := [-1.0, 0.5, 1.0]
def result1 : List Float := [-2.00833656e-02, -6.14755450e-02, -6.30005740e-02]
def input2 : List Float := [-1, 0.5, -1, 0.5, -0.3, 3, -1E-5]
def result2 : List Float :=
  [-0.00178261, -0.01118353, -0.03455084, -0.07277369, -0.11973872, -0.158864, -0.15873629]

def sosOf (S : Type → Type) [StateType S Float] (c : List (CascadeStages.SosRow Float)) :
    Custom.SOS S Float :=
  match Custom.SOS.ofCoefficients c with
  | .ok f => f
  | _ => Custom.SOS.init S 0

#guard closeL (sosRun (sosOf DirectFormI coeff1) input1) result1
#guard closeL (sosRun (sosOf DirectFormII coeff1) input1) result1
#guard closeL (sosRun (sosOf TransposedDirectFormII coeff1) input1) result1
#guard closeL (sosRun (sosOf DirectFormI coeff2) input2) result2
#guard closeL (sosRun (sosOf DirectFormII coeff2) input2) result2
#guard closeL (sosRun (sosOf TransposedDirectFormII coeff2) input2) result2

/-! ## Magnitudes at characteristic frequencies (formulas from the design literature) -/

def lp3 : PoleFilter DirectFormII Float := made DirectFormII .bwLowPass 3 (.setup 1000 (.bwLowPass 5))
#guard close (mag (lp3.response 0.005)) (Float.sqrt 0.5)
#guard close (mag (lp3.response 0)) 1

def bs4 : PoleFilter DirectFormII Float :=
  made DirectFormII .bwBandStop 4 (.setupN (.bwBandStop 0.1019 0.01))
#guard mag (bs4.response 0.1019) < 1e-5
#guard close (mag (bs4.response 0.1069)) (Float.sqrt 0.5)

def bp5 : PoleFilter DirectFormII Float :=
  made DirectFormII .bwBandPass 5 (.setupN (.bwBandPass 0.2 0.06))
#guard close (mag (bp5.response 0.23)) (Float.sqrt 0.5)
#guard close (mag (bp5.response 0.17)) (Float.sqrt 0.5)

def c1 : PoleFilter DirectFormII Float := made DirectFormII .c1LowPass 4 (.setupN (.c1LowPass 0.1 1))
#guard close (mag (c1.response 0)) (Float.pow 10 (-1/20))
#guard close (mag (c1.response 0.1)) (Float.pow 10 (-1/20))

def c2 : PoleFilter DirectFormII Float := made DirectFormII .c2LowPass 4 (.setupN (.c2LowPass 0.1 20))
#guard close (mag (c2.response 0)) 1
#guard close (mag (c2.response 0.1)) 0.1

def bwls : PoleFilter DirectFormII Float :=
  made DirectFormII .bwLowShelf 4 (.setupN (.bwLowShelf 0.1 10))
#guard close (mag (bwls.response 0)) (Float.pow 10 0.5)
#guard close (mag (bwls.response 0.5)) 1

def c1ls : PoleFilter DirectFormII Float :=
  made DirectFormII .c1LowShelf 5 (.setupN (.c1LowShelf 0.1 10 1))
#guard close (mag (c1ls.response 0)) (Float.pow 10 0.5)
#guard close (mag (c1ls.response 0.5)) 1

def c1bsh : PoleFilter DirectFormII Float :=
  made DirectFormII .c1BandShelf 5 (.setupN (.c1BandShelf 0.2 0.1 10 1))
#guard close (mag (c1bsh.response 0.5)) 1

/-! ## test/badparam.cpp: rejected parameters -/

def rejected (c : Cls) (n : Nat) (call : Call Float) : Bool :=
  match (PoleFilter.setup (S := DirectFormII) n call (PoleFilter.init DirectFormII c n)).1 with
  | .throw _ => true
  | _ => false

#guard rejected .bwLowPass 4 (.setup 1000 (.bwLowPass 600))
#guard rejected .bwLowPass 4 (.setup 1000 (.bwLowPass (-5)))
#guard rejected .bwLowPass 4 (.setupReq 5 1000 (.bwLowPass 5))
#guard rejected .c1LowPass 4 (.setup 1000 (.c1LowPass 5 (-1)))
#guard !rejected .bwLowPass 4 (.setup 1000 (.bwLowPass 5))

end Iir.FloatCheck
