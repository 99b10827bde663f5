import Verif.Spec.Designs
import Verif.Model.RBJ
import Verif.Exact.XR

/-! # Specification of C93: a filter that is set up again before every sample -/

namespace Iir.Spec
open Iir

/-- An RBJ filter whose `setupN` is called with the parameters `d n` before the sample `x n` is filtered, for every `n`, returns the
samples `y n`. -/
def RetunedReturns (f : RBJ.Filter XR) (d : ℕ → RBJ.Design XR) (x y : ℕ → ℝ) : Prop :=
  ∃ g : ℕ → RBJ.Filter XR, g 0 = f ∧ ∀ n,
    (do RBJ.Filter.setupN (d n); RBJ.Filter.filter (T := XR) (XR.fin (x n)) : Exec (RBJ.Filter XR) XR) (g n) =
      (.ok (XR.fin (y n)), g (n + 1))

/-- The delay line is empty, as after construction and `reset`. -/
def EmptyLine (f : RBJ.Filter XR) : Prop := f.state = { x2 := XR.fin 0, y2 := XR.fin 0, x1 := XR.fin 0, y1 := XR.fin 0 }

/-- From time `N` on, whenever the setting changes the new one is kept for at least `D` samples. -/
def HeldFrom {α : Type} (N D : ℕ) (d : ℕ → α) : Prop := ∀ n ≥ N, d (n + 1) ≠ d n → ∀ j < D, d (n + 1 + j) = d (n + 1)

/-- A signal is bounded. -/
def BoundedSignal (y : ℕ → ℝ) : Prop := ∃ B, ∀ n, |y n| ≤ B

/-- The impulse. -/
def unitImpulse (n : ℕ) : ℝ := if n = 0 then 1 else 0

end Iir.Spec
