import Verif.Spec.Rounding
import Verif.Model.RBJ
import Verif.Model.Filters

/-! # Fused multiplication and addition in `filter`

`filter` is a template in the headers (iir/State.h, iir/Cascade.h:156-164): it is compiled with the flags of the client.
Where the processor has a fused multiply-add instruction, compilers may use it for a product that is added to or
subtracted from something (C++ leaves this open; it is the default of GCC): the product is not rounded then.  Which of
the products are fused is the compiler's choice. -/

namespace Iir.Spec
open Iir FArith

/-- A sum of variables and products of variables, as written in iir/State.h. -/
inductive Expr (R : Type) where
  | var (x : R)
  | prod (a b : R)
  | add (e f : Expr R)
  | sub (e f : Expr R)

/-- `v` is a result that compiled code may compute for the expression, if the fused multiply-add instruction is `F`
(`none`: there is none). -/
inductive Computes {R : Type} [FArith R] (F : Option (R → R → R → R)) : Expr R → R → Prop
  | var (x) : Computes F (.var x) x
  | prod (a b) : Computes F (.prod a b) (a * b)
  | add {e f v w} : Computes F e v → Computes F f w → Computes F (.add e f) (v + w)
  | sub {e f v w} : Computes F e v → Computes F f w → Computes F (.sub e f) (v - w)
  /-- `a * b + f` -/
  | fuseLeft {fma a b f w} : fma ∈ F → Computes F f w → Computes F (.add (.prod a b) f) (fma a b w)
  /-- `e + a * b` -/
  | fuseRight {fma e v a b} : fma ∈ F → Computes F e v → Computes F (.add e (.prod a b)) (fma a b v)
  /-- `a * b - f` -/
  | fuseSubLeft {fma a b f w} : fma ∈ F → Computes F f w → Computes F (.sub (.prod a b) f) (fma a b (-w))
  /-- `e - a * b` -/
  | fuseSubRight {fma e v a b} : fma ∈ F → Computes F e v → Computes F (.sub e (.prod a b)) (fma (-a) b v)

variable {R : Type} [FArith R] {S : Type → Type} [StateType S R]

/-- One call of `filter (in, biquad)` on a delay line, compiled in any way: output and new state.
iir/State.h:68-79, 110-120, 143-153. -/
def StepC (F : Option (R → R → R → R)) [D : DelayLine R S] (x : R) (b : Biquad R) : S R → R → S R → Prop :=
  match D with
  | .df1 => fun s y s' =>
    Computes F (.sub (.sub (.add (.add (.prod b.b0 x) (.prod b.b1 s.x1)) (.prod b.b2 s.x2)) (.prod b.a1 s.y1))
      (.prod b.a2 s.y2)) y ∧ s' = { x1 := x, x2 := s.x1, y1 := y, y2 := s.y1 }
  | .df2 => fun s y s' => ∃ w,
    Computes F (.sub (.sub (.var x) (.prod b.a1 s.v1)) (.prod b.a2 s.v2)) w ∧
    Computes F (.add (.add (.prod b.b0 w) (.prod b.b1 s.v1)) (.prod b.b2 s.v2)) y ∧ s' = { v1 := w, v2 := s.v1 }
  | .tdf2 => fun s y s' => ∃ s1 s2,
    Computes F (.add (.var s.s1_1) (.prod b.b0 x)) y ∧
    Computes F (.sub (.add (.var s.s2_1) (.prod b.b1 x)) (.prod b.a1 y)) s1 ∧
    Computes F (.sub (.prod b.b2 x) (.prod b.a2 y)) s2 ∧ s' = { s1 := s1, s1_1 := s1, s2 := s2, s2_1 := s2 }

/-- One sample through the loop of `CascadeStages::filter`, iir/Cascade.h:156-164. -/
inductive CascadeC (F : Option (R → R → R → R)) [DelayLine R S] : List (Biquad R) → R → List (S R) → R → List (S R) → Prop
  | nil (x) : CascadeC F [] x [] x []
  | cons {b bs x s ss y z s' ss'} : StepC F x b s y s' → CascadeC F bs y ss z ss' →
      CascadeC F (b :: bs) x (s :: ss) z (s' :: ss')

/-- Feeding `x 0, x 1, …` to the sections `bs` with delay lines `ss` may return `y 0, y 1, …`. -/
def FeedC (F : Option (R → R → R → R)) [DelayLine R S] (bs : List (Biquad R)) (ss : List (S R)) (x y : ℕ → R) : Prop :=
  ∃ st : ℕ → List (S R), st 0 = ss ∧ ∀ n, CascadeC F bs (x n) (st n) (y n) (st (n + 1))

/-- Feeding `x 0, x 1, …` to the filter may return `y 0, y 1, …`. -/
def _root_.Iir.PoleFilter.ReturnsC (F : Option (R → R → R → R)) [DelayLine R S] (f : PoleFilter S R) (x y : ℕ → R) : Prop :=
  FeedC F f.base.cascade.stages f.states x y

/-- Feeding `x 0, x 1, …` to the filter may return `y 0, y 1, …`. -/
def _root_.Iir.Custom.SOS.ReturnsC (F : Option (R → R → R → R)) [DelayLine R S] (f : Custom.SOS S R) (x y : ℕ → R) : Prop :=
  FeedC F f.stages f.states x y

/-- Feeding `x 0, x 1, …` to the filter may return `y 0, y 1, …`. -/
def _root_.Iir.RBJ.Filter.ReturnsC (F : Option (R → R → R → R)) (f : RBJ.Filter R) (x y : ℕ → R) : Prop :=
  FeedC F [f.biquad] [f.state] x y

/-- The fused multiply-add instruction of an arithmetic with rounding errors: one rounding; negation is exact. -/
structure Rounds.Fused {u η Ω : ℝ} (r : Rounds R u η Ω) (fma : R → R → R → R) : Prop where
  neg : ∀ x, r.Fin x → r.Fin (-x) ∧ r.val (-x) = -r.val x
  fma : ∀ a b c, r.Fin a → r.Fin b → r.Fin c → |r.val a * r.val b + r.val c| ≤ Ω →
    r.Fin (fma a b c) ∧ |r.val (fma a b c) - (r.val a * r.val b + r.val c)| ≤ u * |r.val a * r.val b + r.val c| + η

end Iir.Spec
