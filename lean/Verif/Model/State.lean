import Verif.Model.Biquad

/-! # Delay lines: `State.h` -/

namespace Iir
open FArith

/-- A delay line type, the `StateType` template argument: its initial value (default member
initialisers), `reset ()` and `filter (in, biquad)`, which returns the output and the new state. -/
class StateType (S : Type → Type) (R : Type) [FArith R] where
  init : S R
  reset : S R → S R
  filter : R → Biquad R → S R → R × S R

/-- `DirectFormI`, iir/State.h:55-86. -/
structure DirectFormI (R : Type) where
  x2 : R
  y2 : R
  x1 : R
  y1 : R

/-- `DirectFormII`, iir/State.h:99-125. -/
structure DirectFormII (R : Type) where
  v1 : R
  v2 : R

/-- `TransposedDirectFormII`, iir/State.h:130-160. -/
structure TransposedDirectFormII (R : Type) where
  s1 : R
  s1_1 : R
  s2 : R
  s2_1 : R

variable {R : Type} [FArith R]

namespace DirectFormI

/-- `DirectFormI::reset`, iir/State.h:60-66. -/
def reset (s : DirectFormI R) : DirectFormI R := { s with x1 := 0, x2 := 0, y1 := 0, y2 := 0 }

/-- `DirectFormI::filter`, iir/State.h:68-79. -/
def filter (x : R) (s : Biquad R) (st : DirectFormI R) : R × DirectFormI R :=
  let out := s.b0 * x + s.b1 * st.x1 + s.b2 * st.x2 - s.a1 * st.y1 - s.a2 * st.y2
  let st := { st with x2 := st.x1 }
  let st := { st with y2 := st.y1 }
  let st := { st with x1 := x }
  let st := { st with y1 := out }
  (out, st)

/-- Initialisers iir/State.h:82-85. -/
instance : StateType DirectFormI R where
  init := { x2 := 0, y2 := 0, x1 := 0, y1 := 0 }
  reset := reset
  filter := filter

end DirectFormI

namespace DirectFormII

/-- `DirectFormII::reset`, iir/State.h:104-108. -/
def reset (s : DirectFormII R) : DirectFormII R := { s with v1 := 0, v2 := 0 }

/-- `DirectFormII::filter`, iir/State.h:110-120. -/
def filter (x : R) (s : Biquad R) (st : DirectFormII R) : R × DirectFormII R :=
  let w := x - s.a1 * st.v1 - s.a2 * st.v2
  let out := s.b0 * w + s.b1 * st.v1 + s.b2 * st.v2
  let st := { st with v2 := st.v1 }
  let st := { st with v1 := w }
  (out, st)

/-- Initialisers iir/State.h:123-124. -/
instance : StateType DirectFormII R where
  init := { v1 := 0, v2 := 0 }
  reset := reset
  filter := filter

end DirectFormII

namespace TransposedDirectFormII

/-- `TransposedDirectFormII::reset`, iir/State.h:135-141. -/
def reset (s : TransposedDirectFormII R) : TransposedDirectFormII R :=
  { s with s1 := 0, s1_1 := 0, s2 := 0, s2_1 := 0 }

/-- `TransposedDirectFormII::filter`, iir/State.h:143-153. -/
def filter (x : R) (s : Biquad R) (st : TransposedDirectFormII R) :
    R × TransposedDirectFormII R :=
  let out := st.s1_1 + s.b0 * x
  let st := { st with s1 := st.s2_1 + s.b1 * x - s.a1 * out }
  let st := { st with s2 := s.b2 * x - s.a2 * out }
  let st := { st with s1_1 := st.s1 }
  let st := { st with s2_1 := st.s2 }
  (out, st)

/-- Initialisers iir/State.h:156-159. -/
instance : StateType TransposedDirectFormII R where
  init := { s1 := 0, s1_1 := 0, s2 := 0, s2_1 := 0 }
  reset := reset
  filter := filter

end TransposedDirectFormII

/-- `S` is one of the three delay line types of iir/State.h:55-160, with its own members. -/
class inductive DelayLine (R : Type) [FArith R] : (S : Type → Type) → [StateType S R] → Type
  | df1 : DelayLine R DirectFormI
  | df2 : DelayLine R DirectFormII
  | tdf2 : DelayLine R TransposedDirectFormII

attribute [instance] DelayLine.df1 DelayLine.df2 DelayLine.tdf2

/-- `Biquad::filter<StateType> (s, state)`, iir/Biquad.h:104-108. -/
def Biquad.filter {S : Type → Type} [StateType S R] (b : Biquad R) (s : R) (state : S R) :
    R × S R :=
  StateType.filter s b state

end Iir
