/-!
# Effects of a C++ member function

A member function of a class with data members `σ` returning `α` is `Exec σ α`: from the members
before the call to an outcome and the members after it.  Members modified before an exception is
thrown stay modified.  Undefined behaviour is an outcome of its own.
-/

namespace Iir

/-- The places where `throw_invalid_argument` is called (iir/Common.h:78-87). -/
inductive Err
  /-- Common.h:69 -/
  | orderTooHigh
  /-- Types.h:54 -/
  | singleNotReal
  /-- Layout.h:52 -/
  | cantAdd2ndOrder
  /-- Layout.h:49 -/
  | poleIsNaN
  /-- Layout.h:50 -/
  | zeroIsNaN
  /-- Layout.h:54 -/
  | polesNotConj
  /-- Layout.h:55 -/
  | zerosNotConj
  /-- Layout.h:57 -/
  | pairIndexOutOfBounds
  /-- Biquad.cpp:66 -/
  | polesNaN
  /-- Biquad.cpp:75 -/
  | zerosNaN
  /-- Biquad.cpp:126-131 -/
  | coeffNaN
  /-- Biquad.cpp:143 -/
  | imagPole
  /-- Biquad.cpp:144 -/
  | imagZero
  /-- Biquad.cpp:162 -/
  | twoPolePoles
  /-- Biquad.cpp:163 -/
  | twoPoleZeros
  /-- Cascade.cpp:39 -/
  | maxF
  /-- Cascade.cpp:40 -/
  | minF
  /-- Cascade.cpp:105 -/
  | tooManyStages
  /-- Cascade.h:81 -/
  | stageIndexOutOfBounds
  /-- PoleFilter.cpp:44 -/
  | cutoffTooHigh
  /-- PoleFilter.cpp:45 -/
  | cutoffNegative
  /-- RBJ.cpp:188 -/
  | noSolution
deriving DecidableEq, Repr

/-- Kinds of undefined behaviour the model can exhibit. -/
inductive UB
  /-- access outside an array, or through a null or dangling pointer -/
  | outOfBounds
  /-- call on an object that does not exist -/
  | noObject
  /-- signed `int` overflow -/
  | intOverflow
  /-- violated precondition of `std::polar` -/
  | polarPrecondition
  /-- `static_cast` of a double that does not fit the integer type -/
  | castOutOfRange
deriving DecidableEq, Repr

/-- Outcome of a call. -/
inductive Res (α : Type)
  | ok (a : α)
  | throw (e : Err)
  | ub (u : UB)
deriving DecidableEq, Repr

/-- A member function: members before ↦ outcome, members after. -/
def Exec (σ α : Type) : Type := σ → Res α × σ

namespace Exec
variable {σ τ α β : Type}

protected def pure (a : α) : Exec σ α := fun s => (.ok a, s)

protected def bind (m : Exec σ α) (f : α → Exec σ β) : Exec σ β := fun s =>
  match m s with
  | (.ok a, s') => f a s'
  | (.throw e, s') => (.throw e, s')
  | (.ub u, s') => (.ub u, s')

instance : Monad (Exec σ) where
  pure := Exec.pure
  bind := Exec.bind

/-- `throw_invalid_argument` (exceptions enabled), iir/Common.h:78-87 -/
def raise (e : Err) : Exec σ α := fun s => (.throw e, s)
/-- undefined behaviour -/
def undefined (u : UB) : Exec σ α := fun s => (.ub u, s)
/-- read the members -/
def get : Exec σ σ := fun s => (.ok s, s)
/-- write the members -/
def set (s : σ) : Exec σ Unit := fun _ => (.ok (), s)
/-- update the members -/
def modify (f : σ → σ) : Exec σ Unit := fun s => (.ok (), f s)
/-- `if (b) throw_invalid_argument (e);` -/
def throwIf (b : Bool) (e : Err) : Exec σ Unit := if b then raise e else Exec.pure ()
/-- result of a call that does not touch the members -/
def lift : Res α → Exec σ α
  | .ok a => Exec.pure a
  | .throw e => raise e
  | .ub u => undefined u

/-- call a member function of a sub-object -/
def zoom (get : σ → τ) (put : τ → σ → σ) (m : Exec τ α) : Exec σ α := fun s =>
  ((m (get s)).1, put (m (get s)).2 s)

/-- `for (int i = 0; i < n; ++i) body (i)` -/
def loop : Nat → (Nat → Exec σ Unit) → Exec σ Unit
  | 0, _ => Exec.pure ()
  | n + 1, body => Exec.bind (loop n body) (fun _ => body n)

end Exec

/-- A function without state that may throw. -/
def Res.bind {α β : Type} (m : Res α) (f : α → Res β) : Res β :=
  match m with
  | .ok a => f a
  | .throw e => .throw e
  | .ub u => .ub u

instance : Monad Res where
  pure := Res.ok
  bind := Res.bind

/-- The value of an `int` expression: undefined behaviour if it does not fit 32 bits. -/
def intChecked {σ : Type} (i : Int) : Exec σ Int :=
  if -2147483648 ≤ i ∧ i ≤ 2147483647 then Exec.pure i else Exec.undefined .intOverflow

end Iir
