import Verif.Model.Exec
import Mathlib.Tactic.Common

/-! # Proof rules for `Exec`: Hoare triples and relational triples -/

namespace Iir
variable {σ τ α β : Type}

namespace Exec

theorem bind_def (m : Exec σ α) (f : α → Exec σ β) (s : σ) :
    (m >>= f) s = match m s with
      | (.ok a, s') => f a s'
      | (.throw e, s') => (.throw e, s')
      | (.ub u, s') => (.ub u, s') := rfl

theorem bind_def' (m : Exec σ α) (f : α → Exec σ β) (s : σ) :
    Exec.bind m f s = match m s with
      | (.ok a, s') => f a s'
      | (.throw e, s') => (.throw e, s')
      | (.ub u, s') => (.ub u, s') := rfl

@[simp] theorem pure_def (a : α) (s : σ) : (pure a : Exec σ α) s = (.ok a, s) := rfl
@[simp] theorem pure_def' (a : α) (s : σ) : (Exec.pure a : Exec σ α) s = (.ok a, s) := rfl
@[simp] theorem get_def (s : σ) : (get : Exec σ σ) s = (.ok s, s) := rfl
@[simp] theorem set_def (s t : σ) : (set t : Exec σ Unit) s = (.ok (), t) := rfl
@[simp] theorem modify_def (f : σ → σ) (s : σ) : modify f s = (.ok (), f s) := rfl
@[simp] theorem raise_def (e : Err) (s : σ) : (raise e : Exec σ α) s = (.throw e, s) := rfl
@[simp] theorem undefined_def (u : UB) (s : σ) : (undefined u : Exec σ α) s = (.ub u, s) := rfl
@[simp] theorem lift_ok (a : α) (s : σ) : (lift (.ok a) : Exec σ α) s = (.ok a, s) := rfl
@[simp] theorem lift_throw (e : Err) (s : σ) : (lift (.throw e) : Exec σ α) s = (.throw e, s) := rfl
@[simp] theorem lift_ub (u : UB) (s : σ) : (lift (.ub u) : Exec σ α) s = (.ub u, s) := rfl
theorem lift_def (r : Res α) (s : σ) : (lift r : Exec σ α) s = (r, s) := by cases r <;> rfl
@[simp] theorem throwIf_true (e : Err) (s : σ) : throwIf true e s = (.throw e, s) := rfl
@[simp] theorem throwIf_false (e : Err) (s : σ) : throwIf false e s = (.ok (), s) := rfl

/-- Hoare triple: from `P`, `m` ends normally in `Q`, throws in `E`, or shows undefined behaviour
allowed by `U`. -/
def Trip (P : σ → Prop) (m : Exec σ α) (Q : α → σ → Prop) (E : Err → σ → Prop) (U : UB → Prop) :
    Prop :=
  ∀ s, P s → match m s with
    | (.ok a, s') => Q a s'
    | (.throw e, s') => E e s'
    | (.ub u, _) => U u

variable {P P' : σ → Prop} {Q Q' : α → σ → Prop} {E E' : Err → σ → Prop} {U U' : UB → Prop}

theorem Trip.mono {m : Exec σ α} (h : Trip P m Q E U) (hP : ∀ s, P' s → P s)
    (hQ : ∀ a s, Q a s → Q' a s) (hE : ∀ e s, E e s → E' e s) (hU : ∀ u, U u → U' u) :
    Trip P' m Q' E' U' := by
  intro s hs
  have := h s (hP s hs)
  revert this
  rcases m s with ⟨r, s'⟩
  cases r <;> simp only <;> intro h
  · exact hQ _ _ h
  · exact hE _ _ h
  · exact hU _ h

theorem Trip.pre {m : Exec σ α} (h : Trip P m Q E U) (hP : ∀ s, P' s → P s) : Trip P' m Q E U :=
  h.mono hP (fun _ _ => id) (fun _ _ => id) (fun _ => id)

theorem Trip.post {m : Exec σ α} (h : Trip P m Q E U) (hQ : ∀ a s, Q a s → Q' a s) :
    Trip P m Q' E U :=
  h.mono (fun _ => id) hQ (fun _ _ => id) (fun _ => id)

theorem Trip.bind {m : Exec σ α} {f : α → Exec σ β} {R : β → σ → Prop}
    (hm : Trip P m Q E U) (hf : ∀ a, Trip (Q a) (f a) R E U) : Trip P (m >>= f) R E U := by
  intro s hs
  have h1 := hm s hs
  rw [bind_def]
  revert h1
  rcases m s with ⟨r, s'⟩
  cases r <;> simp only <;> intro h1
  · exact hf _ _ h1
  · exact h1
  · exact h1

theorem Trip.bind' {m : Exec σ α} {f : α → Exec σ β} {R : β → σ → Prop}
    (hm : Trip P m Q E U) (hf : ∀ a, Trip (Q a) (f a) R E U) : Trip P (Exec.bind m f) R E U :=
  Trip.bind hm hf

theorem Trip.pure {a : α} (h : ∀ s, P s → Q a s) : Trip P (Exec.pure a) Q E U := fun s hs => h s hs

theorem Trip.throwIf {b : Bool} {e : Err} {Q : Unit → σ → Prop}
    (h1 : ∀ s, P s → b = true → E e s) (h2 : ∀ s, P s → b = false → Q () s) :
    Trip P (Exec.throwIf b e) Q E U := by
  intro s hs
  cases b
  · exact h2 s hs rfl
  · exact h1 s hs rfl

theorem Trip.modify {f : σ → σ} {Q : Unit → σ → Prop} (h : ∀ s, P s → Q () (f s)) :
    Trip P (Exec.modify f) Q E U := fun s hs => h s hs

theorem Trip.get {Q : σ → σ → Prop} (h : ∀ s, P s → Q s s) : Trip P Exec.get Q E U :=
  fun s hs => h s hs

theorem Trip.lift {r : Res α} (h : ∀ s, P s → match r with
    | .ok a => Q a s
    | .throw e => E e s
    | .ub u => U u) : Trip P (Exec.lift r) Q E U := by
  intro s hs
  have := h s hs
  rw [lift_def]
  cases r <;> exact this

theorem Trip.loop {I : Nat → σ → Prop} {body : Nat → Exec σ Unit} (n : Nat)
    (h : ∀ i, i < n → Trip (I i) (body i) (fun _ => I (i + 1)) E U) :
    Trip (I 0) (Exec.loop n body) (fun _ => I n) E U := by
  induction n with
  | zero => exact Trip.pure fun _ => id
  | succ n ih =>
    exact Trip.bind' (ih fun i hi => h i (Nat.lt_succ_of_lt hi)) fun _ => h n (Nat.lt_succ_self n)

theorem Trip.zoom {g : σ → τ} {p : τ → σ → σ} {m : Exec τ α} {P : τ → Prop} {Q : α → τ → Prop}
    {E : Err → τ → Prop} {P' : σ → Prop} {Q' : α → σ → Prop} {E' : Err → σ → Prop}
    (h : Trip P m Q E U) (h1 : ∀ s, P' s → P (g s))
    (h2 : ∀ s a t, P' s → Q a t → Q' a (p t s)) (h3 : ∀ s e t, P' s → E e t → E' e (p t s)) :
    Trip P' (Exec.zoom g p m) Q' E' U := by
  intro s hs
  have h0 := h (g s) (h1 s hs)
  unfold Exec.zoom
  revert h0
  rcases m (g s) with ⟨r, t⟩
  cases r <;> simp only <;> intro h0
  · exact h2 _ _ _ hs h0
  · exact h3 _ _ _ hs h0
  · exact h0

/-- Relational triple: from related states both runs end in the same way (both normally, both with
the same exception, or both with the same undefined behaviour). -/
def RTrip {σ' : Type} (P : σ → σ' → Prop) (m : Exec σ α) (m' : Exec σ' α)
    (Q : α → σ → σ' → Prop) (E : Err → σ → σ' → Prop) : Prop :=
  ∀ s s', P s s' → match m s, m' s' with
    | (.ok a, t), (.ok a', t') => a = a' ∧ Q a t t'
    | (.throw e, t), (.throw e', t') => e = e' ∧ E e t t'
    | (.ub u, _), (.ub u', _) => u = u'
    | _, _ => False

variable {σ' τ' : Type}

theorem RTrip.mono {P P' : σ → σ' → Prop} {m : Exec σ α} {m' : Exec σ' α}
    {Q Q' : α → σ → σ' → Prop} {E E' : Err → σ → σ' → Prop}
    (h : RTrip P m m' Q E) (hP : ∀ s s', P' s s' → P s s')
    (hQ : ∀ a s s', Q a s s' → Q' a s s') (hE : ∀ e s s', E e s s' → E' e s s') :
    RTrip P' m m' Q' E' := by
  intro s s' hs
  have := h s s' (hP _ _ hs)
  revert this
  rcases m s with ⟨r, t⟩
  rcases m' s' with ⟨r', t'⟩
  cases r <;> cases r' <;> simp only [imp_self]
  · rintro ⟨h1, h2⟩; exact ⟨h1, hQ _ _ _ h2⟩
  · rintro ⟨h1, h2⟩; exact ⟨h1, hE _ _ _ h2⟩

/-- what a relational triple says of a run from related states -/
theorem RTrip.outcome {P : σ → σ' → Prop} {m : Exec σ Unit} {m' : Exec σ' Unit}
    {Q : Unit → σ → σ' → Prop} {E : Err → σ → σ' → Prop} (h : RTrip P m m' Q E) {s : σ} {s' : σ'}
    (hs : P s s') : (m s).1 = (m' s').1 ∧ ((m s).1 = .ok () → Q () (m s).2 (m' s').2) := by
  have h1 := h s s' hs
  revert h1
  rcases m s with ⟨r, t⟩
  rcases m' s' with ⟨r', t'⟩
  cases r <;> cases r' <;> simp only [false_imp_iff]
  · rintro ⟨-, h⟩; exact ⟨trivial, fun _ => h⟩
  · rintro ⟨rfl, -⟩; exact ⟨rfl, fun h => by simp at h⟩
  · rintro rfl; exact ⟨rfl, fun h => by simp at h⟩

theorem RTrip.bind {P : σ → σ' → Prop} {m : Exec σ α} {m' : Exec σ' α}
    {Q : α → σ → σ' → Prop} {E : Err → σ → σ' → Prop} {f : α → Exec σ β} {f' : α → Exec σ' β}
    {R : β → σ → σ' → Prop}
    (hm : RTrip P m m' Q E) (hf : ∀ a, RTrip (Q a) (f a) (f' a) R E) :
    RTrip P (m >>= f) (m' >>= f') R E := by
  intro s s' hs
  have h1 := hm s s' hs
  rw [bind_def, bind_def]
  revert h1
  rcases m s with ⟨r, t⟩
  rcases m' s' with ⟨r', t'⟩
  cases r <;> cases r' <;> simp only [imp_self, false_imp_iff]
  · rintro ⟨rfl, h2⟩; exact hf _ _ _ h2

theorem RTrip.pure {P : σ → σ' → Prop} {Q : α → σ → σ' → Prop} {E : Err → σ → σ' → Prop} {a : α}
    (h : ∀ s s', P s s' → Q a s s') : RTrip P (Exec.pure a) (Exec.pure a) Q E :=
  fun s s' hs => ⟨rfl, h s s' hs⟩

theorem RTrip.throwIf {P : σ → σ' → Prop} {Q : Unit → σ → σ' → Prop} {E : Err → σ → σ' → Prop}
    {b : Bool} {e : Err} (h1 : ∀ s s', P s s' → b = true → E e s s')
    (h2 : ∀ s s', P s s' → b = false → Q () s s') :
    RTrip P (Exec.throwIf b e) (Exec.throwIf b e) Q E := by
  intro s s' hs
  cases b
  · exact ⟨rfl, h2 s s' hs rfl⟩
  · exact ⟨rfl, h1 s s' hs rfl⟩

theorem RTrip.modify {P : σ → σ' → Prop} {Q : Unit → σ → σ' → Prop} {E : Err → σ → σ' → Prop}
    {f : σ → σ} {f' : σ' → σ'} (h : ∀ s s', P s s' → Q () (f s) (f' s')) :
    RTrip P (Exec.modify f) (Exec.modify f') Q E :=
  fun s s' hs => ⟨rfl, h s s' hs⟩

theorem RTrip.lift {P : σ → σ' → Prop} {Q : α → σ → σ' → Prop} {E : Err → σ → σ' → Prop}
    {r : Res α} (h1 : ∀ s s' a, P s s' → r = .ok a → Q a s s')
    (h2 : ∀ s s' e, P s s' → r = .throw e → E e s s') :
    RTrip P (Exec.lift r) (Exec.lift r) Q E := by
  intro s s' hs
  rw [lift_def, lift_def]
  cases r
  · exact ⟨rfl, h1 _ _ _ hs rfl⟩
  · exact ⟨rfl, h2 _ _ _ hs rfl⟩
  · rfl

theorem RTrip.loop {I : Nat → σ → σ' → Prop} {E : Err → σ → σ' → Prop} {body : Nat → Exec σ Unit}
    {body' : Nat → Exec σ' Unit} (n : Nat)
    (h : ∀ i, i < n → RTrip (I i) (body i) (body' i) (fun _ => I (i + 1)) E) :
    RTrip (I 0) (Exec.loop n body) (Exec.loop n body') (fun _ => I n) E := by
  induction n with
  | zero => exact RTrip.pure fun _ _ => id
  | succ n ih =>
    exact RTrip.bind (m := Exec.loop n body) (m' := Exec.loop n body')
      (ih fun i hi => h i (Nat.lt_succ_of_lt hi)) fun _ => h n (Nat.lt_succ_self n)

theorem RTrip.zoom {g : σ → τ} {p : τ → σ → σ} {g' : σ' → τ'} {p' : τ' → σ' → σ'}
    {m : Exec τ α} {m' : Exec τ' α} {P : τ → τ' → Prop} {Q : α → τ → τ' → Prop}
    {E : Err → τ → τ' → Prop} {P' : σ → σ' → Prop} {Q' : α → σ → σ' → Prop}
    {E' : Err → σ → σ' → Prop}
    (h : RTrip P m m' Q E) (h1 : ∀ s s', P' s s' → P (g s) (g' s'))
    (h2 : ∀ s s' a t t', P' s s' → Q a t t' → Q' a (p t s) (p' t' s'))
    (h3 : ∀ s s' e t t', P' s s' → E e t t' → E' e (p t s) (p' t' s')) :
    RTrip P' (Exec.zoom g p m) (Exec.zoom g' p' m') Q' E' := by
  intro s s' hs
  have h0 := h (g s) (g' s') (h1 _ _ hs)
  unfold Exec.zoom
  revert h0
  rcases m (g s) with ⟨r, t⟩
  rcases m' (g' s') with ⟨r', t'⟩
  cases r <;> cases r' <;> simp only [imp_self]
  · rintro ⟨h4, h5⟩; exact ⟨h4, h2 _ _ _ _ _ hs h5⟩
  · rintro ⟨h4, h5⟩; exact ⟨h4, h3 _ _ _ _ _ hs h5⟩

end Exec
end Iir
