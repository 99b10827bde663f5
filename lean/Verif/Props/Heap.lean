import Verif.Spec.Program
import Verif.Spec.Client
import Verif.Lemmas.Cache

/-! # C43, C44, C45: several objects, copies, assignment -/

set_option linter.unusedSectionVars false

namespace Iir
open Spec FArith Exec

variable {R : Type} [FArith R] {S : Type → Type} [StateType S R] {T : Type} [Sample T R]

namespace Heap

@[simp] theorem obj_nil (i : Nat) : obj ([] : Heap S R) i = none := rfl

theorem obj_eq (h : Heap S R) (i : Nat) : h.obj i = (h[i]?).join := rfl

theorem obj_of_ge {h : Heap S R} {i : Nat} (hi : h.length ≤ i) : h.obj i = none := by
  simp [obj_eq, List.getElem?_eq_none hi]

theorem lt_of_obj {h : Heap S R} {i : Nat} {x : Obj S R} (hx : h.obj i = some x) : i < h.length := by
  by_contra hc
  rw [obj_of_ge (by omega)] at hx
  cases hx

theorem obj_append {h : Heap S R} {i : Nat} (x : Option (Obj S R)) (hi : i < h.length) :
    obj (h ++ [x]) i = h.obj i := by
  simp [obj_eq, List.getElem?_append_left hi]

theorem obj_append_new (h : Heap S R) (x : Option (Obj S R)) : obj (h ++ [x]) h.length = x := by
  simp [obj_eq]

theorem obj_set_ne {h : Heap S R} {i k : Nat} (hne : k ≠ i) (x : Option (Obj S R)) :
    obj (h.set k x) i = h.obj i := by
  simp [obj_eq, List.getElem?_set_ne hne]

theorem obj_set_self {h : Heap S R} {i : Nat} (hi : i < h.length) (x : Option (Obj S R)) :
    obj (h.set i x) i = x := by
  simp [obj_eq, hi]

/-- a change of a pole filter, applied to an object of any kind -/
def mapPole (f : PoleObj S R → PoleObj S R) : Obj S R → Obj S R
  | .pole o => .pole (f o)
  | x => x

theorem obj_onPole (h : Heap S R) (p : Nat) (f : PoleObj S R → PoleObj S R) (q : Nat) :
    (h.onPole p f).obj q = if p = q then (h.obj q).map (mapPole f) else h.obj q := by
  unfold onPole
  rw [obj_eq, List.getElem?_modify, obj_eq]
  split_ifs with hpq
  · subst hpq
    rcases h[p]? with _ | _ | x
    · simp
    · simp
    · cases x <;> rfl
  · simp

theorem obj_onPole_ne (h : Heap S R) {p q : Nat} (f : PoleObj S R → PoleObj S R) (hpq : p ≠ q) :
    (h.onPole p f).obj q = h.obj q := by rw [obj_onPole, if_neg hpq]

theorem onPole_length (h : Heap S R) (p : Nat) (f : PoleObj S R → PoleObj S R) :
    (h.onPole p f).length = h.length := by simp [onPole]

theorem obj_onPole_value {h : Heap S R} {p q : Nat} {f : PoleObj S R → PoleObj S R} {x : Obj S R}
    (hx : h.obj q = some x) (hv : IsValue x) : (h.onPole p f).obj q = some x := by
  rw [obj_onPole]
  split_ifs
  · rw [hx]; cases x <;> first | rfl | cases hv
  · exact hx

theorem store_length (h : Heap S R) (i : Nat) (o : PoleObj S R) (b : PFB R) :
    (h.store i o b).length = h.length := by simp [store, onPole_length]

theorem obj_store_value {h : Heap S R} {i q : Nat} {o : PoleObj S R} {b : PFB R} {x : Obj S R}
    (hx : h.obj q = some x) (hv : IsValue x) : (h.store i o b).obj q = some x := by
  unfold store
  exact obj_onPole_value (obj_onPole_value (obj_onPole_value (obj_onPole_value hx hv) hv) hv) hv

theorem obj_store_ne {h : Heap S R} {i q : Nat} {o : PoleObj S R} {b : PFB R} (hi : i ≠ q)
    (h1 : o.stagePtr ≠ q) (h2 : o.digitalPtr ≠ q) (h3 : o.analogPtr ≠ q) :
    (h.store i o b).obj q = h.obj q := by
  unfold store
  simp only [obj_onPole_ne _ _ hi, obj_onPole_ne _ _ h1, obj_onPole_ne _ _ h2, obj_onPole_ne _ _ h3]

theorem obj_store_owner {h : Heap S R} {i : Nat} {o : PoleObj S R} {b : PFB R}
    (ho : h.obj i = some (.pole o)) (h1 : o.stagePtr = i) (h2 : o.digitalPtr = i)
    (h3 : o.analogPtr = i) : (h.store i o b).obj i = some (.pole { o with own := b }) := by
  unfold store
  simp only [h1, h2, h3, obj_onPole, if_true, ho, Option.map_some, mapPole]
  rfl

theorem view_owner {h : Heap S R} {i : Nat} {o : PoleObj S R}
    (ho : h.obj i = some (.pole o)) (h1 : o.stagePtr = i) (h2 : o.digitalPtr = i)
    (h3 : o.analogPtr = i) : h.view o = o.own := by
  simp only [view, stagesAt, digitalAt, analogAt, h1, h2, h3, ho]
  rfl

/-! ## Value objects -/

theorem actPole_value {h : Heap S R} {k : Nat} {o : PoleObj S R} {a : Act T R} {i : Nat} {x : Obj S R}
    (hx : h.obj i = some x) (hv : IsValue x) : (h.actPole k o a).2.obj i = some x := by
  cases a
  case setup c =>
    simp only [actPole]
    split_ifs
    · exact obj_store_value hx hv
    · exact hx
  case scale => exact obj_store_value hx hv
  case filter => exact obj_onPole_value hx hv
  case reset => exact obj_onPole_value hx hv
  all_goals exact hx

/-- statements with another left side leave a value object alone -/
theorem step_value {h : Heap S R} {i : Nat} {x : Obj S R} (hx : h.obj i = some x) (hv : IsValue x)
    (cmd : Cmd T R) (hk : Cmd.keeps i cmd) (hne : ∀ a, cmd ≠ .act i a) :
    (h.step cmd).2.obj i = some x := by
  have hi := lt_of_obj hx
  cases cmd with
  | new c n => simp only [step]; rw [obj_append _ hi, hx]
  | newRbj => simp only [step]; rw [obj_append _ hi, hx]
  | newSos n => simp only [step]; rw [obj_append _ hi, hx]
  | copy k =>
    simp only [step]
    cases h.obj k with
    | none => exact hx
    | some y => rw [obj_append _ hi, hx]
  | assign k j =>
    have hk' : k ≠ i := hk
    simp only [step, assign]
    split
    · split_ifs
      · exact obj_onPole_value hx hv
      · exact hx
    · rw [obj_set_ne hk', hx]
    · split_ifs
      · rw [obj_set_ne hk', hx]
      · exact hx
    · exact hx
  | destroy k =>
    have hk' : k ≠ i := hk
    simp only [step]
    cases h.obj k with
    | none => exact hx
    | some y => rw [obj_set_ne hk', hx]
  | act k a =>
    have hk' : k ≠ i := fun e => hne a (by rw [e])
    simp only [step]
    split
    · exact actPole_value hx hv
    · rw [obj_set_ne hk', hx]
    · rw [obj_set_ne hk', hx]
    · exact hx

theorem step_value_act {h : Heap S R} {i : Nat} {x : Obj S R} (hx : h.obj i = some x) (hv : IsValue x)
    (a : Act T R) : (h.step (.act i a)).1 = (valueAct x a).1 ∧
      (h.step (.act i a)).2.obj i = some (valueAct x a).2 ∧ IsValue (valueAct x a).2 := by
  have hi := lt_of_obj hx
  cases x with
  | pole o => cases hv
  | rbj f => exact ⟨by simp only [step, hx, valueAct], by simp only [step, hx, valueAct, obj_set_self hi], trivial⟩
  | sos f => exact ⟨by simp only [step, hx, valueAct], by simp only [step, hx, valueAct, obj_set_self hi], trivial⟩

end Heap

open Heap

theorem actsOn_act_self (i : Nat) (a : Act T R) (cs : List (Cmd T R)) :
    actsOn i (.act i a :: cs) = a :: actsOn i cs := by simp [actsOn]

theorem actsOn_other {i : Nat} {c : Cmd T R} (cs : List (Cmd T R)) (hne : ∀ a, c ≠ .act i a) :
    actsOn i (c :: cs) = actsOn i cs := by
  cases c with
  | act k a =>
    have : k ≠ i := fun e => hne a (by rw [e])
    simp [actsOn, this]
  | _ => rfl

theorem outcomesOn_act_self (i : Nat) (a : Act T R) (cs : List (Cmd T R)) (r : Res (Obs T R)) rs :
    outcomesOn i (.act i a :: cs) (r :: rs) = r :: outcomesOn i cs rs := by simp [outcomesOn]

theorem outcomesOn_other {i : Nat} {c : Cmd T R} (cs : List (Cmd T R)) (hne : ∀ a, c ≠ .act i a)
    (r : Res (Obs T R)) rs : outcomesOn i (c :: cs) (r :: rs) = outcomesOn i cs rs := by
  cases c with
  | act k a =>
    have : k ≠ i := fun e => hne a (by rw [e])
    simp [outcomesOn, this]
  | _ => rfl

/-- **C43**: in every program, the calls on an RBJ filter or `SOSCascade` have exactly the outcomes
they would have on that object alone, whatever is done to other objects in between. -/
theorem C43_independent {h : Heap S R} {i : Nat} {x : Obj S R} (hx : h.obj i = some x) (hv : IsValue x)
    (cmds : List (Cmd T R)) (hk : ∀ c ∈ cmds, Cmd.keeps i c) :
    outcomesOn i cmds (h.run cmds).1 = (alone valueAct (actsOn i cmds) x).1 ∧
    (h.run cmds).2.obj i = some (alone valueAct (actsOn i cmds) x).2 := by
  induction cmds generalizing h x with
  | nil => exact ⟨rfl, hx⟩
  | cons c cs ih =>
    have hkc := hk c (by simp)
    have hkcs : ∀ c ∈ cs, Cmd.keeps i c := fun d hd => hk d (by simp [hd])
    by_cases hne : ∀ a, c ≠ .act i a
    · have hx' := step_value hx hv c hkc hne
      simp only [run, outcomesOn_other cs hne, actsOn_other cs hne]
      exact ih hx' hv hkcs
    · push Not at hne
      obtain ⟨a, rfl⟩ := hne
      obtain ⟨e1, e2, e3⟩ := step_value_act hx hv a
      simp only [run, outcomesOn_act_self, actsOn_act_self, alone]
      obtain ⟨i1, i2⟩ := ih e2 e3 hkcs
      exact ⟨by rw [e1, i1], i2⟩

theorem Heap.step_copy {h : Heap S R} {i : Nat} {x : Obj S R} (hx : h.obj i = some x) :
    h.step (.copy i : Cmd T R) = (.ok (.object h.length), h ++ [some x]) := by
  simp only [step, hx]

/-- **C43**: a copy is a new object; afterwards original and copy both continue, in any program, as
the original would have alone. -/
theorem C43_copy {h : Heap S R} {i : Nat} {x : Obj S R} (hx : h.obj i = some x) (hv : IsValue x) :
    ∃ h' j, h.step (.copy i : Cmd T R) = (.ok (.object j), h') ∧ j ≠ i ∧ h.obj j = none ∧
      ∀ cmds : List (Cmd T R), ∀ k, k = i ∨ k = j → (∀ c ∈ cmds, Cmd.keeps k c) →
        outcomesOn k cmds (h'.run cmds).1 = (alone valueAct (actsOn k cmds) x).1 ∧
        (h'.run cmds).2.obj k = some (alone valueAct (actsOn k cmds) x).2 := by
  have hi := lt_of_obj hx
  refine ⟨_, _, step_copy hx, by omega, obj_of_ge (Nat.le_refl _), fun cmds k hk hc => ?_⟩
  refine C43_independent ?_ hv cmds hc
  rcases hk with rfl | rfl
  · rw [obj_append _ hi, hx]
  · rw [obj_append_new]

/-- **C43**: assignment makes the left object equal to the right one and changes no other object. -/
theorem C43_assign {h : Heap S R} {i j : Nat} {x y : Obj S R} (hx : h.obj i = some x)
    (hy : h.obj j = some y) (hv : IsValue x) {h' : Heap S R} {r : Obs T R}
    (hs : h.step (.assign i j : Cmd T R) = (.ok r, h')) :
    h'.obj i = some y ∧ ∀ k, k ≠ i → h'.obj k = h.obj k := by
  have hi := lt_of_obj hx
  cases x with
  | pole => cases hv
  | rbj f =>
    cases y with
    | rbj g =>
      simp only [step, assign, hx, hy, Prod.mk.injEq] at hs
      rw [← hs.2]
      exact ⟨obj_set_self hi _, fun k hk => obj_set_ne (Ne.symm hk) _⟩
    | pole => simp [step, assign, hx, hy] at hs
    | sos => simp [step, assign, hx, hy] at hs
  | sos f =>
    cases y with
    | sos g =>
      simp only [step, assign, hx, hy] at hs
      split_ifs at hs
      · simp only [Prod.mk.injEq] at hs
        rw [← hs.2]
        exact ⟨obj_set_self hi _, fun k hk => obj_set_ne (Ne.symm hk) _⟩
      · simp at hs
    | pole => simp [step, assign, hx, hy] at hs
    | rbj => simp [step, assign, hx, hy] at hs

/-! ## C45 -/

/-- **C45**: `f = g` on pole filters has exactly the effect of `f.reset ()`, whatever `g` is: the
coefficients, pointers and prototypes of `f` stay as they were, its delay lines are cleared, and no
other object changes. -/
theorem C45_assign {h : Heap S R} {i j : Nat} {o o' : PoleObj S R} (ho : h.obj i = some (.pole o))
    (ho' : h.obj j = some (.pole o')) (hcls : o.cls = o'.cls) (hord : o.order = o'.order) :
    h.step (.assign i j : Cmd T R) = h.step (.act i .reset) ∧
    (h.step (.assign i j : Cmd T R)).1 = .ok .none ∧
    (h.step (.assign i j : Cmd T R)).2.obj i =
      some (.pole { o with states := CascadeStages.reset o.states }) ∧
    ∀ k, k ≠ i → (h.step (.assign i j : Cmd T R)).2.obj k = h.obj k := by
  have e : h.step (.assign i j : Cmd T R) =
      (.ok .none, h.onPole i fun o => { o with states := CascadeStages.reset o.states }) := by
    simp only [step, assign, ho, ho', hcls, hord, and_self, if_true]
  refine ⟨?_, by rw [e], ?_, fun k hk => ?_⟩
  · rw [e]; simp only [step, ho, actPole]
  · rw [e]; simp [obj_onPole, ho, mapPole]
  · rw [e]; exact obj_onPole_ne _ _ (Ne.symm hk)

/-- Calls that only ask. -/
def Spec.Act.isQuery : Act T R → Prop
  | .response _ => True
  | .poleZeros => True
  | .numStages => True
  | .stage _ => True
  | _ => False

theorem Heap.view_states (h : Heap S R) (i : Nat) (f : List (S R) → List (S R)) (o : PoleObj S R) :
    (h.onPole i fun o => { o with states := f o.states }).view o = h.view o := by
  have key : ∀ p, ((h.onPole i fun o => { o with states := f o.states }).obj p) =
      if i = p then (h.obj p).map (mapPole fun o => { o with states := f o.states }) else h.obj p :=
    fun p => obj_onPole _ _ _ _
  have h1 : ∀ p, (h.onPole i fun o => { o with states := f o.states }).stagesAt p = h.stagesAt p := by
    intro p
    unfold stagesAt
    rw [key]
    split_ifs
    · rcases h.obj p with _ | x
      · rfl
      · cases x <;> rfl
    · rfl
  have h2 : ∀ p, (h.onPole i fun o => { o with states := f o.states }).digitalAt p = h.digitalAt p := by
    intro p
    unfold digitalAt
    rw [key]
    split_ifs
    · rcases h.obj p with _ | x
      · rfl
      · cases x <;> rfl
    · rfl
  have h3 : ∀ p, (h.onPole i fun o => { o with states := f o.states }).analogAt p = h.analogAt p := by
    intro p
    unfold analogAt
    rw [key]
    split_ifs
    · rcases h.obj p with _ | x
      · rfl
      · cases x <;> rfl
    · rfl
  simp only [view, h1, h2, h3]

/-- **C45**: no query of any object answers differently after an assignment of pole filters; in
particular the coefficients, the response and the poles and zeros of the left side are still its
own. -/
theorem C45_queries {h : Heap S R} {i j : Nat} {o o' : PoleObj S R} (ho : h.obj i = some (.pole o))
    (ho' : h.obj j = some (.pole o')) (hcls : o.cls = o'.cls) (hord : o.order = o'.order)
    (k : Nat) (q : Act T R) (hq : Act.isQuery q) :
    ((h.step (.assign i j : Cmd T R)).2.step (.act k q)).1 = (h.step (.act k q)).1 := by
  have e : (h.step (.assign i j : Cmd T R)).2 =
      h.onPole i fun o => { o with states := CascadeStages.reset o.states } := by
    simp only [step, assign, ho, ho', hcls, hord, and_self, if_true]
  rw [e]
  simp only [step, obj_onPole]
  by_cases hik : i = k
  · subst hik
    rw [if_pos rfl, ho]
    simp only [Option.map_some, mapPole]
    cases q <;> first | exact hq.elim | (simp only [actPole, view_states]; rfl)
  · rw [if_neg hik]
    rcases h.obj k with _ | x
    · rfl
    · cases x with
      | pole p => cases q <;> first | exact hq.elim | simp only [actPole, view_states]
      | rbj f => rfl
      | sos f => rfl

/-! ## C44 -/

/-- What the object's member functions see: pointers resolved. -/
def PoleObj.filter (o : PoleObj S R) : PoleFilter S R := { base := o.own, states := o.states }

/-- The three pointers lead into object `i` itself, as the constructor sets them. -/
structure Spec.PointsTo (o : PoleObj S R) (i : Nat) : Prop where
  stage : o.stagePtr = i
  digital : o.digitalPtr = i
  analog : o.analogPtr = i

/-- No pointer of `o` leads into object `i`. -/
structure Spec.Avoids (o : PoleObj S R) (i : Nat) : Prop where
  stage : o.stagePtr ≠ i
  digital : o.digitalPtr ≠ i
  analog : o.analogPtr ≠ i

namespace Heap

/-- a member function on an object with its own storage acts as in the single object model -/
theorem step_owner {h : Heap S R} {i : Nat} {o : PoleObj S R} (ho : h.obj i = some (.pole o))
    (hp : PointsTo o i) (a : Act T R) :
    (h.step (.act i a)).1 = (poleAct o.cls o.order o.filter a).1 ∧
    ∃ o', (h.step (.act i a)).2.obj i = some (.pole o') ∧
      o'.filter = (poleAct o.cls o.order o.filter a).2 ∧ o'.cls = o.cls ∧ o'.order = o.order ∧
      PointsTo o' i := by
  have hv := view_owner ho hp.stage hp.digital hp.analog
  have hst := fun b => obj_store_owner (b := b) ho hp.stage hp.digital hp.analog
  simp only [step, ho]
  cases a with
  | setup c =>
    simp only [actPole, poleAct, hv]
    by_cases hc : c.design.cls = o.cls
    · rw [if_pos hc, if_pos hc]
      exact ⟨rfl, _, hst _, rfl, rfl, rfl, ⟨hp.stage, hp.digital, hp.analog⟩⟩
    · rw [if_neg hc, if_neg hc]
      exact ⟨rfl, _, ho, rfl, rfl, rfl, hp⟩
  | scale k =>
    simp only [actPole, poleAct, hv]
    exact ⟨rfl, _, hst _, rfl, rfl, rfl, ⟨hp.stage, hp.digital, hp.analog⟩⟩
  | filter x =>
    refine ⟨rfl, { o with states := (CascadeStages.filter o.own.cascade.stages x o.states).2 },
      ?_, ?_, ?_, ?_, ?_⟩
    · simp only [actPole, obj_onPole, if_true, ho, Option.map_some, mapPole]
    · rfl
    · rfl
    · rfl
    · exact ⟨hp.stage, hp.digital, hp.analog⟩
  | reset =>
    refine ⟨rfl, { o with states := CascadeStages.reset o.states }, ?_, ?_, ?_, ?_, ?_⟩
    · simp only [actPole, obj_onPole, if_true, ho, Option.map_some, mapPole]
    · rfl
    · rfl
    · rfl
    · exact ⟨hp.stage, hp.digital, hp.analog⟩
  | response f => exact ⟨by simp only [actPole, poleAct, hv]; rfl, _, ho, rfl, rfl, rfl, hp⟩
  | poleZeros => exact ⟨by simp only [actPole, poleAct, hv]; rfl, _, ho, rfl, rfl, rfl, hp⟩
  | numStages => exact ⟨by simp only [actPole, poleAct, hv]; rfl, _, ho, rfl, rfl, rfl, hp⟩
  | stage k => exact ⟨by simp only [actPole, poleAct, hv]; rfl, _, ho, rfl, rfl, rfl, hp⟩
  | rbjSetupN d => exact ⟨rfl, _, ho, rfl, rfl, rfl, hp⟩
  | rbjSetup fs d => exact ⟨rfl, _, ho, rfl, rfl, rfl, hp⟩
  | sosSetup rows => exact ⟨rfl, _, ho, rfl, rfl, rfl, hp⟩

/-- statements on other objects leave object `i` alone, unless they configure an object with a
pointer into `i` -/
theorem step_other {h : Heap S R} {i : Nat} (hi : i < h.length) (cmd : Cmd T R)
    (hk : Cmd.keeps i cmd) (hne : ∀ a, cmd ≠ .act i a)
    (hcl : ∀ k a o, cmd = .act k a → Act.isConfig a = true → h.obj k = some (.pole o) → Avoids o i) :
    (h.step cmd).2.obj i = h.obj i := by
  cases cmd with
  | new c n => simp only [step]; rw [obj_append _ hi]
  | newRbj => simp only [step]; rw [obj_append _ hi]
  | newSos n => simp only [step]; rw [obj_append _ hi]
  | copy k =>
    simp only [step]
    cases h.obj k with
    | none => rfl
    | some y => rw [obj_append _ hi]
  | assign k j =>
    have hk' : k ≠ i := hk
    simp only [step, assign]
    split
    · split_ifs
      · exact obj_onPole_ne _ _ hk'
      · rfl
    · rw [obj_set_ne hk']
    · split_ifs
      · rw [obj_set_ne hk']
      · rfl
    · rfl
  | destroy k =>
    have hk' : k ≠ i := hk
    simp only [step]
    cases h.obj k with
    | none => rfl
    | some y => rw [obj_set_ne hk']
  | act k a =>
    have hk' : k ≠ i := fun e => hne a (by rw [e])
    simp only [step]
    split
    case h_1 o ho =>
      cases a with
      | setup c =>
        have hav := hcl k _ o rfl rfl ho
        simp only [actPole]
        split_ifs
        · exact obj_store_ne hk' hav.stage hav.digital hav.analog
        · rfl
      | scale c =>
        have hav := hcl k _ o rfl rfl ho
        exact obj_store_ne hk' hav.stage hav.digital hav.analog
      | filter x => exact obj_onPole_ne _ _ hk'
      | reset => exact obj_onPole_ne _ _ hk'
      | _ => rfl
    · rw [obj_set_ne hk']
    · rw [obj_set_ne hk']
    · rfl

end Heap

/-- Along the program, `setup` and `applyScale` are never called on an object other than `i` that has
a pointer into `i` (that is: never on a copy of `i`). -/
def Spec.Unshared (i : Nat) : List (Cmd T R) → Heap S R → Prop
  | [], _ => True
  | c :: cs, h => (∀ k a o, k ≠ i → c = .act k a → Act.isConfig a = true → h.obj k = some (.pole o) →
      Avoids o i) ∧ Unshared i cs (h.step c).2

/-- **C44**, the part that holds: a pole filter with its own storage behaves in every program as it
would alone, provided no copy of it is set up or scaled.  Filtering, resetting, querying, copying,
assigning and destroying other objects, copies included, never matters.
(Missing: programs that set up a copy, `C44_false`.) -/
theorem C44_independent_partial {h : Heap S R} {i : Nat} {o : PoleObj S R}
    (ho : h.obj i = some (.pole o)) (hp : PointsTo o i) (cmds : List (Cmd T R))
    (hk : ∀ c ∈ cmds, Cmd.keeps i c) (hu : Unshared i cmds h) :
    outcomesOn i cmds (h.run cmds).1 = (alone (poleAct o.cls o.order) (actsOn i cmds) o.filter).1 ∧
    ∃ o', (h.run cmds).2.obj i = some (.pole o') ∧
      o'.filter = (alone (poleAct o.cls o.order) (actsOn i cmds) o.filter).2 := by
  induction cmds generalizing h o with
  | nil => exact ⟨rfl, _, ho, rfl⟩
  | cons c cs ih =>
    have hkc := hk c (by simp)
    have hkcs : ∀ c ∈ cs, Cmd.keeps i c := fun d hd => hk d (by simp [hd])
    by_cases hne : ∀ a, c ≠ .act i a
    · have hx' : (h.step c).2.obj i = some (.pole o) := by
        rw [step_other (lt_of_obj ho) c hkc hne (fun k a o hc => ?_), ho]
        subst hc
        exact hu.1 k a o (fun e => hne a (by rw [e])) rfl
      simp only [run, outcomesOn_other cs hne, actsOn_other cs hne]
      exact ih hx' hp hkcs hu.2
    · push Not at hne
      obtain ⟨a, rfl⟩ := hne
      obtain ⟨e1, o', e2, e3, e4, e5, e6⟩ := step_owner ho hp a
      simp only [run, outcomesOn_act_self, actsOn_act_self, alone]
      obtain ⟨i1, i2⟩ := ih e2 e6 hkcs hu.2
      rw [e3, e4, e5] at i1 i2
      exact ⟨by rw [e1, i1], i2⟩

/-! ### Pointers never change -/

/-- `m` never changes `g` of the state, however it ends. -/
def Exec.Keeps {σ α γ : Type} (g : σ → γ) (m : Exec σ α) : Prop := ∀ s, g (m s).2 = g s

theorem Exec.Keeps.bind {σ α β γ : Type} {g : σ → γ} {m : Exec σ α} {f : α → Exec σ β}
    (hm : Keeps g m) (hf : ∀ a, Keeps g (f a)) : Keeps g (m >>= f) := by
  intro s
  have h1 := hm s
  rw [bind_def]
  revert h1
  rcases m s with ⟨r, s'⟩
  cases r with
  | ok a => exact fun h1 => (hf a s').trans h1
  | throw e => exact id
  | ub u => exact id

theorem Exec.Keeps.loop {σ γ : Type} {g : σ → γ} {body : Nat → Exec σ Unit} (n : Nat)
    (h : ∀ i, Keeps g (body i)) : Keeps g (Exec.loop n body) := by
  induction n with
  | zero => exact fun s => rfl
  | succ n ih => exact Exec.Keeps.bind (m := Exec.loop n body) ih fun _ => h n

theorem Exec.Keeps.throwIf {σ γ : Type} {g : σ → γ} (b : Bool) (e : Err) :
    Keeps g (Exec.throwIf b e) := by
  intro s; cases b <;> rfl

theorem Exec.Keeps.lift {σ α γ : Type} {g : σ → γ} (r : Res α) :
    Keeps g (Exec.lift r : Exec σ α) := by
  intro s; rw [lift_def]

theorem Cascade.keeps_max_onStage (i : Nat) (m : Exec (Biquad R) Unit) :
    Exec.Keeps Cascade.maxStages (Cascade.onStage i m) := by
  intro c
  unfold Cascade.onStage
  split <;> rfl

theorem Cascade.keeps_max_scale (k : R) :
    Exec.Keeps Cascade.maxStages (Cascade.applyScale k : Exec (Cascade R) Unit) := by
  unfold Cascade.applyScale
  refine Exec.Keeps.bind (fun _ => rfl) fun c => ?_
  split_ifs
  · exact fun _ => rfl
  · exact keeps_max_onStage _ _

theorem Cascade.keeps_max_setLayout (l : Layout R) :
    Exec.Keeps Cascade.maxStages (Cascade.setLayout l : Exec (Cascade R) Unit) := by
  unfold Cascade.setLayout
  refine Exec.Keeps.bind (fun _ => rfl) fun _ => ?_
  refine Exec.Keeps.bind (fun _ => rfl) fun _ => ?_
  refine Exec.Keeps.bind (.throwIf _ _) fun _ => ?_
  refine Exec.Keeps.bind (.loop _ fun i => keeps_max_onStage _ _) fun _ => ?_
  refine Exec.Keeps.bind (.loop _ fun i => .bind (.lift _) fun _ => keeps_max_onStage _ _) fun _ => ?_
  refine Exec.Keeps.bind (fun _ => rfl) fun _ => ?_
  exact Exec.Keeps.bind (.lift _) fun _ => keeps_max_scale _

theorem PFB.keeps_max_scale (k : R) (b : PFB R) :
    (PFB.onCascade (Cascade.applyScale k) b).2.cascade.maxStages = b.cascade.maxStages :=
  Cascade.keeps_max_scale k b.cascade

theorem Design.keeps_max (o : Int) (d : Design R) :
    Exec.Keeps (fun b => b.cascade.maxStages) (d.baseSetup o) := by
  rw [Design.baseSetup_eq]
  unfold PFB.designWith
  refine Exec.Keeps.bind (fun _ => rfl) fun _ => ?_
  refine Exec.Keeps.bind (fun _ => rfl) fun _ => ?_
  refine Exec.Keeps.bind (fun _ => rfl) fun _ => ?_
  refine Exec.Keeps.bind (fun _ => rfl) fun _ => ?_
  exact fun b => Cascade.keeps_max_setLayout _ b.cascade

theorem Call.keeps_max (n : Nat) (c : Call R) (b : PFB R) :
    (c.run n b).2.cascade.maxStages = b.cascade.maxStages := by
  rw [Call.run_eq]
  split_ifs
  · rfl
  · exact Design.keeps_max _ _ b

namespace Heap

/-- Same class, order, pointers and array size. -/
structure Shape (o o' : PoleObj S R) : Prop where
  cls : o'.cls = o.cls
  order : o'.order = o.order
  stage : o'.stagePtr = o.stagePtr
  digital : o'.digitalPtr = o.digitalPtr
  analog : o'.analogPtr = o.analogPtr
  max : o'.own.cascade.maxStages = o.own.cascade.maxStages

theorem Shape.refl (o : PoleObj S R) : Shape o o := ⟨rfl, rfl, rfl, rfl, rfl, rfl⟩

theorem Shape.trans {o o' o'' : PoleObj S R} (h : Shape o o') (h' : Shape o' o'') : Shape o o'' :=
  ⟨h'.cls.trans h.cls, h'.order.trans h.order, h'.stage.trans h.stage, h'.digital.trans h.digital,
    h'.analog.trans h.analog, h'.max.trans h.max⟩

theorem onPole_shape {h : Heap S R} {p k : Nat} {f : PoleObj S R → PoleObj S R} {o' : PoleObj S R}
    (ho : (h.onPole p f).obj k = some (.pole o')) (hf : ∀ o, h.obj p = some (.pole o) → Shape o (f o)) :
    ∃ o, h.obj k = some (.pole o) ∧ Shape o o' := by
  rw [obj_onPole] at ho
  split_ifs at ho with hpk
  · subst hpk
    rcases hk : h.obj p with _ | x
    · rw [hk] at ho; cases ho
    · rw [hk] at ho
      cases x with
      | pole o =>
        simp only [Option.map_some, mapPole, Option.some.injEq, Obj.pole.injEq] at ho
        exact ⟨o, rfl, ho ▸ hf o hk⟩
      | rbj f => simp [mapPole] at ho
      | sos f => simp [mapPole] at ho
  · exact ⟨_, ho, .refl _⟩

theorem store_shape {h : Heap S R} {i k : Nat} {o : PoleObj S R} {b : PFB R} {o' : PoleObj S R}
    (hi : h.obj i = some (.pole o)) (hb : b.cascade.maxStages = o.own.cascade.maxStages)
    (ho : (h.store i o b).obj k = some (.pole o')) :
    ∃ o, h.obj k = some (.pole o) ∧ Shape o o' := by
  dsimp only [store] at ho
  obtain ⟨o4, ho, s4⟩ := onPole_shape ho (fun _ _ => ⟨rfl, rfl, rfl, rfl, rfl, rfl⟩)
  obtain ⟨o3, ho, s3⟩ := onPole_shape ho (fun _ _ => ⟨rfl, rfl, rfl, rfl, rfl, rfl⟩)
  obtain ⟨o2, ho, s2⟩ := onPole_shape ho (fun _ _ => ⟨rfl, rfl, rfl, rfl, rfl, rfl⟩)
  obtain ⟨o1, ho, s1⟩ := onPole_shape ho (fun p hp => ⟨rfl, rfl, rfl, rfl, rfl, by
    rw [hi] at hp; cases hp; exact hb⟩)
  exact ⟨o1, ho, ((s1.trans s2).trans s3).trans s4⟩

theorem append_cases {h : Heap S R} {x : Obj S R} {k : Nat} {y : Obj S R}
    (hy : obj (h ++ [some x]) k = some y) : h.obj k = some y ∨ (k = h.length ∧ y = x) := by
  rcases Nat.lt_trichotomy k h.length with hk | hk | hk
  · rw [obj_append _ hk] at hy; exact .inl hy
  · subst hk; rw [obj_append_new] at hy; exact .inr ⟨rfl, by simpa using hy.symm⟩
  · rw [obj_of_ge (by simp; omega)] at hy; cases hy

/-- where the pole filters present after a statement come from -/
theorem step_shape {h : Heap S R} (cmd : Cmd T R) {k : Nat} {o' : PoleObj S R}
    (ho : (h.step cmd).2.obj k = some (.pole o')) :
    (∃ o, h.obj k = some (.pole o) ∧ Shape o o') ∨
    (k = h.length ∧ ((∃ c n, cmd = .new c n ∧ o' = newPole S c n k) ∨
      ∃ i, cmd = .copy i ∧ h.obj i = some (.pole o'))) := by
  cases cmd with
  | new c n =>
    rcases append_cases ho with hy | ⟨hk, hy⟩
    · exact .inl ⟨_, hy, .refl _⟩
    · refine .inr ⟨hk, .inl ⟨c, n, rfl, ?_⟩⟩
      simpa [hk] using hy
  | newRbj =>
    rcases append_cases ho with hy | ⟨hk, hy⟩
    · exact .inl ⟨_, hy, .refl _⟩
    · cases hy
  | newSos n =>
    rcases append_cases ho with hy | ⟨hk, hy⟩
    · exact .inl ⟨_, hy, .refl _⟩
    · cases hy
  | copy i =>
    simp only [step] at ho
    rcases hx : h.obj i with _ | x
    · rw [hx] at ho
      exact .inl ⟨_, ho, .refl _⟩
    · rw [hx] at ho
      rcases append_cases ho with hy | ⟨hk, hy⟩
      · exact .inl ⟨_, hy, .refl _⟩
      · exact .inr ⟨hk, .inr ⟨i, rfl, hy ▸ hx⟩⟩
  | assign i j =>
    refine .inl ?_
    simp only [step, assign] at ho
    split at ho
    · split_ifs at ho
      · exact onPole_shape ho (fun _ _ => ⟨rfl, rfl, rfl, rfl, rfl, rfl⟩)
      · exact ⟨_, ho, .refl _⟩
    · rename_i f g hi hj
      by_cases hk : i = k
      · subst hk; rw [obj_set_self (lt_of_obj hi)] at ho; cases ho
      · rw [obj_set_ne hk] at ho; exact ⟨_, ho, .refl _⟩
    · rename_i f g hi hj
      split_ifs at ho
      · by_cases hk : i = k
        · subst hk; rw [obj_set_self (lt_of_obj hi)] at ho; cases ho
        · rw [obj_set_ne hk] at ho; exact ⟨_, ho, .refl _⟩
      · exact ⟨_, ho, .refl _⟩
    · exact ⟨_, ho, .refl _⟩
  | destroy i =>
    refine .inl ?_
    simp only [step] at ho
    rcases hx : h.obj i with _ | x
    · rw [hx] at ho; exact ⟨_, ho, .refl _⟩
    · rw [hx] at ho
      by_cases hk : i = k
      · subst hk; rw [obj_set_self (lt_of_obj hx)] at ho; cases ho
      · rw [obj_set_ne hk] at ho; exact ⟨_, ho, .refl _⟩
  | act i a =>
    refine .inl ?_
    simp only [step] at ho
    split at ho
    · rename_i p hp
      cases a with
      | setup c =>
        simp only [actPole] at ho
        split_ifs at ho
        · exact store_shape hp (show _ = (h.view p).cascade.maxStages from Call.keeps_max _ c _) ho
        · exact ⟨_, ho, .refl _⟩
      | scale c =>
        exact store_shape hp (show _ = (h.view p).cascade.maxStages from PFB.keeps_max_scale c _) ho
      | filter x => exact onPole_shape ho (fun _ _ => ⟨rfl, rfl, rfl, rfl, rfl, rfl⟩)
      | reset => exact onPole_shape ho (fun _ _ => ⟨rfl, rfl, rfl, rfl, rfl, rfl⟩)
      | _ => exact ⟨_, ho, .refl _⟩
    · rename_i f hi
      by_cases hk : i = k
      · subst hk; rw [obj_set_self (lt_of_obj hi)] at ho; cases ho
      · rw [obj_set_ne hk] at ho; exact ⟨_, ho, .refl _⟩
    · rename_i f hi
      by_cases hk : i = k
      · subst hk; rw [obj_set_self (lt_of_obj hi)] at ho; cases ho
      · rw [obj_set_ne hk] at ho; exact ⟨_, ho, .refl _⟩
    · exact ⟨_, ho, .refl _⟩

/-- every pole filter has its own storage -/
def AllOwn (h : Heap S R) : Prop := ∀ k o, h.obj k = some (.pole o) → PointsTo o k

theorem AllOwn.step {h : Heap S R} (ha : AllOwn h) (cmd : Cmd T R) (hc : ∀ i, cmd ≠ .copy i) :
    AllOwn (h.step cmd).2 := by
  intro k o' ho
  rcases step_shape cmd ho with ⟨o, h1, h2⟩ | ⟨hk, ⟨c, n, -, h2⟩ | ⟨i, h2, -⟩⟩
  · have := ha k o h1
    exact ⟨h2.stage.trans this.stage, h2.digital.trans this.digital, h2.analog.trans this.analog⟩
  · subst h2; exact ⟨rfl, rfl, rfl⟩
  · exact absurd h2 (hc i)

theorem AllOwn.run {h : Heap S R} (ha : AllOwn h) (cmds : List (Cmd T R))
    (hc : ∀ c ∈ cmds, ∀ i, c ≠ .copy i) : AllOwn (h.run cmds).2 := by
  induction cmds generalizing h with
  | nil => exact ha
  | cons c cs ih => exact ih (ha.step c (hc c (by simp))) (fun d hd => hc d (by simp [hd]))

theorem AllOwn.unshared {h : Heap S R} (ha : AllOwn h) (i : Nat) (cmds : List (Cmd T R))
    (hc : ∀ c ∈ cmds, ∀ i, c ≠ .copy i) : Unshared i cmds h := by
  induction cmds generalizing h with
  | nil => trivial
  | cons c cs ih =>
    refine ⟨fun k a o hk _ _ ho => ?_, ih (ha.step c (hc c (by simp))) (fun d hd => hc d (by simp [hd]))⟩
    have := ha k o ho
    exact ⟨this.stage ▸ hk, this.digital ▸ hk, this.analog ▸ hk⟩

/-- all pointers lead to objects that exist or have existed -/
def InRange (h : Heap S R) : Prop := ∀ k o, h.obj k = some (.pole o) → o.stagePtr < h.length ∧
  o.digitalPtr < h.length ∧ o.analogPtr < h.length

theorem step_length (h : Heap S R) (cmd : Cmd T R) : h.length ≤ (h.step cmd).2.length := by
  cases cmd with
  | new c n => simp [step]
  | newRbj => simp [step]
  | newSos n => simp [step]
  | copy i => simp only [step]; cases h.obj i <;> simp
  | assign i j =>
    simp only [step, assign]
    split
    · split_ifs <;> simp [onPole_length]
    · simp
    · split_ifs <;> simp
    · simp
  | destroy i => simp only [step]; cases h.obj i <;> simp
  | act i a =>
    simp only [step]
    split
    · cases a with
      | setup c => simp only [actPole]; split_ifs <;> simp [store_length]
      | scale c => simp [actPole, store_length]
      | filter x => simp [actPole, onPole_length]
      | reset => simp [actPole, onPole_length]
      | _ => exact Nat.le_refl _
    · simp
    · simp
    · simp

theorem InRange.step {h : Heap S R} (ha : InRange h) (cmd : Cmd T R) : InRange (h.step cmd).2 := by
  intro k o' ho
  have hl := step_length h cmd
  have hlt := lt_of_obj ho
  rcases step_shape cmd ho with ⟨o, h1, h2⟩ | ⟨hk, ⟨c, n, -, h2⟩ | ⟨i, -, h2⟩⟩
  · obtain ⟨a1, a2, a3⟩ := ha k o h1
    rw [h2.stage, h2.digital, h2.analog]
    omega
  · subst h2; exact ⟨hlt, hlt, hlt⟩
  · obtain ⟨a1, a2, a3⟩ := ha i o' h2
    omega

theorem InRange.run {h : Heap S R} (ha : InRange h) (cmds : List (Cmd T R)) :
    InRange (h.run cmds).2 := by
  induction cmds generalizing h with
  | nil => exact ha
  | cons c cs ih => exact ih (ha.step c)

end Heap

/-- **C44** for programs that copy construct no filters: every pole filter constructed in such a
program behaves as it would alone: it is the object of the single object model. -/
theorem C44_no_copies (before after : List (Cmd T R)) (c : Cls) (n : Nat)
    (h1 : ∀ d ∈ before, ∀ i, d ≠ .copy i) (h2 : ∀ d ∈ after, ∀ i, d ≠ .copy i) :
    ∃ (h : Heap S R) (i : Nat), (Heap.run before ([] : Heap S R)).2.step (.new c n : Cmd T R) = (.ok (.object i), h) ∧
      ((∀ d ∈ after, Cmd.keeps i d) → outcomesOn i after (h.run after).1 =
        (alone (poleAct c n) (actsOn i after) (PoleFilter.init S c n)).1) := by
  have ha : AllOwn (Heap.run before ([] : Heap S R)).2 := AllOwn.run (fun k o ho => by simp at ho) _ h1
  refine ⟨_, _, rfl, fun hk => ?_⟩
  have ha' := ha.step (.new c n : Cmd T R) (by simp)
  exact (C44_independent_partial (o := newPole S c n _) (obj_append_new _ _) ⟨rfl, rfl, rfl⟩ after hk
    (ha'.unshared _ after h2)).1

/-! ### Copies -/

/-- Nothing points to the coefficients inside object `j`. -/
def Heap.Frozen (h : Heap S R) (j : Nat) : Prop := ∀ k o, h.obj k = some (.pole o) → o.stagePtr ≠ j

theorem Heap.Frozen.step {h : Heap S R} {j : Nat} (hf : h.Frozen j) (hj : j < h.length) (cmd : Cmd T R) :
    (h.step cmd).2.Frozen j := by
  intro k o' ho
  rcases step_shape cmd ho with ⟨o, h1, h2⟩ | ⟨hk, ⟨c, n, -, h2⟩ | ⟨i, -, h2⟩⟩
  · rw [h2.stage]; exact hf k o h1
  · subst h2
    simp only [newPole]
    omega
  · exact hf i o' h2

namespace Heap

/-- own coefficients and delay lines of object `j` -/
def Chain (h : Heap S R) (j : Nat) (st : List (Biquad R)) (ss : List (S R)) : Prop :=
  ∃ o, h.obj j = some (.pole o) ∧ o.own.cascade.stages = st ∧ o.states = ss

theorem Chain.onPole {h : Heap S R} {j : Nat} {st : List (Biquad R)} {ss : List (S R)}
    (hc : h.Chain j st ss) (p : Nat) (f : PoleObj S R → PoleObj S R)
    (hf : p = j → ∀ o, (f o).own.cascade.stages = o.own.cascade.stages ∧ (f o).states = o.states) :
    (h.onPole p f).Chain j st ss := by
  obtain ⟨o, ho, h1, h2⟩ := hc
  by_cases hp : p = j
  · refine ⟨f o, ?_, ?_, ?_⟩
    · rw [obj_onPole, if_pos hp, ho]; rfl
    · rw [(hf hp o).1, h1]
    · rw [(hf hp o).2, h2]
  · exact ⟨o, by rw [obj_onPole_ne _ _ hp, ho], h1, h2⟩

theorem Chain.store {h : Heap S R} {j : Nat} {st : List (Biquad R)} {ss : List (S R)}
    (hc : h.Chain j st ss) (i : Nat) (o : PoleObj S R) (b : PFB R) (hp : o.stagePtr ≠ j) :
    (h.store i o b).Chain j st ss := by
  unfold Heap.store
  refine Chain.onPole (Chain.onPole (Chain.onPole (Chain.onPole hc _ _ ?_) _ _ ?_) _ _ ?_) _ _ ?_
  · exact fun _ _ => ⟨rfl, rfl⟩
  · exact fun e => absurd e hp
  · exact fun _ _ => ⟨rfl, rfl⟩
  · exact fun _ _ => ⟨rfl, rfl⟩

/-- whatever is called, except `filter` and `reset` on `j` itself -/
theorem Chain.step {h : Heap S R} {j : Nat} {st : List (Biquad R)} {ss : List (S R)}
    (hc : h.Chain j st ss) (hf : h.Frozen j) (cmd : Cmd T R) (hk : Cmd.keeps j cmd)
    (hne : ∀ a, cmd = .act j a → Act.isProcessing a = false) : (h.step cmd).2.Chain j st ss := by
  have hc0 := hc
  obtain ⟨o, ho, h1, h2⟩ := hc
  have hj := lt_of_obj ho
  have app : ∀ x, Chain (h ++ [x]) j st ss := fun x => ⟨o, by rw [obj_append _ hj, ho], h1, h2⟩
  have set : ∀ i x, i ≠ j → Chain (h.set i x) j st ss :=
    fun i x hi => ⟨o, by rw [obj_set_ne hi, ho], h1, h2⟩
  cases cmd with
  | new c n => exact app _
  | newRbj => exact app _
  | newSos n => exact app _
  | copy i =>
    simp only [Heap.step]
    cases h.obj i
    · exact hc0
    · exact app _
  | assign i k =>
    have hk' : i ≠ j := hk
    simp only [Heap.step, assign]
    split
    · split_ifs
      · exact hc0.onPole _ _ fun e => absurd e hk'
      · exact hc0
    · exact set _ _ hk'
    · split_ifs
      · exact set _ _ hk'
      · exact hc0
    · exact hc0
  | destroy i =>
    have hk' : i ≠ j := hk
    simp only [Heap.step]
    cases h.obj i
    · exact hc0
    · exact set _ _ hk'
  | act i a =>
    simp only [Heap.step]
    split
    case h_1 p hp =>
      have hst := hf i p hp
      cases a with
      | setup c =>
        simp only [actPole]
        split_ifs
        · exact hc0.store _ _ _ hst
        · exact hc0
      | scale c => exact hc0.store _ _ _ hst
      | filter x =>
        have hi : i ≠ j := fun e =>
          Bool.noConfusion (show true = false from hne (.filter x) (by rw [e]))
        exact hc0.onPole _ _ fun e => absurd e hi
      | reset =>
        have hi : i ≠ j := fun e =>
          Bool.noConfusion (show true = false from hne .reset (by rw [e]))
        exact hc0.onPole _ _ fun e => absurd e hi
      | _ => exact hc0
    case h_2 f hp =>
      refine set _ _ fun e => ?_
      rw [e, ho] at hp; cases hp
    case h_3 f hp =>
      refine set _ _ fun e => ?_
      rw [e, ho] at hp; cases hp
    · exact hc0

end Heap

/-- The outcomes of the calls of `filter` and `reset` on object `i`. -/
def Spec.processedOn (i : Nat) (cmds : List (Cmd T R)) (outs : List (Res (Obs T R))) :
    List (Res (Obs T R)) :=
  (cmds.zip outs).filterMap fun
    | (.act k a, r) => if k = i ∧ Act.isProcessing a = true then some r else none
    | _ => none

/-- `filter` and `reset` of a chain of sections with fixed coefficients. -/
def Spec.chainAct (st : List (Biquad R)) (ss : List (S R)) : Act T R → Res (Obs T R) × List (S R)
  | .filter x => ((CascadeStages.filter st x ss).1.map .sample, (CascadeStages.filter st x ss).2)
  | .reset => (.ok .none, CascadeStages.reset ss)
  | _ => (.ub .noObject, ss)

/-- **C44**: a copy starts with the coefficients and delay lines of the original, and from then on
`filter` and `reset` on the copy behave as on a chain with exactly these coefficients for ever,
whatever the program does: to the original, to other objects, *and to the copy itself*.  No `setup` or
`applyScale` on any object, not even on the copy, changes how the copy filters. -/
theorem C44_copy_frozen (before : List (Cmd T R)) (i : Nat) (o : PoleObj S R)
    (ho : (Heap.run before ([] : Heap S R)).2.obj i = some (.pole o)) :
    ∃ (h : Heap S R) (j : Nat), (Heap.run before ([] : Heap S R)).2.step (.copy i : Cmd T R) =
        (.ok (.object j), h) ∧ j ≠ i ∧ h.obj j = some (.pole o) ∧
      ∀ after : List (Cmd T R), (∀ d ∈ after, Cmd.keeps j d) →
        processedOn j after (h.run after).1 =
          (alone (chainAct o.own.cascade.stages) ((actsOn j after).filter Act.isProcessing) o.states).1 := by
  have hlt := lt_of_obj ho
  have hr : InRange (Heap.run before ([] : Heap S R)).2 := InRange.run (fun k o ho => by simp at ho) before
  refine ⟨_, _, step_copy ho, by omega, obj_append_new _ _, ?_⟩
  have hfr : Heap.Frozen ((Heap.run before ([] : Heap S R)).2 ++ [some (.pole o)])
      (Heap.run before ([] : Heap S R)).2.length := by
    intro k p hp
    rcases append_cases hp with hy | ⟨-, hy⟩
    · have := (hr k p hy).1; omega
    · cases hy
      have := (hr i o ho).1; omega
  have hch : Heap.Chain ((Heap.run before ([] : Heap S R)).2 ++ [some (.pole o)])
      (Heap.run before ([] : Heap S R)).2.length o.own.cascade.stages o.states :=
    ⟨o, obj_append_new _ _, rfl, rfl⟩
  generalize ((Heap.run before ([] : Heap S R)).2 ++ [some (.pole o)]) = h at hfr hch
  generalize (Heap.run before ([] : Heap S R)).2.length = j at hfr hch
  generalize o.own.cascade.stages = st at hch
  generalize o.states = ss at hch
  intro after
  induction after generalizing h ss with
  | nil => intro _; rfl
  | cons c cs ih =>
    intro hk
    have hkc := hk c (by simp)
    have hkcs : ∀ d ∈ cs, Cmd.keeps j d := fun d hd => hk d (by simp [hd])
    have hj : j < h.length := by obtain ⟨p, hp, -⟩ := hch; exact lt_of_obj hp
    have hfr' := hfr.step hj c
    by_cases hne : ∀ a, c = .act j a → Act.isProcessing a = false
    · have hch' := hch.step hfr c hkc hne
      have e1 : (actsOn j (c :: cs)).filter Act.isProcessing = (actsOn j cs).filter Act.isProcessing := by
        by_cases h0 : ∀ a, c ≠ .act j a
        · rw [actsOn_other cs h0]
        · push Not at h0
          obtain ⟨a, rfl⟩ := h0
          rw [actsOn_act_self, List.filter_cons, if_neg (by simp [hne a rfl])]
      have e2 : ∀ r rs, processedOn j (c :: cs) (r :: rs) = processedOn j cs rs := by
        intro r rs
        cases c with
        | act k a =>
          by_cases hkj : k = j
          · have := hne a (by rw [hkj])
            simp [processedOn, this]
          · simp [processedOn, hkj]
        | _ => rfl
      simp only [run, e1, e2]
      exact ih _ hfr' _ hch' hkcs
    · push Not at hne
      obtain ⟨a, rfl, ha⟩ := hne
      obtain ⟨p, hp, rfl, rfl⟩ := hch
      have ha' : Act.isProcessing a = true := by simpa using ha
      have e2 : ∀ r rs, processedOn j (.act j a :: cs) (r :: rs) = r :: processedOn j cs rs := by
        intro r rs
        simp [processedOn, ha']
      simp only [run, actsOn_act_self, e2, List.filter_cons, ha', if_true, alone]
      cases a with
      | filter x =>
        have hs : h.step (.act j (.filter x)) =
            ((CascadeStages.filter p.own.cascade.stages x p.states).1.map .sample,
              h.onPole j fun o => { o with states := (CascadeStages.filter p.own.cascade.stages x p.states).2 }) := by
          simp only [Heap.step, hp, actPole]
        rw [hs] at hfr' ⊢
        refine congrArg₂ _ rfl (ih _ hfr' _ ⟨{ p with states :=
          (CascadeStages.filter p.own.cascade.stages x p.states).2 }, ?_, ?_, ?_⟩ hkcs)
        · rw [obj_onPole, if_pos rfl, hp]; rfl
        · rfl
        · rfl
      | reset =>
        have hs : h.step (.act j .reset : Cmd T R) = (.ok .none,
              h.onPole j fun o => { o with states := CascadeStages.reset o.states }) := by
          simp only [Heap.step, hp, actPole]
        rw [hs] at hfr' ⊢
        refine congrArg₂ _ rfl (ih _ hfr' _ ⟨{ p with states := CascadeStages.reset p.states }, ?_, ?_, ?_⟩ hkcs)
        · rw [obj_onPole, if_pos rfl, hp]; rfl
        · rfl
        · rfl
      | _ => simp [Act.isProcessing] at ha'

/-- change the base class members -/
def PoleObj.setBase (o : PoleObj S R) (b : PFB R) : PoleObj S R := { o with own := b }

/-- **C44**, what goes wrong, 1: `setup` on a fresh copy of a filter installs the new coefficients in
the *original*: its sections become exactly what `setup` on the original itself would have made them,
while the sections the copy filters with stay as they were. -/
theorem C44_setup_on_copy {h : Heap S R} {i : Nat} {o : PoleObj S R} (ho : h.obj i = some (.pole o))
    (hp : PointsTo o i) (call : Call R) (hc : call.design.cls = o.cls) :
    ∃ h1 j, h.step (.copy i : Cmd T R) = (.ok (.object j), h1) ∧
      (h1.step (.act j (.setup call) : Cmd T R)).1 = (h.step (.act i (.setup call) : Cmd T R)).1 ∧
      ∃ oi oj oi', (h1.step (.act j (.setup call) : Cmd T R)).2.obj i = some (.pole oi) ∧
        (h1.step (.act j (.setup call) : Cmd T R)).2.obj j = some (.pole oj) ∧
        (h.step (.act i (.setup call) : Cmd T R)).2.obj i = some (.pole oi') ∧
        oi.own.cascade.stages = oi'.own.cascade.stages ∧
        oi.own.cascade.numStages = o.own.cascade.numStages ∧
        oj.own.cascade.stages = o.own.cascade.stages ∧
        oj.own.cascade.numStages = oi'.own.cascade.numStages ∧
        oi.states = o.states ∧ oj.states = o.states ∧ oi.cls = o.cls ∧ oi.order = o.order ∧ PointsTo oi i := by
  have hi := lt_of_obj ho
  have ho1 : obj (h ++ [some (.pole o)]) i = some (.pole o) := by rw [obj_append _ hi, ho]
  have hj1 : obj (h ++ [some (.pole o)]) h.length = some (.pole o) := obj_append_new _ _
  have hv : h.view o = o.own := view_owner ho hp.stage hp.digital hp.analog
  have hv1 : (h ++ [some (.pole o)] : Heap S R).view o = o.own :=
    view_owner ho1 hp.stage hp.digital hp.analog
  have hne : h.length ≠ i := by omega
  have e0 : h.step (.act i (.setup call) : Cmd T R) =
      ((call.run o.order o.own).1.map fun _ => .none, h.store i o (call.run o.order o.own).2) := by
    simp only [step, ho, actPole, if_pos hc, hv]
  have e1 : Heap.step (h ++ [some (.pole o)]) (.act h.length (.setup call) : Cmd T R) =
      ((call.run o.order o.own).1.map fun _ => .none,
        Heap.store (h ++ [some (.pole o)]) h.length o (call.run o.order o.own).2) := by
    simp only [step, hj1, actPole, if_pos hc, hv1]
  refine ⟨_, _, step_copy ho, by rw [e0, e1],
    o.setBase (o.own.withArrays (call.run o.order o.own).2.cascade.stages
        (call.run o.order o.own).2.digital.pairs (call.run o.order o.own).2.analog.lay.pairs),
    o.setBase ((call.run o.order o.own).2.withArrays o.own.cascade.stages
        o.own.digital.pairs o.own.analog.lay.pairs),
    o.setBase (call.run o.order o.own).2, ?_, ?_, ?_, rfl, rfl, rfl, rfl, rfl, rfl, rfl, rfl, ⟨hp.stage, hp.digital, hp.analog⟩⟩
  · rw [e1]
    unfold Heap.store
    simp only [hp.stage, hp.digital, hp.analog, obj_onPole, if_true, if_neg hne, ho1, Option.map_some,
      mapPole]
    simp [PoleObj.setBase, PFB.withArrays, hp.stage, hp.digital, hp.analog]
  · rw [e1]
    unfold Heap.store
    simp only [hp.stage, hp.digital, hp.analog, obj_onPole, if_true, if_neg hne.symm, hj1,
      Option.map_some, mapPole]
    simp [PoleObj.setBase, PFB.withArrays, hp.stage, hp.digital, hp.analog]
  · rw [e0, obj_store_owner ho hp.stage hp.digital hp.analog]
    rfl

namespace Heap

/-- the array size a pole filter believes in is that of its class -/
def Sized (h : Heap S R) : Prop := ∀ k o, h.obj k = some (.pole o) →
  o.own.cascade.maxStages = PoleFilter.numStages o.cls o.order

theorem Sized.step {h : Heap S R} (ha : Sized h) (cmd : Cmd T R) : Sized (h.step cmd).2 := by
  intro k o' ho
  rcases step_shape cmd ho with ⟨o, h1, h2⟩ | ⟨hk, ⟨c, n, -, h2⟩ | ⟨i, -, h2⟩⟩
  · rw [h2.max, h2.cls, h2.order, ha k o h1]
  · subst h2; rfl
  · exact ha i o' h2

theorem Sized.run {h : Heap S R} (ha : Sized h) (cmds : List (Cmd T R)) : Sized (h.run cmds).2 := by
  induction cmds generalizing h with
  | nil => exact ha
  | cons c cs ih => exact ih (ha.step c)

end Heap

theorem Exec.loop_first_ub {σ : Type} {body : Nat → Exec σ Unit} {s s' : σ} {u : UB} (n : Nat)
    (h : body 0 s = (.ub u, s')) : Exec.loop (n + 1) body s = (.ub u, s') := by
  induction n with
  | zero => simp [Exec.loop, bind_def', h]
  | succ n ih =>
    rw [Exec.loop, bind_def', ih]

theorem Cascade.setLayout_no_memory (l : Layout R) (c : Cascade R) (h0 : c.stages = [])
    (h1 : 0 < c.maxStages) : (Cascade.setLayout l c).1 ≠ .ok () := by
  unfold Cascade.setLayout
  simp only [bind_def, modify_def, get_def]
  cases decide ((l.numPoles + 1) / 2 > c.maxStages)
  · simp only [throwIf_false]
    obtain ⟨M, hM⟩ : ∃ M, c.maxStages = M + 1 := ⟨c.maxStages - 1, by omega⟩
    rw [hM, Exec.loop_first_ub (u := .outOfBounds)
      (s' := { numStages := (l.numPoles + 1) / 2, maxStages := c.maxStages, stages := c.stages }) M ?_]
    · simp
    · simp only [Cascade.onStage, h0, List.getElem?_nil]
      simp [hM]
  · simp

theorem Exec.Trip.trivial {σ α : Type} (m : Exec σ α) :
    Trip (fun _ => True) m (fun _ _ => True) (fun _ _ => True) (fun _ => True) := by
  intro s _
  rcases m s with ⟨r, s'⟩
  cases r <;> trivial

theorem Design.baseSetup_no_memory (o : Int) (d : Design R) (b : PFB R) (h0 : b.cascade.stages = [])
    (h1 : 0 < b.cascade.maxStages) : (d.baseSetup o b).1 ≠ .ok () := by
  have key : Trip (fun b : PFB R => b.cascade.stages = [] ∧ 0 < b.cascade.maxStages) (d.baseSetup o)
      (fun _ _ => False) (fun _ _ => True) (fun _ => True) := by
    rw [Design.baseSetup_eq]
    unfold PFB.designWith
    refine Trip.bind (Trip.zoom (Trip.trivial _) (fun _ _ => trivial)
      (Q' := fun _ b => b.cascade.stages = [] ∧ 0 < b.cascade.maxStages) (fun s _ t h _ => h)
      fun _ _ _ _ _ => trivial) fun _ => ?_
    refine Trip.bind (Trip.get (Q := fun _ b => b.cascade.stages = [] ∧ 0 < b.cascade.maxStages)
      fun s h => h) fun _ => ?_
    refine Trip.bind (Trip.zoom (Trip.trivial _) (fun _ _ => trivial)
      (Q' := fun _ b => b.cascade.stages = [] ∧ 0 < b.cascade.maxStages) (fun s _ t h _ => h)
      fun _ _ _ _ _ => trivial) fun _ => ?_
    refine Trip.bind (Trip.get (Q := fun _ b => b.cascade.stages = [] ∧ 0 < b.cascade.maxStages)
      fun s h => h) fun s1 => ?_
    intro s hs
    have hl := Cascade.setLayout_no_memory s1.digital s.cascade hs.1 hs.2
    unfold PFB.onCascade Exec.zoom
    simp only
    revert hl
    rcases Cascade.setLayout s1.digital s.cascade with ⟨r, c⟩
    cases r with
    | ok a => exact fun h => h rfl
    | throw e => exact fun _ => trivial
    | ub u => exact fun _ => trivial
  have := key b ⟨h0, h1⟩
  intro hok
  revert hok this
  rcases d.baseSetup o b with ⟨r, s⟩
  cases r with
  | ok a => exact fun h => h.elim
  | throw e => simp
  | ub u => simp

/-- **C44**, what goes wrong, 2: once the original is destroyed, `setup` on the copy cannot succeed any
more: it throws or is undefined behaviour.  (`order` at least 1, as in every instance of the
templates.) -/
theorem C44_dangling (before : List (Cmd T R)) (j : Nat) (o : PoleObj S R)
    (ho : (Heap.run before ([] : Heap S R)).2.obj j = some (.pole o)) (hn : 1 ≤ o.order)
    (hd : (Heap.run before ([] : Heap S R)).2.obj o.stagePtr = none) (call : Call R) (r : Obs T R) :
    ((Heap.run before ([] : Heap S R)).2.step (.act j (.setup call))).1 ≠ .ok r := by
  have hsz : Sized (Heap.run before ([] : Heap S R)).2 := Sized.run (fun k o ho => by simp at ho) before
  generalize (Heap.run before ([] : Heap S R)).2 = h at *
  simp only [step, ho, actPole]
  split_ifs with hc
  swap
  · simp
  have h0 : (h.view o).cascade.stages = [] := by
    simp only [view, PFB.withArrays, stagesAt, hd]
  have h1 : 0 < (h.view o).cascade.maxStages := by
    show 0 < o.own.cascade.maxStages
    rw [hsz j o ho]
    unfold PoleFilter.numStages
    have : o.order ≤ o.cls.maxDigital o.order := by
      cases o.cls <;> simp only [Cls.maxDigital] <;> omega
    omega
  rw [Call.run_eq]
  split_ifs
  · simp [Res.map]
  · have := Design.baseSetup_no_memory (call.order o.order) call.normDesign (h.view o) h0 h1
    revert this
    rcases (call.normDesign.baseSetup (call.order o.order) (h.view o)).1 with _ | _ | _
    · exact fun h => (h rfl).elim
    · simp [Res.map]
    · simp [Res.map]

/-! ### The hypotheses are met -/

/-- `C43_independent`, `C43_copy`: an RBJ filter and a copy of it, both used afterwards -/
example (x : T) : let h := (Heap.run ([.newRbj, .copy 0, .act 1 (.filter x), .act 0 .reset] : List (Cmd T R))
    ([] : Heap S R)).2
    ∃ f g, h.obj 0 = some (.rbj f) ∧ h.obj 1 = some (.rbj g) := ⟨_, _, rfl, rfl⟩

/-- `C45_assign`: two filters of one class -/
example : let h := (Heap.run ([.new .bwLowPass 4, .new .bwLowPass 4] : List (Cmd T R)) ([] : Heap S R)).2
    ∃ o o', h.obj 0 = some (.pole o) ∧ h.obj 1 = some (.pole o') ∧ o.cls = o'.cls ∧ o.order = o'.order :=
  ⟨_, _, rfl, rfl, rfl, rfl⟩

/-- `C44_independent_partial`: a filter and its copy, which is filtered but not set up -/
example (x : T) (c : Call R) : let h := (Heap.run ([.new .bwLowPass 4] : List (Cmd T R)) ([] : Heap S R)).2
    ∃ o, h.obj 0 = some (.pole o) ∧ PointsTo o 0 ∧
      Unshared 0 ([.copy 0, .act 1 (.filter x), .act 0 (.setup c), .destroy 1] : List (Cmd T R)) h :=
  ⟨_, rfl, ⟨rfl, rfl, rfl⟩, ⟨by simp, fun k a o _ e ha => (by cases e; cases ha),
    fun k a o hk e => (by cases e; exact absurd rfl hk), by simp, trivial⟩⟩

/-- `C44_setup_on_copy` and `C44_copy_frozen` -/
example : let h := (Heap.run ([.new .c1BandPass 3] : List (Cmd T R)) ([] : Heap S R)).2
    ∃ o, h.obj 0 = some (.pole o) ∧ PointsTo o 0 ∧ o.cls = .c1BandPass := ⟨_, rfl, ⟨rfl, rfl, rfl⟩, rfl⟩

/-- `C44_dangling`: construct, copy, destroy the original -/
example : let h := (Heap.run ([.new .bwLowPass 1, .copy 0, .destroy 0] : List (Cmd T R)) ([] : Heap S R)).2
    ∃ o, h.obj 1 = some (.pole o) ∧ 1 ≤ o.order ∧ h.obj o.stagePtr = none :=
  ⟨_, rfl, Nat.le_refl _, rfl⟩

end Iir
