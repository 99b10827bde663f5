import Verif.Spec.Threads
import Verif.Props.Repaired

/-! # C88: filters in several threads

Threads that use objects of their own, and reading members of shared objects, do not notice each other, in whatever order their
calls are executed.  The part with the frame (`C88_footprint`) says that there are no data races either: what a call of one
thread writes is not used by another. -/

set_option linter.unusedSectionVars false

namespace Iir
open FArith Exec Spec

variable {R : Type} [FArith R] {T : Type} [Sample T R]

namespace Mem

/-- The objects of `G` are the same. -/
def Agree (G : Nat → Prop) (m m' : Mem R) : Prop := ∀ i, G i → m.obj i = m'.obj i

theorem Agree.change {G : Nat → Prop} {m m' : Mem R} (h : Agree G m m') (p : Nat) (f : Thing R → Thing R) :
    Agree G (m.change p f) (m'.change p f) := fun q hq => by
  rw [obj_change, obj_change, h q hq]

theorem Agree.store {G : Nat → Prop} {m m' : Mem R} (h : Agree G m m') (i : Nat) (o : PoleThing R) (b : PFB R) :
    Agree G (m.store i o b) (m'.store i o b) := (((h.change _ _).change _ _).change _ _).change _ _

theorem Agree.storeCascade {G : Nat → Prop} {m m' : Mem R} (h : Agree G m m') (i : Nat) (c : CascadeThing) (b : Cascade R) :
    Agree G (m.storeCascade i c b) (m'.storeCascade i c b) := by
  unfold Mem.storeCascade
  cases c.ptr with
  | none => exact h.change _ _
  | some p => exact (h.change _ _).change _ _

theorem Agree.stagesAt {G : Nat → Prop} {m m' : Mem R} (h : Agree G m m') {p : Nat} (hp : G p) : m.stagesAt p = m'.stagesAt p := by
  unfold Mem.stagesAt; rw [h p hp]

theorem Agree.view {G : Nat → Prop} {m m' : Mem R} (h : Agree G m m') {o : PoleThing R} (h1 : G o.stagePtr)
    (h2 : G o.digitalPtr) (h3 : G o.analogPtr) : m.view o = m'.view o := by
  unfold Mem.view Mem.digitalAt Mem.analogAt
  rw [h.stagesAt h1, h _ h2, h _ h3]

theorem Agree.viewCascade {G : Nat → Prop} {m m' : Mem R} (h : Agree G m m') {c : CascadeThing}
    (hc : ∀ p, c.ptr = some p → G p) : m.viewCascade c = m'.viewCascade c := by
  unfold Mem.viewCascade
  cases hp : c.ptr with
  | none => rfl
  | some p => simp only [Option.map_some, h.stagesAt (hc p hp)]

theorem Agree.attach {G : Nat → Prop} {m m' : Mem R} (h : Agree G m m') (i : Nat) {j : Nat} (hj : G j) :
    (m.attach (T := T) i j).1 = (m'.attach (T := T) i j).1 ∧ Agree G (m.attach (T := T) i j).2 (m'.attach (T := T) i j).2 := by
  unfold Mem.attach
  rw [h j hj]
  cases (m'.obj j).bind Thing.stages? with
  | none => exact ⟨rfl, h⟩
  | some st => exact ⟨rfl, h.change _ _⟩

/-- A call depends on the object and the objects it points to only. -/
theorem Agree.act {G : Nat → Prop} {m m' : Mem R} (h : Agree G m m') {i : Nat} (hi : G i)
    (hp : ∀ x p, m.obj i = some x → x.PointsTo p → G p) {a : Do T R} (ha : ∀ j, a = .attach j → G j) :
    (m.act i a).1 = (m'.act i a).1 ∧ Agree G (m.act i a).2 (m'.act i a).2 := by
  unfold Mem.act
  rw [← h i hi]
  cases hx : m.obj i with
  | none => exact ⟨rfl, h⟩
  | some x =>
    cases x with
    | pole o =>
      have v := h.view (hp _ _ hx (.inl rfl)) (hp _ _ hx (.inr (.inl rfl))) (hp _ _ hx (.inr (.inr rfl)))
      cases a
      case attach j => exact h.attach i (ha j rfl)
      case setup c =>
        simp only [doPole, v]
        split_ifs
        · exact ⟨rfl, h.store _ _ _⟩
        · exact ⟨rfl, h⟩
      case baseSetup n d =>
        simp only [doPole, v]
        split_ifs
        · exact ⟨rfl, h.store _ _ _⟩
        · exact ⟨rfl, h⟩
      case setLayout l => simp only [doPole, v]; exact ⟨trivial, h.store _ _ _⟩
      case scale k => simp only [doPole, v]; exact ⟨trivial, h.store _ _ _⟩
      case sosSetup rows => exact ⟨rfl, h.change _ _⟩
      case filter x => exact ⟨rfl, h.change _ _⟩
      case reset => exact ⟨rfl, h.change _ _⟩
      all_goals simp only [doPole, v]; exact ⟨trivial, h⟩
    | cascade c =>
      have v := h.viewCascade (c := c) fun p hc => hp _ p hx hc
      cases a
      case attach j => exact h.attach i (ha j rfl)
      case setLayout l => simp only [doCascade, v]; exact ⟨trivial, h.storeCascade _ _ _⟩
      case scale k => simp only [doCascade, v]; exact ⟨trivial, h.storeCascade _ _ _⟩
      all_goals simp only [doCascade, v]; exact ⟨trivial, h⟩
    | sos f =>
      cases a
      case sosSetup rows => exact ⟨rfl, h.change _ _⟩
      case filter x => exact ⟨rfl, h.change _ _⟩
      case reset => exact ⟨rfl, h.change _ _⟩
      all_goals exact ⟨rfl, h⟩
    | rbj f =>
      cases a
      case rbjSetupN d => exact ⟨rfl, h.change _ _⟩
      case rbjSetup fs d => exact ⟨rfl, h.change _ _⟩
      case filter x => exact ⟨rfl, h.change _ _⟩
      case reset => exact ⟨rfl, h.change _ _⟩
      case scale k => exact ⟨rfl, h.change _ _⟩
      all_goals exact ⟨rfl, h⟩

theorem Agree.assign {G : Nat → Prop} {m m' : Mem R} (h : Agree G m m') {i j : Nat} (hi : G i) (hj : G j) :
    (m.assign (T := T) i j).1 = (m'.assign (T := T) i j).1 ∧ Agree G (m.assign (T := T) i j).2 (m'.assign (T := T) i j).2 := by
  unfold Mem.assign
  rw [h i hi, h j hj]
  split
  · split_ifs
    · exact ⟨rfl, h.change _ _⟩
    · exact ⟨rfl, h⟩
  · exact ⟨rfl, h.change _ _⟩
  · split_ifs
    · exact ⟨rfl, h.change _ _⟩
    · exact ⟨rfl, h⟩
  · exact ⟨rfl, h.change _ _⟩
  · exact ⟨rfl, h⟩

theorem obj_set (m : Mem R) (i : Nat) (q : Nat) : Mem.obj (m.set i none) q = if i = q then none else m.obj q := by
  split_ifs with h
  · subst h
    rw [obj_eq, List.getElem?_set]
    split_ifs with h1 h2
    · rfl
    · rfl
    · exact absurd rfl h1
  · exact obj_set_ne h _

theorem Agree.destroy {G : Nat → Prop} {m m' : Mem R} (h : Agree G m m') {i : Nat} (hi : G i) :
    (m.step (.destroy i : Stmt T R)).1 = (m'.step (.destroy i : Stmt T R)).1 ∧
    Agree G (m.step (.destroy i : Stmt T R)).2 (m'.step (.destroy i : Stmt T R)).2 := by
  simp only [Mem.step]
  rw [← h i hi]
  cases m.obj i with
  | none => exact ⟨rfl, h⟩
  | some x => exact ⟨rfl, fun q hq => by rw [obj_set, obj_set, h q hq]⟩

/-- reading changes nothing -/
theorem act_reads (m : Mem R) (i : Nat) {a : Do T R} (ha : Do.Reads a) : (m.act i a).2 = m := by
  unfold Mem.act
  cases m.obj i with
  | none => rfl
  | some x => cases x <;> cases a <;> first | rfl | exact ha.elim

end Mem

open Mem

variable {owner : Nat → Option Nat} {t : Nat}

theorem Spec.Stmt.Allowed.act_cases {k : Nat} {a : Do T R} (h : Stmt.Allowed owner t (.act k a)) :
    (owner k = some t ∧ ∀ j, a = .attach j → owner j = some t) ∨ owner k = none ∧ Do.Reads a := by
  cases a
  case attach j => exact .inl ⟨h.1, fun j' e => by cases e; exact h.2⟩
  all_goals exact h.imp (fun h => ⟨h, fun j e => by cases e⟩) id

/-- What one statement of thread `t` changes belongs to `t`. -/
theorem Mem.step_frame {m : Mem R} (hm : Separated owner m) {s : Stmt T R} (hs : Stmt.Allowed owner t s) {q : Nat}
    (hq : owner q ≠ some t) : (m.step s).2.obj q = m.obj q := by
  cases s with
  | act k a =>
    rcases hs.act_cases with ⟨hk, -⟩ | ⟨-, hc⟩
    · exact act_reach (fun e : k = q => hq (e ▸ hk)) (fun x hx hp => hq ((hm k x q hx hp).trans hk)) a
    · show (m.act k a).2.obj q = _
      rw [act_reads m k hc]
  | assign k j => exact obj_assign_ne fun e : k = q => hq (e ▸ hs.1)
  | destroy k =>
    simp only [Mem.step]
    cases m.obj k with
    | none => rfl
    | some x => exact obj_set_ne (fun e : k = q => hq (e ▸ (show owner k = some t from hs))) _
  | _ => exact hs.elim

/-- Pointers stay within the threads. -/
theorem Mem.step_separated {m : Mem R} (hm : Separated owner m) {s : Stmt T R} (hs : Stmt.Allowed owner t s) :
    Separated owner (m.step s).2 := by
  have rep : ∀ {k : Nat} {f : Thing R → Thing R}, (∀ x p, m.obj k = some x → (f x).PointsTo p → owner p = owner k) →
      Separated owner (m.change k f) := by
    intro k f hf q x p hx hpt
    rw [obj_change] at hx
    split_ifs at hx with hk
    · subst hk
      cases hy : m.obj k with
      | none => rw [hy] at hx; cases hx
      | some y =>
        rw [hy] at hx
        obtain rfl := Option.some.inj hx
        exact hf y p hy hpt
    · exact hm q x p hx hpt
  have keep : ∀ {m' : Mem R}, Keeps m m' → Separated owner m' := fun h k x p hx hpt => by
    obtain ⟨y, hy, h1, -⟩ := h k x hx
    exact hm k y p hy ((h1 p).1 hpt)
  cases s with
  | act k a =>
    by_cases ha : ∃ j, a = .attach j
    · obtain ⟨j, rfl⟩ := ha
      have hatt : Separated owner (m.attach (T := T) k j).2 := by
        unfold Mem.attach
        cases (m.obj j).bind Thing.stages? with
        | none => exact hm
        | some st =>
          refine rep fun x p hx hpt => ?_
          rcases attached_other hpt with rfl | hpt
          · exact hs.2.trans hs.1.symm
          · exact hm _ _ _ hx hpt
      show Separated owner (m.act k (.attach j)).2
      unfold Mem.act
      cases hx : m.obj k with
      | none => exact hm
      | some x => cases x <;> first | exact hatt | exact hm
    · exact keep (keeps_act m k fun j e => ha ⟨j, e⟩)
  | assign k j =>
    show Separated owner (m.assign k j).2
    unfold Mem.assign
    split
    · split_ifs
      · exact keep (keeps_change m k (tame_lines _))
      · exact hm
    · rename_i c _ hj
      exact rep fun x p _ hpt => (hm j _ p hj hpt).trans (hs.2.trans hs.1.symm)
    · split_ifs
      · exact rep fun x p _ hpt => hpt.elim
      · exact hm
    · exact rep fun x p _ hpt => hpt.elim
    · exact hm
  | destroy k =>
    simp only [Mem.step]
    cases m.obj k with
    | none => exact hm
    | some x =>
      intro q y p hy hpt
      rw [Mem.obj_set] at hy
      split_ifs at hy
      exact hm q y p hy hpt
  | _ => exact hs.elim

/-- Own and shared objects. -/
def Spec.Visible (owner : Nat → Option Nat) (t : Nat) (i : Nat) : Prop := owner i = some t ∨ owner i = none

/-- A statement of thread `t` depends on what `t` can see only. -/
theorem Mem.step_local {m m' : Mem R} (hm : Separated owner m) (h : Agree (Visible owner t) m m') {s : Stmt T R}
    (hs : Stmt.Allowed owner t s) :
    (m.step s).1 = (m'.step s).1 ∧ Agree (Visible owner t) (m.step s).2 (m'.step s).2 := by
  cases s with
  | act k a =>
    have hk : Visible owner t k := hs.act_cases.imp (·.1) (·.1)
    refine h.act hk (fun x p hx hpt => ?_) fun j e => ?_
    · unfold Visible at hk ⊢; rwa [hm k x p hx hpt]
    · rcases hs.act_cases with ⟨-, hj⟩ | ⟨-, hc⟩
      · exact .inl (hj j e)
      · subst e; exact hc.elim
  | assign k j => exact h.assign (.inl hs.1) (.inl hs.2)
  | destroy k => exact h.destroy (.inl hs)
  | _ => exact hs.elim

/-- **C88**, no data races: a call of thread `t` leaves every object alone that belongs to another thread or is shared, and
its outcome and effect depend on the objects of `t` and the shared ones only. -/
theorem C88_footprint {m m' : Mem R} (hm : Separated owner m) {s : Stmt T R} (hs : Stmt.Allowed owner t s) :
    (∀ q, owner q ≠ some t → (m.step s).2.obj q = m.obj q) ∧ Separated owner (m.step s).2 ∧
    ((∀ i, owner i = some t ∨ owner i = none → m.obj i = m'.obj i) →
      (m.step s).1 = (m'.step s).1 ∧ ∀ i, owner i = some t → (m.step s).2.obj i = (m'.step s).2.obj i) :=
  ⟨fun _ hq => Mem.step_frame hm hs hq, Mem.step_separated hm hs, fun h =>
    ⟨(Mem.step_local hm h hs).1, fun i hi => (Mem.step_local hm h hs).2 i (.inl hi)⟩⟩

/-- **C88**: in whatever order the calls of the threads are executed, each thread has the outcomes, and ends up with the
objects, that it has when it is the only one. -/
theorem C88_threads (t : Nat) (p : List (Nat × Stmt T R)) {m : Mem R} (hm : Separated owner m)
    (hp : ∀ s ∈ p, Stmt.Allowed owner s.1 s.2) :
    outcomesOf t p (m.run (p.map (·.2))).1 = (m.run (threadOf t p)).1 ∧
    ∀ i, owner i = some t → (m.run (p.map (·.2))).2.obj i = (m.run (threadOf t p)).2.obj i := by
  suffices H : ∀ m', Separated owner m' → Agree (Visible owner t) m m' →
      outcomesOf t p (m.run (p.map (·.2))).1 = (m'.run (threadOf t p)).1 ∧
      Agree (Visible owner t) (m.run (p.map (·.2))).2 (m'.run (threadOf t p)).2 from
    ⟨(H m hm fun _ _ => rfl).1, fun i hi => (H m hm fun _ _ => rfl).2 i (.inl hi)⟩
  induction p generalizing m with
  | nil => exact fun m' _ h => ⟨rfl, h⟩
  | cons s p ih =>
    intro m' hm' h
    have hs := hp s (by simp)
    have hp' : ∀ s ∈ p, Stmt.Allowed owner s.1 s.2 := fun s h => hp s (by simp [h])
    by_cases hst : s.1 = t
    · rw [hst] at hs
      obtain ⟨h1, h2⟩ := Mem.step_local hm h hs
      obtain ⟨h3, h4⟩ := ih (Mem.step_separated hm hs) hp' _ (Mem.step_separated hm' hs) h2
      have e : threadOf t (s :: p) = s.2 :: threadOf t p := by simp [threadOf, hst]
      rw [e]
      refine ⟨?_, h4⟩
      simp only [List.map_cons, Mem.run]
      rw [← h3, ← h1]
      simp [outcomesOf, hst]
    · have h1 : Agree (Visible owner t) (m.step s.2).2 m' := fun i hi => by
        rw [Mem.step_frame hm hs, h i hi]
        rcases hi with hi | hi <;> rw [hi]
        · simpa using fun e => hst e.symm
        · simp
      obtain ⟨h3, h4⟩ := ih (Mem.step_separated hm hs) hp' m' hm' h1
      have e : threadOf t (s :: p) = threadOf t p := by simp [threadOf, hst]
      rw [e]
      refine ⟨?_, h4⟩
      simp only [List.map_cons, Mem.run]
      rw [← h3]
      simp [outcomesOf, hst]

/-- **C88**: the schedule does not matter. -/
theorem C88_schedule {p p' : List (Nat × Stmt T R)} {m : Mem R} (hm : Separated owner m)
    (hp : ∀ s ∈ p, Stmt.Allowed owner s.1 s.2) (hp' : ∀ s ∈ p', Stmt.Allowed owner s.1 s.2)
    (h : ∀ t, threadOf t p = threadOf t p') :
    (∀ t, outcomesOf t p (m.run (p.map (·.2))).1 = outcomesOf t p' (m.run (p'.map (·.2))).1) ∧
    ∀ i, (m.run (p.map (·.2))).2.obj i = (m.run (p'.map (·.2))).2.obj i := by
  have shared : ∀ (q : List (Nat × Stmt T R)) (m : Mem R), Separated owner m → (∀ s ∈ q, Stmt.Allowed owner s.1 s.2) →
      ∀ i, owner i = none → (m.run (q.map (·.2))).2.obj i = m.obj i := by
    intro q
    induction q with
    | nil => intros; rfl
    | cons s q ih =>
      intro m hm hq i hi
      simp only [List.map_cons, Mem.run]
      rw [ih _ (Mem.step_separated hm (hq s (by simp))) (fun s h => hq s (by simp [h])) i hi,
        Mem.step_frame hm (hq s (by simp)) (by rw [hi]; simp)]
  refine ⟨fun t => ?_, fun i => ?_⟩
  · rw [(C88_threads t p hm hp).1, (C88_threads t p' hm hp').1, h t]
  · cases hi : owner i with
    | none => rw [shared p m hm hp i hi, shared p' m hm hp' i hi]
    | some t => rw [(C88_threads t p hm hp).2 i hi, (C88_threads t p' hm hp').2 i hi, h t]

theorem Mem.own_of_new {p : List (Stmt T R)} (hp : ∀ s ∈ p, Spec.Stmt.IsNew s) {m : Mem R}
    (hm : ∀ k x q, m.obj k = some x → x.PointsTo q → q = k) :
    ∀ k x q, (m.run p).2.obj k = some x → x.PointsTo q → q = k := by
  induction p generalizing m with
  | nil => exact hm
  | cons s p ih =>
    refine ih (fun s h => hp s (by simp [h])) ?_
    have hs := hp s (by simp)
    have new : ∀ y : Thing R, (∀ q, y.PointsTo q → q = m.length) →
        ∀ k x q, (m.add (T := T) y).2.obj k = some x → x.PointsTo q → q = k := by
      intro y hy k x q hx hpt
      rcases obj_add_cases hx with h | ⟨rfl, rfl⟩
      · exact hm k x q h hpt
      · exact hy q hpt
    cases s with
    | new c n t => exact new _ fun q h => by rcases h with h | h | h <;> exact h.symm
    | newSos n t => exact new _ fun q h => h.elim
    | newCascade => exact new _ fun q h => by cases h
    | newRbj => exact new _ fun q h => h.elim
    | _ => exact hs.elim

/-- **C88** for the usual case: objects that are constructed, and then handed to threads in any way (no copies of pole filters
among them). -/
theorem C88_constructed (owner : Nat → Option Nat) {before : List (Stmt T R)} (hb : ∀ s ∈ before, Spec.Stmt.IsNew s) (t : Nat)
    (p : List (Nat × Stmt T R)) (hp : ∀ s ∈ p, Stmt.Allowed owner s.1 s.2) :
    let m := (Mem.run before ([] : Mem R)).2
    outcomesOf t p (m.run (p.map (·.2))).1 = (m.run (threadOf t p)).1 ∧
    ∀ i, owner i = some t → (m.run (p.map (·.2))).2.obj i = (m.run (threadOf t p)).2.obj i :=
  C88_threads t p (fun k x q hx hpt => by
    rw [Mem.own_of_new hb (m := []) (fun k x q h => by simp [Mem.obj_eq] at h) k x q hx hpt]) hp

/-- **C88**, the condition: a copy of a pole filter and the original must not go to different threads.  The copy points into the
original even when it is attached to its own sections; thread 0 destroys the original and thread 1 calls `setup` on the copy, and
the outcome depends on the schedule. -/
theorem C88_copies [Sample T XR] (s : Topology) :
    let m := (Mem.run ([.new .bwLowPass 4 s, .copy 0, .act 1 (.attach 1)] : List (Stmt T XR)) []).2
    let p : List (Nat × Stmt T XR) := [(1, .act 1 (.setup caseCall)), (0, .destroy 0)]
    let p' : List (Nat × Stmt T XR) := [(0, .destroy 0), (1, .act 1 (.setup caseCall))]
    (∀ s ∈ p, Stmt.Allowed some s.1 s.2) ∧ (∀ s ∈ p', Stmt.Allowed some s.1 s.2) ∧ (∀ t, threadOf t p = threadOf t p') ∧
      outcomesOf 1 p (m.run (p.map (·.2))).1 = [.ok .none] ∧ outcomesOf 1 p' (m.run (p'.map (·.2))).1 ≠ [.ok .none] := by
  intro m p p'
  obtain ⟨-, -, h1, h2⟩ := C85_false (T := T) s
  refine ⟨by simp [p, Stmt.Allowed], by simp [p', Stmt.Allowed], fun t => ?_, ?_, ?_⟩
  · by_cases h0 : 0 = t
    · subst h0; rfl
    · by_cases h1 : 1 = t
      · subst h1; rfl
      · simp [threadOf, p, p', h0, h1]
  · show [(m.step (.act 1 (.setup caseCall) : Stmt T XR)).1] = _
    rw [h1]
  · show [((m.step (.destroy 0 : Stmt T XR)).2.step (.act 1 (.setup caseCall) : Stmt T XR)).1] ≠ _
    intro h
    exact h2 _ (List.cons.inj h).1

/-- Two channels, each with a low pass of its own, and one thread for each; the response of an RBJ filter is shown by both.
Channel 1 filters, whatever happens in channel 0. -/
example (x : XR) : let m := (Mem.run ([.new .bwLowPass 4 .df2, .new .bwLowPass 4 .df1, .newRbj] : List (Stmt XR XR)) []).2
    let p : List (Nat × Stmt XR XR) := [(0, .act 0 (.setup caseCall)), (1, .act 2 (.response (.fin (1 / 8)))), (1, .act 1 (.filter x)),
      (0, .act 2 (.response (.fin (1 / 4)))), (0, .act 0 (.filter x)), (1, .act 1 (.filter x)), (0, .destroy 0)]
    outcomesOf 1 p (m.run (p.map (·.2))).1 =
      (m.run [.act 2 (.response (.fin (1 / 8))), .act 1 (.filter x), .act 1 (.filter x)]).1 :=
  (C88_constructed (fun i => if i = 2 then none else some i) (by simp [Spec.Stmt.IsNew]) 1 _
    (by simp [Stmt.Allowed, Do.Reads])).1

end Iir
