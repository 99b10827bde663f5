import Verif.Props.Attached
import Verif.Props.Cases

/-! # C85: a copy of a pole filter that is attached to its own sections -/

set_option linter.unusedSectionVars false

namespace Iir
open FArith Exec Spec Mem

variable {R : Type} [FArith R] {T : Type} [Sample T R]

/-! ## Specification -/

/-- The `Cascade` part of the object works on the sections of object `p`. -/
def Thing.WorksOn (x : Thing R) (p : Nat) : Prop :=
  match x with
  | .pole o => o.stagePtr = p
  | .cascade c => c.ptr = some p
  | _ => False

/-- Object `i` is a pole filter that works on its own sections, and no other object works on them. -/
def Spec.OwnSections (m : Mem R) (i : Nat) : Prop :=
  (∃ o, m.obj i = some (.pole o)) ∧ ∀ k x p, m.obj k = some x → x.WorksOn p → (k = i ↔ p = i)

/-- Calls that do not use the prototypes: everything but `setup` and `getPoleZeros`. -/
def Spec.Do.OnSections : Do T R → Prop
  | .setup _ => False
  | .baseSetup _ _ => False
  | .poleZeros => False
  | _ => True

/-! ## Filters up to the arrays of their prototypes -/

/-- the object with the arrays of its prototypes erased -/
def Thing.erase : Thing R → Thing R
  | .pole o => .pole { o with own := o.own.withArrays o.own.cascade.stages [] [] }
  | x => x

theorem erase_pole {o : PoleThing R} {x : Thing R} (h : x.erase = (Thing.pole o).erase) :
    ∃ o', x = .pole o' ∧ o'.cls = o.cls ∧ o'.order = o.order ∧ o'.lines = o.lines ∧ o'.own.cascade = o.own.cascade ∧
      o'.stagePtr = o.stagePtr ∧ o'.digitalPtr = o.digitalPtr ∧ o'.analogPtr = o.analogPtr ∧
      (∀ st dg an, o'.own.withArrays st dg an = o.own.withArrays st dg an) := by
  cases x with
  | pole o' =>
    refine ⟨o', rfl, ?_⟩
    rcases o with ⟨c, n, ⟨cas, dig, ana⟩, l, p1, p2, p3⟩
    rcases o' with ⟨c', n', ⟨cas', dig', ana'⟩, l', p1', p2', p3'⟩
    simp only [Thing.erase, PFB.withArrays, Thing.pole.injEq, PoleThing.mk.injEq, PFB.mk.injEq] at h ⊢
    obtain ⟨h1, h2, ⟨h3, h4, h5⟩, h6, h7, h8, h9⟩ := h
    refine ⟨h1, h2, h6, ?_, h7, h8, h9, fun st dg an => ?_⟩
    · rcases cas with ⟨a, b, c⟩
      rcases cas' with ⟨a', b', c'⟩
      simpa using h3
    · refine ⟨?_, ?_, ?_⟩
      · have := congrArg (fun c : Cascade R => { c with stages := st }) h3
        simpa using this
      · have := congrArg (fun c : Layout R => { c with pairs := dg }) h4
        simpa using this
      · have := congrArg (fun c : Proto R => { c with lay := { c.lay with pairs := an } }) h5
        simpa using this
  | cascade c => cases h
  | sos f => cases h
  | rbj f => cases h

theorem erase_worksOn {x y : Thing R} (h : x.erase = y.erase) (p : Nat) : x.WorksOn p ↔ y.WorksOn p := by
  cases y with
  | pole o =>
    obtain ⟨o', rfl, -, -, -, -, e, -⟩ := erase_pole h
    simp only [Thing.WorksOn, e]
  | cascade c =>
    cases x with
    | cascade c' => rw [show c' = c from by simpa [Thing.erase] using h]
    | pole o => cases h
    | sos f => cases h
    | rbj f => cases h
  | sos f =>
    cases x with
    | sos g => exact .rfl
    | pole o => cases h
    | cascade f => cases h
    | rbj f => cases h
  | rbj f =>
    cases x with
    | rbj g => exact .rfl
    | pole o => cases h
    | cascade f => cases h
    | sos f => cases h

theorem erase_digital (dg : List (PoleZeroPair R)) (x : Thing R) : (x.writeDigital dg).erase = x.erase := by cases x <;> rfl
theorem erase_analog (an : List (PoleZeroPair R)) (x : Thing R) : (x.writeAnalog an).erase = x.erase := by cases x <;> rfl

namespace Mem

/-- `WorksOn` everywhere as before -/
def KeepsWork (m m' : Mem R) : Prop := ∀ k x', m'.obj k = some x' → ∃ x, m.obj k = some x ∧ ∀ p, x'.WorksOn p ↔ x.WorksOn p

theorem KeepsWork.refl (m : Mem R) : KeepsWork m m := fun _ x h => ⟨x, h, fun _ => .rfl⟩

theorem KeepsWork.trans {a b c : Mem R} (h : KeepsWork a b) (h' : KeepsWork b c) : KeepsWork a c := fun k x hx => by
  obtain ⟨y, hy, h1⟩ := h' k x hx
  obtain ⟨z, hz, h3⟩ := h k y hy
  exact ⟨z, hz, fun p => (h1 p).trans (h3 p)⟩

theorem keepsWork_change (m : Mem R) (i : Nat) {f : Thing R → Thing R} (hf : ∀ x, m.obj i = some x → ∀ p, (f x).WorksOn p ↔ x.WorksOn p) :
    KeepsWork m (m.change i f) := fun k x' h => by
  rw [obj_change] at h
  split_ifs at h with hk
  · subst hk
    cases hx : m.obj i with
    | none => rw [hx] at h; cases h
    | some x =>
      rw [hx] at h
      obtain rfl := Option.some.inj h
      exact ⟨x, rfl, hf x hx⟩
  · exact ⟨x', h, fun _ => .rfl⟩

theorem works_stages (st : List (Biquad R)) (x : Thing R) (p : Nat) : (x.writeStages st).WorksOn p ↔ x.WorksOn p := by cases x <;> exact .rfl
theorem works_digital (st : List (PoleZeroPair R)) (x : Thing R) (p : Nat) : (x.writeDigital st).WorksOn p ↔ x.WorksOn p := by cases x <;> exact .rfl
theorem works_analog (st : List (PoleZeroPair R)) (x : Thing R) (p : Nat) : (x.writeAnalog st).WorksOn p ↔ x.WorksOn p := by cases x <;> exact .rfl
theorem works_scalars (b : PFB R) (x : Thing R) (p : Nat) : (x.writeScalars b).WorksOn p ↔ x.WorksOn p := by cases x <;> exact .rfl
theorem works_lines (l : Lines R) (x : Thing R) (p : Nat) : (x.writeLines l).WorksOn p ↔ x.WorksOn p := by cases x <;> exact .rfl

theorem keepsWork_store (m : Mem R) (i : Nat) (o : PoleThing R) (b : PFB R) : KeepsWork m (m.store i o b) :=
  (((keepsWork_change m i fun x _ => works_scalars b x).trans (keepsWork_change _ o.stagePtr fun x _ => works_stages _ x)).trans
    (keepsWork_change _ o.digitalPtr fun x _ => works_digital _ x)).trans (keepsWork_change _ o.analogPtr fun x _ => works_analog _ x)

theorem keepsWork_storeCascade {m : Mem R} {i : Nat} {c : CascadeThing} (hc : m.obj i = some (.cascade c)) (b : Cascade R) :
    KeepsWork m (m.storeCascade i c b) := by
  have h1 : KeepsWork m (m.change i fun _ => .cascade { c with numStages := b.numStages, maxStages := b.maxStages }) :=
    keepsWork_change m i fun x hx p => by rw [hc] at hx; obtain rfl := Option.some.inj hx; exact .rfl
  cases hp : c.ptr with
  | none => simpa only [storeCascade, hp] using h1
  | some p =>
    have := h1.trans (keepsWork_change _ p fun x _ => works_stages b.stages x)
    simpa only [storeCascade, hp] using this

theorem keepsWork_rbj {m : Mem R} {i : Nat} {f : RBJ.Filter R} (hf : m.obj i = some (.rbj f)) (g : RBJ.Filter R) :
    KeepsWork m (m.change i fun _ => .rbj g) :=
  keepsWork_change m i fun x hx p => by rw [hf] at hx; obtain rfl := Option.some.inj hx; exact .rfl

theorem keepsWork_act (m : Mem R) (i : Nat) {a : Do T R} (ha : ∀ j, a ≠ .attach j) : KeepsWork m (m.act i a).2 := by
  unfold act
  cases hx : m.obj i with
  | none => exact .refl m
  | some x =>
    cases x with
    | pole o =>
      cases a
      case attach j => exact absurd rfl (ha j)
      all_goals simp only [doPole]
      all_goals try split_ifs
      all_goals first
        | exact keepsWork_store _ _ _ _
        | exact .refl m
        | exact keepsWork_change _ _ fun x _ => works_stages _ x
        | exact keepsWork_change _ _ fun x _ => works_lines _ x
    | cascade c =>
      cases a
      case attach j => exact absurd rfl (ha j)
      all_goals simp only [doCascade]
      all_goals first
        | exact keepsWork_storeCascade hx _
        | exact .refl m
    | sos f =>
      cases a
      all_goals simp only [doSos]
      all_goals first
        | exact .refl m
        | exact keepsWork_change _ _ fun x _ => works_stages _ x
        | exact keepsWork_change _ _ fun x _ => works_lines _ x
    | rbj f =>
      cases a
      all_goals simp only [doRbj]
      all_goals first
        | exact .refl m
        | exact keepsWork_rbj hx _

/-- object `i` of both memories, up to the arrays of prototypes -/
def Like (m : Mem R) (i : Nat) (x : Thing R) : Prop := ∃ y, m.obj i = some y ∧ y.erase = x.erase

theorem Like.change {m : Mem R} {i k : Nat} {x : Thing R} (h : Like m i x) {f : Thing R → Thing R}
    (hf : k = i → ∀ y, (f y).erase = y.erase) : Like (m.change k f) i x := by
  obtain ⟨y, hy, e⟩ := h
  by_cases hk : k = i
  · subst hk; exact ⟨_, obj_change_self hy f, (hf rfl y).trans e⟩
  · exact ⟨y, by rw [obj_change_ne _ _ hk, hy], e⟩

theorem Like.store {m : Mem R} {i k : Nat} {x : Thing R} (h : Like m i x) {o : PoleThing R} {b : PFB R} (hk : k ≠ i)
    (hs : o.stagePtr ≠ i) : Like (m.store k o b) i x :=
  (((h.change fun e => absurd e hk).change fun e => absurd e hs).change fun _ => erase_digital _).change fun _ => erase_analog _

/-- What is kept about a filter that works on its own sections. -/
structure Own (m : Mem R) (i : Nat) (x : Thing R) : Prop where
  like : Like m i x
  pole : ∃ o, x = .pole o ∧ o.stagePtr = i
  works : ∀ k y p, m.obj k = some y → y.WorksOn p → (k = i ↔ p = i)

theorem Own.obj {m : Mem R} {i : Nat} {x : Thing R} (h : Own m i x) : ∃ o, m.obj i = some (.pole o) ∧ o.stagePtr = i := by
  obtain ⟨y, hy, e⟩ := h.like
  obtain ⟨o, rfl, ho⟩ := h.pole
  obtain ⟨o', rfl, -, -, -, -, e5, -⟩ := erase_pole e
  exact ⟨o', hy, e5.trans ho⟩

theorem works_of {m m' : Mem R} {i : Nat} (h : KeepsWork m m') (hw : ∀ k y p, m.obj k = some y → Thing.WorksOn y p → (k = i ↔ p = i)) :
    ∀ k y p, m'.obj k = some y → Thing.WorksOn y p → (k = i ↔ p = i) := fun k y p hy hp => by
  obtain ⟨x, hx, e⟩ := h k y hy
  exact hw k x p hx ((e p).1 hp)

theorem attached_works {j p : Nat} {st : List (Biquad R)} {x : Thing R} (h : (attached j st x).WorksOn p) :
    p = j := by
  cases x with
  | pole o => exact h.symm
  | cascade c => exact (Option.some.inj h).symm
  | sos f => exact h.elim
  | rbj f => exact h.elim

theorem works_attach {m : Mem R} {i k j : Nat} (hw : ∀ q y p, m.obj q = some y → Thing.WorksOn y p → (q = i ↔ p = i)) (h : k = i ↔ j = i) :
    ∀ q y p, (m.attach (T := T) k j).2.obj q = some y → Thing.WorksOn y p → (q = i ↔ p = i) := by
  unfold attach
  cases hj : (m.obj j).bind Thing.stages? with
  | none => exact hw
  | some st =>
    intro q x' p hx hpt
    rw [show ((.ok .none, m.change k (attached j st)) : Res (Obs T R) × Mem R).2 = m.change k (attached j st) from rfl,
      obj_change] at hx
    split_ifs at hx with hk
    · subst hk
      cases hy : m.obj k with
      | none => rw [hy] at hx; cases hx
      | some y =>
        rw [hy] at hx
        obtain rfl := Option.some.inj hx
        rw [attached_works hpt]
        exact h
    · exact hw _ _ _ hx hpt

theorem act_attach_cases (m : Mem R) (k j : Nat) :
    (m.act k (.attach j : Do T R)).2 = m ∨ (m.act k (.attach j : Do T R)).2 = (m.attach (T := T) k j).2 := by
  unfold act
  cases m.obj k with
  | none => exact .inl rfl
  | some y => cases y <;> first | exact .inl rfl | exact .inr rfl

theorem works_assign {m : Mem R} {i k j : Nat} (hw : ∀ q y p, m.obj q = some y → Thing.WorksOn y p → (q = i ↔ p = i))
    (hpole : ∃ o, m.obj i = some (.pole o)) (hk : k ≠ i) :
    ∀ q y p, (m.assign (T := T) k j).2.obj q = some y → Thing.WorksOn y p → (q = i ↔ p = i) := by
  have nop : ∀ {y z : Thing R} , (∀ p, y.WorksOn p → p ≠ i) → m.obj k = some z →
      ∀ q w p, (m.change k fun _ => y).obj q = some w → Thing.WorksOn w p → (q = i ↔ p = i) := by
    intro y z hy hz q w p hw' hpt
    rw [obj_change] at hw'
    split_ifs at hw' with hkq
    · subst hkq
      rw [hz] at hw'
      obtain rfl := Option.some.inj hw'
      exact ⟨fun e => absurd e hk, fun e => absurd e (hy p hpt)⟩
    · exact hw q w p hw' hpt
  unfold assign
  split
  · split_ifs
    · exact works_of (keepsWork_change m k fun x _ => works_lines _ x) hw
    · exact hw
  · rename_i c0 c e1 e2
    refine nop (fun p hpt e => ?_) e1
    have hj : j = i := (hw j _ p e2 hpt).2 e
    obtain ⟨o, ho⟩ := hpole
    rw [hj, ho] at e2
    cases e2
  · split_ifs
    · rename_i e1 e2 _; exact nop (fun p hpt => hpt.elim) e1
    · exact hw
  · rename_i e1 e2; exact nop (fun p hpt => hpt.elim) e1
  · exact hw

theorem Own.step_other {m : Mem R} {i : Nat} {x : Thing R} (h : Own m i x) {s : Stmt T R}
    (hs : Stmt.Leaves i True s) (hne : ∀ a, s ≠ .act i a) : Own (m.step s).2 i x := by
  obtain ⟨o0, ho0, hs0⟩ := h.obj
  have hi := lt_of_obj ho0
  have new : ∀ y : Thing R, (∀ p, y.WorksOn p → p ≠ i) → Own (m.add (T := T) y).2 i x := fun y hy => by
    refine ⟨?_, h.pole, fun k z p hz hpt => ?_⟩
    · obtain ⟨z, hz, e⟩ := h.like
      exact ⟨z, by rw [obj_add _ hi, hz], e⟩
    · rcases obj_add_cases hz with hz | ⟨rfl, rfl⟩
      · exact h.works k z p hz hpt
      · exact ⟨fun e => absurd e (by omega), fun e => absurd e (hy p hpt)⟩
  cases s with
  | new c n t =>
    refine new _ fun p hpt => ?_
    have : m.length = p := hpt
    omega
  | newSos n t => exact new _ fun p hpt => hpt.elim
  | newCascade => exact new _ fun p hpt => by cases hpt
  | newRbj => exact new _ fun p hpt => hpt.elim
  | copy k =>
    have hk' : k ≠ i := hs trivial
    cases hk : m.obj k with
    | none => simp only [step, hk]; exact h
    | some y =>
      simp only [step, hk]
      exact new y fun p hpt e => hk' ((h.works k y p hk hpt).2 e)
  | assign k j =>
    have hk : k ≠ i := hs
    refine ⟨?_, h.pole, works_assign h.works ⟨o0, ho0⟩ hk⟩
    obtain ⟨z, hz, e⟩ := h.like
    exact ⟨z, (obj_assign_ne (T := T) (m := m) (j := j) hk).trans hz, e⟩
  | destroy k =>
    have hki : k ≠ i := hs
    cases hk : m.obj k with
    | none => simp only [step, hk]; exact h
    | some y =>
      simp only [step, hk]
      have e : ∀ q z, Mem.obj (m.set k none) q = some z → m.obj q = some z := by
        intro q z hz
        by_cases hq : k = q
        · subst hq
          have hl := lt_of_obj hk
          simp [obj_eq, List.getElem?_set_self hl] at hz
        · rwa [obj_set_ne hq] at hz
      refine ⟨?_, h.pole, fun q z p hz hpt => h.works q z p (e q z hz) hpt⟩
      obtain ⟨z, hz, ez⟩ := h.like
      exact ⟨z, by rw [obj_set_ne hki, hz], ez⟩
  | act k a =>
    have hki : k ≠ i := fun e => hne a (by rw [e])
    by_cases ha : ∃ j, a = .attach j
    · obtain ⟨j, rfl⟩ := ha
      have hj : k = i ↔ j = i := hs
      show Own (m.act k (.attach j : Do T R)).2 i x
      rcases act_attach_cases (T := T) m k j with e | e <;> rw [e]
      · exact h
      · refine ⟨?_, h.pole, works_attach h.works hj⟩
        obtain ⟨z, hz, ez⟩ := h.like
        exact ⟨z, (obj_attach_ne hki).trans hz, ez⟩
    · have hw := works_of (keepsWork_act m k fun j e => ha ⟨j, e⟩) h.works
      refine ⟨?_, h.pole, hw⟩
      have hch : ∀ f : Thing R → Thing R, Like (m.change k f) i x := fun f => h.like.change fun e => absurd e hki
      show Like (m.act k a).2 i x
      unfold act
      cases hx : m.obj k with
      | none => exact h.like
      | some z =>
        cases z with
        | pole o =>
          have hst : o.stagePtr ≠ i := fun e => hki ((h.works k _ o.stagePtr hx rfl).2 e)
          have hsto : ∀ b, Like (m.store k o b) i x := fun b => h.like.store hki hst
          cases a
          case attach j => exact absurd ⟨j, rfl⟩ ha
          all_goals simp only [doPole]
          all_goals try split_ifs
          all_goals first
            | exact hsto _
            | exact h.like
            | exact hch _
        | cascade c =>
          have hst : c.ptr ≠ some i := fun e => hki ((h.works k _ i hx e).2 rfl)
          have hsto : ∀ b, Like (m.storeCascade k c b) i x := fun b => by
            obtain ⟨z, hz, ez⟩ := h.like
            exact ⟨z, (obj_storeCascade_ne hki hst).trans hz, ez⟩
          cases a
          case attach j => exact absurd ⟨j, rfl⟩ ha
          all_goals simp only [doCascade]
          all_goals first
            | exact hsto _
            | exact h.like
        | sos f =>
          cases a
          all_goals simp only [doSos]
          all_goals first
            | exact h.like
            | exact hch _
        | rbj f =>
          cases a
          all_goals simp only [doRbj]
          all_goals first
            | exact h.like
            | exact hch _

/-- the cascade a call works on, for a filter that works on its own sections -/
theorem view_own {m : Mem R} {i : Nat} {o : PoleThing R} (ho : m.obj i = some (.pole o)) (hs : o.stagePtr = i) :
    (m.view o).cascade = o.own.cascade := by
  simp only [view, stagesAt, hs, ho, Option.bind_some, Thing.stages?, Option.getD_some]
  rfl

/-- Calls that only use the sections: outcome and effect are determined by the object up to the prototypes. -/
theorem act_own {m m' : Mem R} {i : Nat} {x : Thing R} (h : Own m i x) (h' : Own m' i x) {a : Do T R} (ha : Spec.Do.OnSections a)
    (hs : Stmt.Leaves i True (.act i a)) :
    (m.act i a).1 = (m'.act i a).1 ∧ ∃ y, Own (m.act i a).2 i y ∧ Own (m'.act i a).2 i y := by
  obtain ⟨o, ho, hso⟩ := h.obj
  obtain ⟨o', ho', hso'⟩ := h'.obj
  have he : (Thing.pole o').erase = (Thing.pole o).erase := by
    obtain ⟨y, hy, e⟩ := h.like
    obtain ⟨y', hy', e'⟩ := h'.like
    obtain rfl := Option.some.inj (hy.symm.trans ho)
    obtain rfl := Option.some.inj (hy'.symm.trans ho')
    exact e'.trans e.symm
  obtain ⟨o1, h1, e1, e2, e3, e4, e5, e6, e7, e8⟩ := erase_pole he
  obtain rfl : o' = o1 := Thing.pole.inj h1
  -- any change of both that keeps the likeness
  have both : ∀ (n n' : Mem R) (z z' : Thing R), n.obj i = some z → n'.obj i = some z' → z.erase = z'.erase →
      (∃ q, z = .pole q ∧ q.stagePtr = i) → KeepsWork m n → KeepsWork m' n' → ∃ y, Own n i y ∧ Own n' i y := by
    intro n n' z z' hz hz' ez hp hk hk'
    exact ⟨z, ⟨⟨z, hz, rfl⟩, hp, works_of hk h.works⟩, ⟨⟨z', hz', ez.symm⟩, hp, works_of hk' h'.works⟩⟩
  have lines : ∀ l, ∃ y, Own (m.change i (Thing.writeLines l)) i y ∧ Own (m'.change i (Thing.writeLines l)) i y := fun l => by
    refine both _ _ _ _ (obj_change_self ho _) (obj_change_self ho' _) ?_ ⟨_, rfl, hso⟩ (keepsWork_change _ _ fun x _ => works_lines _ x)
      (keepsWork_change _ _ fun x _ => works_lines _ x)
    simp only [Thing.writeLines, Thing.erase, e1, e2, e4, e5, e6, e7, e8]
  have stages : ∀ st, ∃ y, Own (m.change i (Thing.writeStages st)) i y ∧ Own (m'.change i (Thing.writeStages st)) i y := fun st => by
    refine both _ _ _ _ (obj_change_self ho _) (obj_change_self ho' _) ?_ ⟨_, rfl, hso⟩ (keepsWork_change _ _ fun x _ => works_stages _ x)
      (keepsWork_change _ _ fun x _ => works_stages _ x)
    have := e8 st [] []
    simp only [PFB.withArrays, PFB.mk.injEq] at this
    simp only [Thing.writeStages, Thing.erase, PFB.withArrays, e1, e2, e3, e4, e5, e6, e7, this]
  have hv := view_own ho hso
  have hv' := view_own ho' hso'
  have sto : ∀ M : Exec (Cascade R) Unit,
      ((PFB.onCascade M (m.view o)).1 = (PFB.onCascade M (m'.view o')).1) ∧
      ∃ y, Own (m.store i o (PFB.onCascade M (m.view o)).2) i y ∧ Own (m'.store i o' (PFB.onCascade M (m'.view o')).2) i y := by
    intro M
    have f1 : ∀ b : PFB R, (PFB.onCascade M b).1 = (M b.cascade).1 := fun b => rfl
    have f2 : ∀ b : PFB R, (PFB.onCascade M b).2 = { b with cascade := (M b.cascade).2 } := fun b => rfl
    refine ⟨by rw [f1, f1, hv, hv', e4], ?_⟩
    rw [f2, f2, hv, hv', e4]
    obtain ⟨C, hC⟩ : ∃ C, C = (M o.own.cascade).2 := ⟨_, rfl⟩
    rw [← hC]
    have one : ∀ (n : Mem R) (q : PoleThing R), n.obj i = some (.pole q) → q.stagePtr = i →
        ∃ z, (n.store i q { n.view q with cascade := C }).obj i = some z ∧
          z.erase = .pole { q with own := { q.own.withArrays [] [] [] with cascade := C } } := by
      intro n q hq hqs
      have hl : Like ((n.change i (Thing.writeScalars { n.view q with cascade := C })).change q.stagePtr (Thing.writeStages C.stages)) i
          (.pole { q with own := { q.own with cascade := C } }) := by
        rw [hqs]
        refine ⟨_, obj_change_self (obj_change_self hq _) _, ?_⟩
        rcases q with ⟨c, n, ⟨cas, dig, ana⟩, l, p1, p2, p3⟩
        dsimp only at hqs
        simp only [Thing.writeScalars, Thing.writeStages, Thing.erase, PFB.withArrays, view, hqs]
      obtain ⟨z, hz, ez⟩ := (hl.change (k := q.digitalPtr) (f := Thing.writeDigital (n.view q).digital.pairs) fun _ => erase_digital _).change
        (k := q.analogPtr) (f := Thing.writeAnalog (n.view q).analog.lay.pairs) fun _ => erase_analog _
      exact ⟨z, hz, ez.trans (by simp only [Thing.erase, PFB.withArrays])⟩
    obtain ⟨z, hz, ez⟩ := one m o ho hso
    obtain ⟨z', hz', ez'⟩ := one m' o' ho' hso'
    refine both _ _ z z' hz hz' ?_ ?_ (keepsWork_store _ _ _ _) (keepsWork_store _ _ _ _)
    · rw [ez, ez', e8]
      simp only [e1, e2, e3, e5, e6, e7]
    · have : z.erase = (Thing.pole { o with own := { o.own.withArrays [] [] [] with cascade := C } }).erase := by
        rw [ez]; simp only [Thing.erase, PFB.withArrays]
      obtain ⟨q, rfl, -, -, -, -, g5, -⟩ := erase_pole this
      exact ⟨q, rfl, g5.trans hso⟩
  have keep : ∃ y, Own m i y ∧ Own m' i y := ⟨x, h, h'⟩
  unfold act
  rw [ho, ho']
  cases a
  case setup c => exact ha.elim
  case baseSetup n d => exact ha.elim
  case poleZeros => exact ha.elim
  case setLayout l =>
    obtain ⟨g1, g2⟩ := sto (Cascade.setLayout l)
    simp only [doPole]
    exact ⟨by rw [g1], g2⟩
  case scale k =>
    obtain ⟨g1, g2⟩ := sto (Cascade.applyScale k)
    simp only [doPole]
    exact ⟨by rw [g1], g2⟩
  case attach j =>
    obtain rfl : j = i := (show i = i ↔ j = i from hs).1 rfl
    simp only [doPole, attach, ho, ho', Option.bind_some, Thing.stages?, e4]
    refine ⟨trivial, ?_⟩
    have kw : ∀ (n : Mem R) (q : PoleThing R), n.obj j = some (.pole q) → q.stagePtr = j →
        KeepsWork n (n.change j (attached j o.own.cascade.stages)) := fun n q hq hqs =>
      keepsWork_change _ _ fun y hy p => by
        rw [hq] at hy
        obtain rfl := Option.some.inj hy
        simp only [attached, Thing.WorksOn, hqs]
    refine both _ _ _ _ (obj_change_self ho _) (obj_change_self ho' _) ?_ ⟨_, rfl, rfl⟩ (kw m o ho hso) (kw m' o' ho' hso')
    have := e8 [] [] []
    simp only [PFB.withArrays, PFB.mk.injEq] at this
    simp only [attached, Thing.erase, PFB.withArrays, e1, e2, e3, e4, e6, e7, this]
  case sosSetup rows => simp only [doPole, e4]; exact ⟨trivial, stages _⟩
  case filter v => simp only [doPole, e4, e3]; exact ⟨trivial, lines _⟩
  case reset => simp only [doPole, e3]; exact ⟨trivial, lines _⟩
  case response f => simp only [doPole, hv, hv', e4]; exact ⟨trivial, keep⟩
  case numStages => simp only [doPole, hv, hv', e4]; exact ⟨trivial, keep⟩
  case stage k => simp only [doPole, hv, hv', e4]; exact ⟨trivial, keep⟩
  case rbjSetupN d => exact ⟨rfl, keep⟩
  case rbjSetup fs d => exact ⟨rfl, keep⟩

end Mem

theorem sections_aux (i : Nat) (p : List (Stmt T R)) {m m' : Mem R} {x : Thing R} (h : Own m i x) (h' : Own m' i x)
    (hp : ∀ s ∈ p, Stmt.Leaves i True s) (hc : ∀ a ∈ callsOn i p, Spec.Do.OnSections a) :
    resultsOn i p (m.run p).1 = (m'.run ((callsOn i p).map (.act i))).1 := by
  induction p generalizing m m' x with
  | nil => rfl
  | cons s p ih =>
    have hs := hp s (by simp)
    have hps : ∀ s ∈ p, Stmt.Leaves i True s := fun d hd => hp d (by simp [hd])
    by_cases hne : ∀ a, s ≠ .act i a
    · rw [callsOn_other p hne] at hc
      simp only [run, resultsOn_other p hne, callsOn_other p hne]
      exact ih (h.step_other hs hne) h' hps hc
    · push Not at hne
      obtain ⟨a, rfl⟩ := hne
      rw [callsOn_self] at hc
      obtain ⟨e1, y, hy, hy'⟩ := act_own h h' (hc a (by simp)) hs
      simp only [run, resultsOn_self, callsOn_self, List.map_cons]
      have hi := ih hy hy' hps fun b hb => hc b (by simp [hb])
      exact congrArg₂ List.cons e1 hi

/-- **C85** (any arithmetic).  A pole filter that works on its own sections, which no other object works on, may share its
prototypes with any number of others: as long as `setup` and `getPoleZeros` are not called on it, all calls on it have the
outcomes they have without the other objects. -/
theorem C85_sections_partial {m : Mem R} {i : Nat} {x : Thing R} (hx : m.obj i = some x) (ho : OwnSections m i)
    (p : List (Stmt T R)) (hs : ∀ s ∈ p, Stmt.Leaves i True s) (hc : ∀ a ∈ callsOn i p, Spec.Do.OnSections a) :
    resultsOn i p (m.run p).1 = ((lone i x).run ((callsOn i p).map (.act i))).1 := by
  obtain ⟨⟨o, h1⟩, h2⟩ := ho
  obtain rfl := Option.some.inj (hx.symm.trans h1)
  have hst : o.stagePtr = i := (h2 i _ o.stagePtr hx rfl).1 rfl
  refine sections_aux i p ⟨⟨_, hx, rfl⟩, ⟨o, rfl, hst⟩, h2⟩ ⟨⟨_, by rw [lone_obj, if_pos rfl], rfl⟩, ⟨o, rfl, hst⟩, ?_⟩ hs hc
  intro k y q hy hq
  rw [lone_obj] at hy
  split_ifs at hy with hk
  subst hk
  obtain rfl := Option.some.inj hy
  exact h2 k _ q hx hq

/-! ## The repair -/

theorem Mem.own_sections_keeps {m m' : Mem R} {i : Nat} {o' : PoleThing R} (h : OwnSections m i) (hk : KeepsWork m m')
    (ho : m'.obj i = some (.pole o')) : OwnSections m' i :=
  ⟨⟨o', ho⟩, works_of hk h.2⟩

/-- **C85** (any arithmetic).  In any program: copy a private pole filter `i` (the copy is object `k`) and call
`k.setCascadeStorage (k.getCascadeStorage ())`.  Now both work on their own sections only.  `setup` on the copy has the
outcome `setup` on the original would have had; if it succeeds, the copy filters with the sections and reports the response
the original would have got, from its own delay lines, which are a copy of those of the original; and sections and delay
lines of the original are as before. -/
theorem C85_repair {S : Type → Type} [StateType S R] (before : List (Stmt T R)) {i : Nat} {o : PoleThing R}
    (hi : (Mem.run before ([] : Mem R)).2.obj i = some (.pole o)) (hpr : Private (Mem.run before ([] : Mem R)).2 i)
    (hn1 : 1 ≤ o.order) (hn : o.order < 2 ^ 30) {f : PoleFilter S R} (hf : Reach S T o.cls o.order f) (hof : o.own = f.base) :
    ∃ k m2, let m := (Mem.run before ([] : Mem R)).2
      m.run ([.copy i, .act k (.attach k)] : List (Stmt T R)) = ([.ok (.object k), .ok .none], m2) ∧ m.obj k = none ∧
      OwnSections m2 i ∧ OwnSections m2 k ∧
      ∀ call : Call R, call.design.cls = o.cls →
        let r := m2.step (.act k (.setup call) : Stmt T R)
        let s := m.step (.act i (.setup call) : Stmt T R)
        r.1 = s.1 ∧ (r.1 = .ok .none → OwnSections r.2 i ∧ OwnSections r.2 k ∧
          (∃ ok oi, r.2.obj k = some (.pole ok) ∧ some ok.own.cascade.stages = (s.2.obj i).bind Thing.stages? ∧ ok.lines = o.lines ∧
            r.2.obj i = some (.pole oi) ∧ oi.own.cascade = o.own.cascade ∧ oi.lines = o.lines) ∧
          ∀ nf, (r.2.step (.act k (.response nf) : Stmt T R)).1 = (s.2.step (.act i (.response nf))).1) := by
  have hb : (Mem.run before ([] : Mem R)).2.Bounded := Mem.Bounded.run (fun k x p hx => by simp [Mem.obj_eq] at hx) before
  generalize (Mem.run before ([] : Mem R)).2 = m at *
  have h1 : o.stagePtr = i := (hpr i _ o.stagePtr hi (.inl rfl)).1 rfl
  have h2 : o.digitalPtr = i := (hpr i _ o.digitalPtr hi (.inr (.inl rfl))).1 rfl
  have h3 : o.analogPtr = i := (hpr i _ o.analogPtr hi (.inr (.inr rfl))).1 rfl
  have hlt := lt_of_obj hi
  have hik : m.length ≠ i := by omega
  obtain ⟨k, hk⟩ : ∃ k, k = m.length := ⟨_, rfl⟩
  rw [← hk] at hik hlt
  have hok : o.own.Ok o.cls o.order := by rw [hof]; exact hf.ok hn1 (by simpa using hn)
  obtain ⟨m1, hm1⟩ : ∃ m1 : Mem R, m1 = m ++ [some (.pole o)] := ⟨_, rfl⟩
  have e1k : m1.obj k = some (.pole o) := by rw [hm1, hk]; exact obj_add_new (T := T) m _
  have e1i : m1.obj i = some (.pole o) := by rw [hm1]; exact (obj_add (T := T) _ (by omega)).trans hi
  obtain ⟨o2, ho2⟩ : ∃ o2 : PoleThing R, o2 = { o with stagePtr := k, own := { o.own with cascade := ⟨0, o.own.cascade.stages.length, o.own.cascade.stages⟩ } } := ⟨_, rfl⟩
  obtain ⟨m2, hm2⟩ : ∃ m2 : Mem R, m2 = m1.change k (attached k o.own.cascade.stages) := ⟨_, rfl⟩
  have e2k : m2.obj k = some (.pole o2) := by rw [hm2, ho2]; exact obj_change_self e1k _
  have e2i : m2.obj i = some (.pole o) := by rw [hm2, obj_change_ne _ _ hik, e1i]
  have e2o : ∀ q, q ≠ k → m2.obj q = m.obj q := fun q hq => by
    rw [hm2, obj_change_ne _ _ (Ne.symm hq), hm1]
    rcases lt_or_gt_of_ne hq with h | h
    · exact obj_add (T := T) _ (by omega)
    · rw [obj_of_ge (by simp; omega), obj_of_ge (by omega)]
  -- who works on what
  have own : ∀ q, q = i ∨ q = k → ∀ p x w, m2.obj p = some x → Thing.WorksOn x w → (p = q ↔ w = q) := by
    intro q hq p x w hx hw
    by_cases hp : p = k
    · subst hp
      obtain rfl := Option.some.inj (e2k.symm.trans hx)
      have hw' : p = w := by rw [ho2] at hw; exact hw
      rw [← hw']
    · rw [e2o p hp] at hx
      have hpt : x.PointsTo w := by
        cases x with
        | pole o => exact .inl hw
        | cascade c => exact hw
        | sos f => exact hw
        | rbj f => exact hw
      rcases hq with rfl | rfl
      · exact hpr p x w hx hpt
      · have := hb p x w hx hpt
        exact ⟨fun e => absurd e hp, fun e => by omega⟩
  have own_i : OwnSections m2 i := ⟨⟨o, e2i⟩, own i (.inl rfl)⟩
  have own_k : OwnSections m2 k := ⟨⟨o2, e2k⟩, own k (.inr rfl)⟩
  refine ⟨k, m2, ?_, obj_of_ge hk.ge, own_i, own_k, fun call hcls => ?_⟩
  · have s1 : m.step (.copy i : Stmt T R) = (.ok (.object k), m1) := by
      simp only [step, hi, add, ← hk, hm1]
    have s2 : m1.step (.act k (.attach k) : Stmt T R) = (.ok .none, m2) := by
      rw [hm2]; exact step_attach e1k e1k rfl
    simp only [Mem.run, s1, s2]
  · intro r s
    have hview : m2.view o2 = { o.own with cascade := ⟨0, o.own.cascade.stages.length, o.own.cascade.stages⟩ } := by
      have g1 : m2.stagesAt k = o.own.cascade.stages := by
        simp only [stagesAt, e2k, Option.bind_some, Thing.stages?, Option.getD_some, ho2]
      have g2 : m2.digitalAt i = o.own.digital.pairs := by simp only [digitalAt, e2i]
      have g3 : m2.analogAt i = o.own.analog.lay.pairs := by simp only [analogAt, e2i]
      rw [ho2]
      simp only [view, h2, h3, g1, g2, g3]
      rfl
    obtain ⟨p, hp⟩ : ∃ p : PFB R, p = { o.own with cascade := ⟨0, o.own.cascade.stages.length, o.own.cascade.stages⟩ } := ⟨_, rfl⟩
    rw [← hp] at hview
    have hpok : p.Ok call.design.cls o.order := by
      rw [hp, hcls]
      exact ⟨⟨hok.cascade.length, hok.cascade.length, Nat.zero_le _⟩, hok.digital, hok.analog⟩
    obtain ⟨a1, -, a3⟩ := Call.run_same_analog hn1 (by simpa using hn) (call := call) hpok (hcls ▸ hok) (by rw [hp])
    obtain ⟨b, hbb⟩ : ∃ b, b = (call.run o.order p).2 := ⟨_, rfl⟩
    obtain ⟨q, hq⟩ : ∃ q, q = (call.run o.order o.own).2 := ⟨_, rfl⟩
    have hc2 : o2.cls = o.cls := by rw [ho2]
    have hor2 : o2.order = o.order := by rw [ho2]
    have hr : r = ((call.run o.order p).1.map fun _ => .none, m2.store k o2 b) := by
      show m2.step (.act k (.setup call) : Stmt T R) = _
      simp only [step, act, e2k, doPole, hc2, hor2, hcls, if_true, hview, hbb]
    have hv := view_private hi h1 h2 h3
    have hs : s = ((call.run o.order o.own).1.map fun _ => .none, m.store i o q) := by
      show m.step (.act i (.setup call) : Stmt T R) = _
      simp only [step, act, hi, doPole, hcls, if_true, hv, hq]
    have hsobj : s.2.obj i = some (.pole { o with own := q }) := by rw [hs]; exact store_private hi h1 h2 h3
    have p1 : o2.stagePtr = k := by rw [ho2]
    have p2 : o2.digitalPtr = i := by rw [ho2]; exact h2
    have p3 : o2.analogPtr = i := by rw [ho2]; exact h3
    have hrk : r.2.obj k = some (.pole { o2 with own := b.withArrays b.cascade.stages o2.own.digital.pairs o2.own.analog.lay.pairs }) := by
      rw [hr]
      show ((((Mem.change _ k _).change o2.stagePtr _).change o2.digitalPtr _).change o2.analogPtr _).obj k = _
      rw [p1, p2, p3, obj_change_ne _ _ hik.symm, obj_change_ne _ _ hik.symm, obj_change_self (obj_change_self e2k _)]
      simp only [Thing.writeScalars, Thing.writeStages, PFB.withArrays, p1, p2, p3]
    have hri : r.2.obj i = some (.pole { o with own := o.own.withArrays o.own.cascade.stages b.digital.pairs b.analog.lay.pairs }) := by
      rw [hr]
      show ((((Mem.change _ k _).change o2.stagePtr _).change o2.digitalPtr _).change o2.analogPtr _).obj i = _
      rw [p1, p2, p3, obj_change_self (obj_change_self ((obj_change_ne _ _ hik).trans ((obj_change_ne _ _ hik).trans e2i)) _)]
      simp only [Thing.writeDigital, Thing.writeAnalog, PFB.withArrays]
    have hkw : KeepsWork m2 r.2 := by rw [hr]; exact keepsWork_store _ _ _ _
    refine ⟨by rw [hr, hs, a1], fun hok' => ⟨own_sections_keeps own_i hkw hri, own_sections_keeps own_k hkw hrk, ?_, fun nf => ?_⟩⟩
    all_goals
      have hok1 : (call.run o.order p).1 = .ok () := by
        rw [hr] at hok'
        revert hok'
        simp only
        rcases (call.run o.order p).1 with _ | _ | _
        · intro _; rfl
        · intro h; exact absurd h (by simp [Res.map])
        · intro h; exact absurd h (by simp [Res.map])
      have hag : PFB.Agree b q := by rw [hbb, hq]; exact a3 hok1
    · exact ⟨_, _, hrk, by rw [hsobj]; exact congrArg (fun c => some (Cascade.stages c)) hag.cascade, by rw [ho2], hri, rfl, rfl⟩
    · have v1 : (r.2.view { o2 with own := b.withArrays b.cascade.stages o2.own.digital.pairs o2.own.analog.lay.pairs }).cascade =
          b.cascade := by
        rw [view_own hrk p1]; rfl
      have v2 : (s.2.view { o with own := q }).cascade = q.cascade := view_own hsobj h1
      simp only [step, act, hrk, hsobj, doPole, v1, v2]
      rw [hag.cascade]

/-! ## What the repair does not mend -/

theorem Layout.add_no_memory (p z : Cx R) : Trip (fun l : Layout R => l.pairs = []) (Layout.add p z)
    (fun _ _ => False) (fun _ _ => True) (fun _ => True) := by
  unfold Layout.add
  refine Trip.bind (Trip.get (Q := fun _ l => l.pairs = []) fun s h => h) fun l => ?_
  refine Trip.bind (Trip.throwIf (Q := fun _ l => l.pairs = []) (fun _ _ _ => trivial) fun s h _ => h) fun _ => ?_
  refine Trip.bind (Trip.throwIf (Q := fun _ l => l.pairs = []) (fun _ _ _ => trivial) fun s h _ => h) fun _ => ?_
  refine Trip.bind (Trip.throwIf (Q := fun _ l => l.pairs = []) (fun _ _ _ => trivial) fun s h _ => h) fun _ => ?_
  refine Trip.bind (Trip.lift (Q := fun _ l => l.pairs = []) fun s h => ?_) fun pr => ?_
  · cases PoleZeroPair.single p z <;> first | exact h | trivial
  refine Trip.bind (Q := fun _ _ => False) (fun s h => ?_) fun _ => fun s h => h.elim
  simp only [Layout.write, h, List.length_nil, Nat.not_lt_zero, if_false]

theorem Layout.addConj_no_memory (p z : Cx R) : Trip (fun l : Layout R => l.pairs = []) (Layout.addPoleZeroConjugatePairs p z)
    (fun _ _ => False) (fun _ _ => True) (fun _ => True) := by
  unfold Layout.addPoleZeroConjugatePairs
  refine Trip.bind (Trip.get (Q := fun _ l => l.pairs = []) fun s h => h) fun l => ?_
  refine Trip.bind (Trip.throwIf (Q := fun _ l => l.pairs = []) (fun _ _ _ => trivial) fun s h _ => h) fun _ => ?_
  refine Trip.bind (Trip.throwIf (Q := fun _ l => l.pairs = []) (fun _ _ _ => trivial) fun s h _ => h) fun _ => ?_
  refine Trip.bind (Trip.throwIf (Q := fun _ l => l.pairs = []) (fun _ _ _ => trivial) fun s h _ => h) fun _ => ?_
  refine Trip.bind (Q := fun _ _ => False) (fun s h => ?_) fun _ => fun s h => h.elim
  simp only [Layout.write, h, List.length_nil, Nat.not_lt_zero, if_false]

/-- `AnalogLowPass::design` of an odd order cannot succeed without memory. -/
theorem Butterworth.build_no_memory {o : Int} (ho : o % 2 = 1) : Trip (fun l : Layout R => l.pairs = [])
    (Butterworth.lowPassBuild o) (fun _ _ => False) (fun _ _ => True) (fun _ => True) := by
  unfold Butterworth.lowPassBuild
  refine Trip.bind (Q := fun _ (l : Layout R) => l.pairs = []) (fun s h => (show s.pairs = [] from h)) fun _ => ?_
  refine Trip.bind (Q := fun _ (l : Layout R) => l.pairs = []) (fun s h => ?_) fun n2 => ?_
  · unfold intChecked
    split_ifs <;> first | exact h | trivial
  refine Trip.bind (Q := fun _ (l : Layout R) => l.pairs = []) (Trip.loop (I := fun _ (l : Layout R) => l.pairs = []) _ fun i _ => ?_) fun _ => ?_
  · refine Trip.bind (Trip.lift (Q := fun _ (l : Layout R) => l.pairs = []) fun s h => ?_) fun c => ?_
    · cases polarC (1 : R) _ <;> first | exact h | trivial
    · exact (Layout.addConj_no_memory _ _).mono (fun _ h => h) (fun _ _ h => h.elim) (fun _ _ h => h) fun _ h => h
  · rw [show (o % 2 == 1) = true by simpa using ho]
    exact Layout.add_no_memory _ _

/-- **C85** fails for `setup` (exact arithmetic).  Copy a new Butterworth low pass and attach the copy to its own sections:
`setup` on the copy succeeds.  But it does not if the original was destroyed in between: the copy still works on the
prototype of the original. -/
theorem C85_false [Sample T XR] (t : Topology) :
    let m := (Mem.run ([.new .bwLowPass 4 t, .copy 0, .act 1 (.attach 1)] : List (Stmt T XR)) []).2
    OwnSections m 0 ∧ OwnSections m 1 ∧ (m.step (.act 1 (.setup caseCall) : Stmt T XR)).1 = .ok .none ∧
      ∀ r, ((m.step (.destroy 0 : Stmt T XR)).2.step (.act 1 (.setup caseCall) : Stmt T XR)).1 ≠ .ok r := by
  obtain ⟨o, ho⟩ : ∃ o : PoleThing XR, o = newPole .bwLowPass 4 t 0 := ⟨_, rfl⟩
  have hrun : (Mem.run ([.new .bwLowPass 4 t] : List (Stmt T XR)) ([] : Mem XR)).2 = [some (.pole o)] := by rw [ho]; rfl
  obtain ⟨k, m2, h1, h2, h3, h4, h5⟩ := C85_repair (S := DirectFormII) (T := T) (R := XR) (i := 0) (o := o) [.new .bwLowPass 4 t]
    (by rw [hrun]; rfl)
    (by
      intro k x p hx hp
      rw [hrun] at hx
      rcases k with _ | k
      · obtain rfl := Option.some.inj (show some (Thing.pole o) = some x from hx)
        rw [ho] at hp
        rcases hp with h | h | h <;> simp [← h, newPole]
      · simp [Mem.obj_eq] at hx)
    (by rw [ho]; simp [newPole]) (by rw [ho]; simp [newPole]) (f := PoleFilter.init DirectFormII .bwLowPass 4) (by rw [ho]; exact .new)
    (by rw [ho]; rfl)
  have hk : k = 1 := by
    rw [hrun] at h1
    have := congrArg (fun r => r.1.head?) h1
    simpa [Mem.run, Mem.step, Mem.add, Mem.obj_eq, eq_comm] using this
  subst hk
  have hm : (Mem.run ([.new .bwLowPass 4 t, .copy 0, .act 1 (.attach 1)] : List (Stmt T XR)) []).2 = m2 := by
    have : (Mem.run ([.new .bwLowPass 4 t, .copy 0, .act 1 (.attach 1)] : List (Stmt T XR)) []).2 =
      (Mem.run ([.copy 0, .act 1 (.attach 1)] : List (Stmt T XR)) (Mem.run ([.new .bwLowPass 4 t] : List (Stmt T XR)) ([] : Mem XR)).2).2 := rfl
    rw [this, h1]
  rw [hm]
  refine ⟨h3, h4, ?_, fun r => ?_⟩
  · obtain ⟨h6, -⟩ := h5 caseCall (by rw [ho]; rfl)
    rw [h6, hrun]
    have h7 := caseCall_new (S := DirectFormII) (n := 4) (by norm_num) (by norm_num)
    have h8 : (Call.run 4 caseCall (PoleFilter.initBase .bwLowPass 4)).1 = .ok () := by
      revert h7
      simp only [PoleFilter.setup, Exec.zoom, PoleFilter.init]
      rcases Call.run 4 caseCall (PoleFilter.initBase .bwLowPass 4) with ⟨_ | _ | _, _⟩ <;> simp
    have h9 : Mem.view [some (.pole o)] o = PoleFilter.initBase .bwLowPass 4 := by rw [ho]; rfl
    have h10 : o.cls = caseCall.design.cls := by rw [ho]; rfl
    have h11 : o.order = 4 := by rw [ho]; rfl
    have h12 : Mem.obj [some (Thing.pole o)] 0 = some (.pole o) := rfl
    simp only [step, act, h12, doPole, ← h10, if_true, h9, h11, h8, Res.map]
  · obtain ⟨o2, e1, e2, e3, e4, e5⟩ : ∃ o2 : PoleThing XR, m2.obj 1 = some (.pole o2) ∧ o2.cls = .bwLowPass ∧ o2.order = 4 ∧
        o2.analogPtr = 0 ∧ o2.own.analog.numPoles = -1 := by
      rw [← hm]
      exact ⟨_, rfl, rfl, rfl, rfl, rfl⟩
    obtain ⟨m3, hm3⟩ : ∃ m3 : Mem XR, m3 = (m2.step (.destroy 0 : Stmt T XR)).2 := ⟨_, rfl⟩
    rw [← hm3]
    have f0 : m3.obj 0 = none := by rw [hm3, ← hm]; rfl
    have f1 : m3.obj 1 = some (.pole o2) := by rw [hm3, ← e1, ← hm]; rfl
    have g : (m3.view o2).analog.lay.pairs = [] := by
      simp only [view, PFB.withArrays, analogAt, e4, f0]
    have gs : (m3.view o2).analog.numPoles = -1 := e5
    have hb := Butterworth.build_no_memory (R := XR) (o := 3) (by norm_num) (m3.view o2).analog.lay g
    have hd : (Design.proto 3 (.bwLowPass (XR.fin (1 / 8))) (m3.view o2).analog).1 ≠ .ok () := by
      rw [Design.proto_miss (by simp [Design.stale, gs])]
      show (Butterworth.lowPassBuild 3 (m3.view o2).analog.lay).1 ≠ _
      revert hb
      rcases Butterworth.lowPassBuild 3 (m3.view o2).analog.lay with ⟨_ | _ | _, _⟩ <;> simp
    have hc : caseCall.design.cls = o2.cls := by rw [e2]; rfl
    have hcall : (Call.run 4 caseCall (m3.view o2)).1 ≠ .ok () := by
      rw [Call.run_eq, if_neg (by simp [Call.order, caseCall]), PFB.baseSetup_proto]
      revert hd
      rw [show caseCall.normDesign.proto (caseCall.order 4) = Design.proto 3 (.bwLowPass (XR.fin (1 / 8))) from rfl]
      rcases Design.proto 3 (.bwLowPass (XR.fin (1 / 8))) (m3.view o2).analog with ⟨_ | _ | _, _⟩ <;> simp
    simp only [step, act, f1, doPole, hc, if_true, e3]
    revert hcall
    rcases Call.run 4 caseCall (m3.view o2) with ⟨_ | _ | _, _⟩ <;> simp [Res.map]

end Iir
