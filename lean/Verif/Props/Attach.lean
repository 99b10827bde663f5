import Verif.Spec.Attach
import Verif.Props.AnyHistory

/-! # C83: programs that attach cascades, with any mixture of delay lines -/

set_option linter.unusedSectionVars false

namespace Iir
open FArith Exec Spec

variable {R : Type} [FArith R] {T : Type} [Sample T R]

namespace Mem

theorem obj_eq (m : Mem R) (i : Nat) : m.obj i = (m[i]?).join := rfl

theorem obj_of_ge {m : Mem R} {i : Nat} (hi : m.length ≤ i) : m.obj i = none := by
  simp [obj_eq, List.getElem?_eq_none hi]

theorem lt_of_obj {m : Mem R} {i : Nat} {x : Thing R} (hx : m.obj i = some x) : i < m.length := by
  by_contra hc
  rw [obj_of_ge (by omega)] at hx
  cases hx

theorem obj_change (m : Mem R) (p : Nat) (f : Thing R → Thing R) (q : Nat) :
    (m.change p f).obj q = if p = q then (m.obj q).map f else m.obj q := by
  unfold change
  rw [obj_eq, List.getElem?_modify, obj_eq]
  split_ifs with hpq
  · subst hpq
    rcases m[p]? with _ | _ | x <;> rfl
  · simp

theorem obj_change_ne (m : Mem R) {p q : Nat} (f : Thing R → Thing R) (h : p ≠ q) : (m.change p f).obj q = m.obj q := by
  rw [obj_change, if_neg h]

theorem obj_change_self {m : Mem R} {p : Nat} {x : Thing R} (hx : m.obj p = some x) (f : Thing R → Thing R) :
    (m.change p f).obj p = some (f x) := by
  rw [obj_change, if_pos rfl, hx]; rfl

theorem obj_set_ne {m : Mem R} {i k : Nat} (hne : k ≠ i) (x : Option (Thing R)) :
    obj (m.set k x) i = m.obj i := by
  simp [obj_eq, List.getElem?_set_ne hne]

theorem obj_add {m : Mem R} {i : Nat} (x : Thing R) (hi : i < m.length) :
    obj (m.add (T := T) x).2 i = m.obj i := by
  simp [obj_eq, add, List.getElem?_append_left hi]

theorem obj_add_new (m : Mem R) (x : Thing R) : obj (m.add (T := T) x).2 m.length = some x := by
  simp [obj_eq, add]

theorem obj_add_cases {m : Mem R} {x y : Thing R} {k : Nat} (h : obj (m.add (T := T) x).2 k = some y) :
    m.obj k = some y ∨ k = m.length ∧ y = x := by
  rcases lt_trichotomy k m.length with hk | rfl | hk
  · rw [obj_add _ hk] at h; exact .inl h
  · rw [obj_add_new] at h; exact .inr ⟨rfl, (Option.some.inj h).symm⟩
  · rw [obj_of_ge (by simp [add]; omega)] at h; cases h

/-! ## Pointers do not change, except by `setCascadeStorage` and assignment of a `Cascade` -/

/-- Every object of `m'` was in `m`, with the same pointers, and still is what it was. -/
def Keeps (m m' : Mem R) : Prop :=
  ∀ k x', m'.obj k = some x' → ∃ x, m.obj k = some x ∧ (∀ p, x'.PointsTo p ↔ x.PointsTo p) ∧ (x'.IsPole ↔ x.IsPole)

theorem Keeps.refl (m : Mem R) : Keeps m m := fun _ x h => ⟨x, h, fun _ => .rfl, .rfl⟩

theorem Keeps.trans {a b c : Mem R} (h : Keeps a b) (h' : Keeps b c) : Keeps a c := fun k x hx => by
  obtain ⟨y, hy, h1, h2⟩ := h' k x hx
  obtain ⟨z, hz, h3, h4⟩ := h k y hy
  exact ⟨z, hz, fun p => (h1 p).trans (h3 p), h2.trans h4⟩

theorem Keeps.priv {m m' : Mem R} (h : Keeps m m') {i : Nat} (hp : Private m i) : Private m' i := fun k x' p hx hpt => by
  obtain ⟨x, hx, h1, -⟩ := h k x' hx
  exact hp k x p hx ((h1 p).1 hpt)

/-- a function that keeps pointers -/
def Tame' (f : Thing R → Thing R) : Prop := ∀ x, (∀ p, (f x).PointsTo p ↔ x.PointsTo p) ∧ ((f x).IsPole ↔ x.IsPole)

theorem keeps_change (m : Mem R) (i : Nat) {f : Thing R → Thing R} (hf : Tame' f) : Keeps m (m.change i f) := fun k x' h => by
  rw [obj_change] at h
  split_ifs at h with hk
  · cases hx : m.obj k with
    | none => rw [hx] at h; cases h
    | some x =>
      rw [hx] at h
      obtain rfl := Option.some.inj h
      exact ⟨x, rfl, (hf x).1, (hf x).2⟩
  · exact ⟨x', h, fun _ => .rfl, .rfl⟩

/-- an object is replaced -/
theorem keeps_replace {m : Mem R} {i : Nat} {x y : Thing R} (hx : m.obj i = some x) (hy : ∀ p, y.PointsTo p ↔ x.PointsTo p)
    (hy' : y.IsPole ↔ x.IsPole) : Keeps m (m.change i fun _ => y) := fun k x' h => by
  rw [obj_change] at h
  split_ifs at h with hk
  · subst hk
    rw [hx] at h
    obtain rfl := Option.some.inj h
    exact ⟨x, hx, hy, hy'⟩
  · exact ⟨x', h, fun _ => .rfl, .rfl⟩

theorem tame_stages (st : List (Biquad R)) : Tame' (Thing.writeStages st) := fun x => by cases x <;> exact ⟨fun _ => .rfl, .rfl⟩
theorem tame_digital (st : List (PoleZeroPair R)) : Tame' (Thing.writeDigital st) := fun x => by cases x <;> exact ⟨fun _ => .rfl, .rfl⟩
theorem tame_analog (st : List (PoleZeroPair R)) : Tame' (Thing.writeAnalog st) := fun x => by cases x <;> exact ⟨fun _ => .rfl, .rfl⟩
theorem tame_scalars (b : PFB R) : Tame' (Thing.writeScalars b) := fun x => by cases x <;> exact ⟨fun _ => .rfl, .rfl⟩
theorem tame_lines (l : Lines R) : Tame' (Thing.writeLines l) := fun x => by cases x <;> exact ⟨fun _ => .rfl, .rfl⟩

theorem keeps_store (m : Mem R) (i : Nat) (o : PoleThing R) (b : PFB R) : Keeps m (m.store i o b) :=
  (((keeps_change m _ (tame_scalars _)).trans (keeps_change _ _ (tame_stages _))).trans
    (keeps_change _ _ (tame_digital _))).trans (keeps_change _ _ (tame_analog _))

theorem keeps_storeCascade {m : Mem R} {i : Nat} {c : CascadeThing} (hc : m.obj i = some (.cascade c)) (b : Cascade R) :
    Keeps m (m.storeCascade i c b) := by
  have h1 : Keeps m (m.change i fun _ => .cascade { c with numStages := b.numStages, maxStages := b.maxStages }) :=
    keeps_replace hc (fun _ => .rfl) .rfl
  cases hp : c.ptr with
  | none => simpa only [storeCascade, hp] using h1
  | some p =>
    have := h1.trans (keeps_change _ p (tame_stages b.stages))
    simpa only [storeCascade, hp] using this

theorem keeps_act (m : Mem R) (i : Nat) {a : Do T R} (ha : ∀ j, a ≠ .attach j) : Keeps m (m.act i a).2 := by
  unfold act
  cases hx : m.obj i with
  | none => exact .refl m
  | some x =>
    cases x with
    | pole o =>
      cases a
      case setup c =>
        show Keeps m (m.doPole i o (.setup c)).2
        simp only [doPole]
        split_ifs
        · exact keeps_store _ _ _ _
        · exact .refl m
      case baseSetup n d =>
        show Keeps m (m.doPole i o (.baseSetup n d)).2
        simp only [doPole]
        split_ifs
        · exact keeps_store _ _ _ _
        · exact .refl m
      case attach j => exact absurd rfl (ha j)
      case setLayout l => exact keeps_store _ _ _ _
      case scale k => exact keeps_store _ _ _ _
      case sosSetup rows => exact keeps_change _ _ (tame_stages _)
      case filter x => exact keeps_change _ _ (tame_lines _)
      case reset => exact keeps_change _ _ (tame_lines _)
      all_goals exact .refl m
    | cascade c =>
      cases a
      case attach j => exact absurd rfl (ha j)
      case setLayout l => exact keeps_storeCascade hx _
      case scale k => exact keeps_storeCascade hx _
      all_goals exact .refl m
    | sos f =>
      cases a
      case sosSetup rows => exact keeps_change _ _ (tame_stages _)
      case filter x => exact keeps_change _ _ (tame_lines _)
      case reset => exact keeps_change _ _ (tame_lines _)
      all_goals exact .refl m
    | rbj f =>
      cases a
      case rbjSetupN d => exact keeps_replace hx (fun _ => .rfl) .rfl
      case rbjSetup fs d => exact keeps_replace hx (fun _ => .rfl) .rfl
      case filter x => exact keeps_replace hx (fun _ => .rfl) .rfl
      case reset => exact keeps_replace hx (fun _ => .rfl) .rfl
      case scale k => exact keeps_replace hx (fun _ => .rfl) .rfl
      all_goals exact .refl m

theorem attached_other {j p : Nat} {st : List (Biquad R)} {x : Thing R} (h : (attached j st x).PointsTo p) :
    p = j ∨ x.PointsTo p := by
  cases x with
  | pole o =>
    rcases h with h | h | h
    · exact .inl h.symm
    · exact .inr (.inr (.inl h))
    · exact .inr (.inr (.inr h))
  | cascade c => exact .inl (Option.some.inj h).symm
  | sos f => exact .inr h
  | rbj f => exact .inr h

theorem priv_attach {m : Mem R} {i k j : Nat} (hp : Private m i) (h : k = i ↔ j = i) : Private (m.attach (T := T) k j).2 i := by
  unfold attach
  cases hj : (m.obj j).bind Thing.stages? with
  | none => exact hp
  | some st =>
    intro q x' p hx hpt
    rw [show ((.ok .none, m.change k (attached j st)) : Res (Obs T R) × Mem R).2 = m.change k (attached j st) from rfl,
      obj_change] at hx
    split_ifs at hx with hk
    · subst hk
      cases hy : m.obj k with
      | none => rw [hy] at hx; cases hx
      | some y =>
        rw [hy] at hx
        obtain rfl := Option.some.inj hx
        rcases attached_other hpt with rfl | hpt
        · exact h
        · exact hp _ _ _ hy hpt
    · exact hp _ _ _ hx hpt

/-! ## Calls on other objects -/

theorem obj_store_ne {m : Mem R} {i q : Nat} {o : PoleThing R} {b : PFB R} (hi : i ≠ q) (h1 : o.stagePtr ≠ q)
    (h2 : o.digitalPtr ≠ q) (h3 : o.analogPtr ≠ q) : (m.store i o b).obj q = m.obj q := by
  unfold store
  rw [obj_change_ne _ _ h3, obj_change_ne _ _ h2, obj_change_ne _ _ h1, obj_change_ne _ _ hi]

theorem obj_storeCascade_ne {m : Mem R} {i q : Nat} {c : CascadeThing} {b : Cascade R} (hi : i ≠ q) (h1 : c.ptr ≠ some q) :
    (m.storeCascade i c b).obj q = m.obj q := by
  unfold storeCascade
  cases hc : c.ptr with
  | none => exact obj_change_ne _ _ hi
  | some p =>
    show ((m.change i _).change p _).obj q = _
    rw [obj_change_ne _ _ (fun h => h1 (by rw [hc, h])), obj_change_ne _ _ hi]

theorem obj_attach_ne {m : Mem R} {i j q : Nat} (hi : i ≠ q) : (m.attach (T := T) i j).2.obj q = m.obj q := by
  unfold attach
  cases (m.obj j).bind Thing.stages? with
  | none => rfl
  | some st => exact obj_change_ne _ _ hi

theorem act_reach {m : Mem R} {k q : Nat} (hk : k ≠ q) (hp : ∀ x, m.obj k = some x → ¬ x.PointsTo q) (a : Do T R) :
    (m.step (.act k a)).2.obj q = m.obj q := by
  show (m.act k a).2.obj q = _
  unfold act
  cases hx : m.obj k with
  | none => rfl
  | some x =>
    have hpx := hp x hx
    cases x with
    | pole o =>
      simp only [Thing.PointsTo, not_or] at hpx
      obtain ⟨h1, h2, h3⟩ := hpx
      cases a
      case setup c =>
        show (m.doPole k o (.setup c)).2.obj q = _
        simp only [doPole]
        split_ifs
        · exact obj_store_ne hk h1 h2 h3
        · rfl
      case baseSetup n d =>
        show (m.doPole k o (.baseSetup n d)).2.obj q = _
        simp only [doPole]
        split_ifs
        · exact obj_store_ne hk h1 h2 h3
        · rfl
      case attach j => exact obj_attach_ne hk
      case setLayout l => exact obj_store_ne hk h1 h2 h3
      case scale k => exact obj_store_ne hk h1 h2 h3
      case sosSetup rows => exact obj_change_ne _ _ hk
      case filter x => exact obj_change_ne _ _ hk
      case reset => exact obj_change_ne _ _ hk
      all_goals rfl
    | cascade c =>
      cases a
      case attach j => exact obj_attach_ne hk
      case setLayout l => exact obj_storeCascade_ne hk hpx
      case scale k => exact obj_storeCascade_ne hk hpx
      all_goals rfl
    | sos f =>
      cases a
      case sosSetup rows => exact obj_change_ne _ _ hk
      case filter x => exact obj_change_ne _ _ hk
      case reset => exact obj_change_ne _ _ hk
      all_goals rfl
    | rbj f =>
      cases a
      case rbjSetupN d => exact obj_change_ne _ _ hk
      case rbjSetup fs d => exact obj_change_ne _ _ hk
      case filter x => exact obj_change_ne _ _ hk
      case reset => exact obj_change_ne _ _ hk
      case scale k => exact obj_change_ne _ _ hk
      all_goals rfl

/-! ## Calls on a private object -/

theorem view_private {m : Mem R} {i : Nat} {o : PoleThing R} (ho : m.obj i = some (.pole o)) (h1 : o.stagePtr = i)
    (h2 : o.digitalPtr = i) (h3 : o.analogPtr = i) : m.view o = o.own := by
  simp only [view, stagesAt, digitalAt, analogAt, h1, h2, h3, ho, Option.bind_some, Thing.stages?, Option.getD_some]
  rfl

theorem store_private {m : Mem R} {i : Nat} {o : PoleThing R} {b : PFB R} (ho : m.obj i = some (.pole o))
    (h1 : o.stagePtr = i) (h2 : o.digitalPtr = i) (h3 : o.analogPtr = i) :
    (m.store i o b).obj i = some (.pole { o with own := b }) := by
  rcases o with ⟨c, n, own, l, s, d, a⟩
  dsimp only at h1 h2 h3
  subst h1; subst h2; subst h3
  unfold store
  simp only [obj_change, if_true, ho, Option.map_some]
  rfl

/-- Outcome and new value of a private object are determined by its value. -/
theorem act_private {m m' : Mem R} {i : Nat} {x : Thing R} (hx : m.obj i = some x) (hx' : m'.obj i = some x)
    (hp : ∀ p, x.PointsTo p → p = i) {a : Do T R} (ha : ∀ j, a = .attach j → j = i) :
    (m.act i a).1 = (m'.act i a).1 ∧ (m.act i a).2.obj i = (m'.act i a).2.obj i := by
  have same : ∀ f : Thing R → Thing R, (m.change i f).obj i = (m'.change i f).obj i := fun f => by
    rw [obj_change_self hx, obj_change_self hx']
  have att : ∀ j, j = i → (m.attach (T := T) i j).1 = (m'.attach (T := T) i j).1 ∧
      (m.attach (T := T) i j).2.obj i = (m'.attach (T := T) i j).2.obj i := by
    rintro _ rfl
    unfold attach
    rw [hx, hx', Option.bind_some]
    cases x.stages? with
    | none => exact ⟨rfl, hx.trans hx'.symm⟩
    | some st => exact ⟨rfl, same _⟩
  unfold act
  rw [hx, hx']
  cases x with
  | pole o =>
    have h1 := hp o.stagePtr (.inl rfl)
    have h2 := hp o.digitalPtr (.inr (.inl rfl))
    have h3 := hp o.analogPtr (.inr (.inr rfl))
    have v := view_private hx h1 h2 h3
    have v' := view_private hx' h1 h2 h3
    have st : ∀ b, (m.store i o b).obj i = (m'.store i o b).obj i := fun b => by
      rw [store_private hx h1 h2 h3, store_private hx' h1 h2 h3]
    cases a
    case attach j => exact att j (ha j rfl)
    case setup c =>
      simp only [doPole, v, v']
      split_ifs
      · exact ⟨rfl, st _⟩
      · exact ⟨rfl, hx.trans hx'.symm⟩
    case baseSetup n d =>
      simp only [doPole, v, v']
      split_ifs
      · exact ⟨rfl, st _⟩
      · exact ⟨rfl, hx.trans hx'.symm⟩
    case setLayout l => simp only [doPole, v, v']; exact ⟨trivial, st _⟩
    case scale k => simp only [doPole, v, v']; exact ⟨trivial, st _⟩
    case sosSetup rows => exact ⟨rfl, same _⟩
    case filter x => exact ⟨rfl, same _⟩
    case reset => exact ⟨rfl, same _⟩
    all_goals simp only [doPole, v, v']; exact ⟨trivial, hx.trans hx'.symm⟩
  | cascade c =>
    have hc : c.ptr = none ∨ c.ptr = some i := by
      cases h : c.ptr with
      | none => exact .inl rfl
      | some p => exact .inr (by rw [hp p h])
    have v : m.viewCascade c = m'.viewCascade c := by
      unfold viewCascade
      rcases hc with h | h <;> rw [h]
      · rfl
      · simp only [Option.map_some, stagesAt, hx, hx']
    have st : ∀ b, (m.storeCascade i c b).obj i = (m'.storeCascade i c b).obj i := fun b => by
      unfold storeCascade
      rcases hc with h | h <;> rw [h]
      · exact same _
      · show ((m.change i _).change i _).obj i = ((m'.change i _).change i _).obj i
        rw [obj_change_self (obj_change_self hx _), obj_change_self (obj_change_self hx' _)]
    cases a
    case attach j => exact att j (ha j rfl)
    case setLayout l => simp only [doCascade, v]; exact ⟨trivial, st _⟩
    case scale k => simp only [doCascade, v]; exact ⟨trivial, st _⟩
    all_goals simp only [doCascade, v]; exact ⟨trivial, hx.trans hx'.symm⟩
  | sos f =>
    cases a
    case sosSetup rows => exact ⟨rfl, same _⟩
    case filter x => exact ⟨rfl, same _⟩
    case reset => exact ⟨rfl, same _⟩
    all_goals exact ⟨rfl, hx.trans hx'.symm⟩
  | rbj f =>
    cases a
    case rbjSetupN d => exact ⟨rfl, same _⟩
    case rbjSetup fs d => exact ⟨rfl, same _⟩
    case filter x => exact ⟨rfl, same _⟩
    case reset => exact ⟨rfl, same _⟩
    case scale k => exact ⟨rfl, same _⟩
    all_goals exact ⟨rfl, hx.trans hx'.symm⟩

/-- objects do not disappear by calls -/
theorem obj_act_some {m : Mem R} {i k : Nat} {x : Thing R} (hx : m.obj i = some x) (a : Do T R) :
    ∃ y, (m.act k a).2.obj i = some y ∧ (y.IsPole ↔ x.IsPole) := by
  have ch : ∀ (n : Mem R) (y : Thing R) (p : Nat) (f : Thing R → Thing R), n.obj i = some y → (∀ z, (f z).IsPole ↔ z.IsPole) →
      ∃ y', (n.change p f).obj i = some y' ∧ (y'.IsPole ↔ y.IsPole) := by
    intro n y p f hy hf
    by_cases h : p = i
    · subst h; exact ⟨_, obj_change_self hy f, hf y⟩
    · exact ⟨y, by rw [obj_change_ne _ _ h, hy], .rfl⟩
  have rep : ∀ (y : Thing R), (∀ z, m.obj k = some z → (y.IsPole ↔ z.IsPole)) →
      ∃ y', (m.change k fun _ => y).obj i = some y' ∧ (y'.IsPole ↔ x.IsPole) := by
    intro y hy
    by_cases h : k = i
    · subst h; exact ⟨_, obj_change_self hx _, hy x hx⟩
    · exact ⟨x, by rw [obj_change_ne _ _ h, hx], .rfl⟩
  have st : ∀ (o : PoleThing R) (b : PFB R), ∃ y, (m.store k o b).obj i = some y ∧ (y.IsPole ↔ x.IsPole) := by
    intro o b
    obtain ⟨y1, e1, g1⟩ := ch m x k _ hx fun z => (tame_scalars b z).2
    obtain ⟨y2, e2, g2⟩ := ch _ y1 o.stagePtr _ e1 fun z => (tame_stages b.cascade.stages z).2
    obtain ⟨y3, e3, g3⟩ := ch _ y2 o.digitalPtr _ e2 fun z => (tame_digital b.digital.pairs z).2
    obtain ⟨y4, e4, g4⟩ := ch _ y3 o.analogPtr _ e3 fun z => (tame_analog b.analog.lay.pairs z).2
    exact ⟨y4, e4, ((g4.trans g3).trans g2).trans g1⟩
  have att : ∀ j, ∃ y, (m.attach (T := T) k j).2.obj i = some y ∧ (y.IsPole ↔ x.IsPole) := by
    intro j
    unfold attach
    cases (m.obj j).bind Thing.stages? with
    | none => exact ⟨x, hx, .rfl⟩
    | some s => exact ch m x k _ hx fun z => by cases z <;> exact .rfl
  have keep : ∃ y, m.obj i = some y ∧ (y.IsPole ↔ x.IsPole) := ⟨x, hx, .rfl⟩
  unfold act
  cases hz : m.obj k with
  | none => exact keep
  | some z =>
    cases z with
    | pole o =>
      cases a
      case setup c =>
        simp only [doPole]
        split_ifs
        · exact st _ _
        · exact keep
      case baseSetup n d =>
        simp only [doPole]
        split_ifs
        · exact st _ _
        · exact keep
      case attach j => exact att j
      case setLayout l => exact st _ _
      case scale k => exact st _ _
      case sosSetup rows => exact ch m x k _ hx fun z => (tame_stages _ z).2
      case filter y => exact ch m x k _ hx fun z => (tame_lines _ z).2
      case reset => exact ch m x k _ hx fun z => (tame_lines _ z).2
      all_goals exact keep
    | cascade c =>
      have sc : ∀ b : Cascade R, ∃ y, (m.storeCascade k c b).obj i = some y ∧ (y.IsPole ↔ x.IsPole) := by
        intro b
        obtain ⟨y1, e1, g1⟩ := rep (.cascade { c with numStages := b.numStages, maxStages := b.maxStages })
          (fun z h => by rw [hz] at h; obtain rfl := Option.some.inj h; exact .rfl)
        cases hp : c.ptr with
        | none => exact ⟨y1, by simpa only [storeCascade, hp] using e1, g1⟩
        | some p =>
          obtain ⟨y2, e2, g2⟩ := ch _ y1 p _ e1 fun z => (tame_stages b.stages z).2
          exact ⟨y2, by simpa only [storeCascade, hp] using e2, g2.trans g1⟩
      cases a
      case attach j => exact att j
      case setLayout l => exact sc _
      case scale k => exact sc _
      all_goals exact keep
    | sos f =>
      cases a
      case sosSetup rows => exact ch m x k _ hx fun z => (tame_stages _ z).2
      case filter y => exact ch m x k _ hx fun z => (tame_lines _ z).2
      case reset => exact ch m x k _ hx fun z => (tame_lines _ z).2
      all_goals exact keep
    | rbj f =>
      have rb : ∀ g : RBJ.Filter R, ∃ y', (m.change k fun _ => .rbj g).obj i = some y' ∧ (y'.IsPole ↔ x.IsPole) := fun g =>
        rep (.rbj g) (fun z h => by rw [hz] at h; obtain rfl := Option.some.inj h; exact .rfl)
      cases a
      case rbjSetupN d => exact rb _
      case rbjSetup fs d => exact rb _
      case filter y => exact rb _
      case reset => exact rb _
      case scale k => exact rb _
      all_goals exact keep

/-! ## Statements that leave the object alone -/

theorem priv_add {m : Mem R} {i : Nat} {x : Thing R} (hp : Private m i) (hi : i < m.length)
    (hx : ∀ p, x.PointsTo p → p ≠ i) : Private (m.add (T := T) x).2 i := fun k y p hy hpt => by
  rcases obj_add_cases hy with hy | ⟨rfl, rfl⟩
  · exact hp k y p hy hpt
  · exact ⟨fun e => absurd e (by omega), fun e => absurd e (hx p hpt)⟩

/-- `Cascade`s do not point to themselves: there is nothing to point to. -/
def Sound (m : Mem R) (i : Nat) : Prop := ∀ x, m.obj i = some x → ¬ x.IsPole → ∀ p, ¬ x.PointsTo p

theorem attach_self_sound {m : Mem R} {i : Nat} (h : Sound m i) : Sound (m.attach (T := T) i i).2 i := by
  unfold attach
  cases hj : (m.obj i).bind Thing.stages? with
  | none => exact h
  | some st =>
    cases hx : m.obj i with
    | none => rw [hx] at hj; cases hj
    | some x =>
      rw [hx, Option.bind_some] at hj
      intro y hy hn p hpt
      rw [show ((.ok .none, m.change i (attached i st)) : Res (Obs T R) × Mem R).2 = m.change i (attached i st) from rfl,
        obj_change_self hx] at hy
      obtain rfl := Option.some.inj hy
      cases x with
      | pole o => exact hn trivial
      | cascade c => cases hj
      | sos f => exact hpt
      | rbj f => exact hpt

/-- What a program may rely on about object `i`. -/
structure Alone (m : Mem R) (i : Nat) (x : Thing R) : Prop where
  obj : m.obj i = some x
  priv : Private m i
  sound : Sound m i

theorem priv_assign {m : Mem R} {i k j : Nat} {x : Thing R} (h : Alone m i x) (hk : k ≠ i) :
    Private (m.assign (T := T) k j).2 i := by
  have nop : ∀ {y z : Thing R} , (∀ p, y.PointsTo p → p ≠ i) → m.obj k = some z →
      Private (m.change k fun _ => y) i := by
    intro y z hy hz q w p hw hpt
    rw [obj_change] at hw
    split_ifs at hw with hkq
    · subst hkq
      rw [hz] at hw
      obtain rfl := Option.some.inj hw
      exact ⟨fun e => absurd e hk, fun e => absurd e (hy p hpt)⟩
    · exact h.priv q w p hw hpt
  unfold assign
  split
  · split_ifs
    · exact (keeps_change m k (tame_lines _)).priv h.priv
    · exact h.priv
  · rename_i c0 c e1 e2
    refine nop (fun p hpt e => ?_) e1
    by_cases hj : j = i
    · subst hj
      exact h.sound _ e2 (fun h => h) p hpt
    · exact hj ((h.priv j _ p e2 hpt).2 e)
  · split_ifs
    · rename_i e1 e2 _; exact nop (fun p hpt => hpt.elim) e1
    · exact h.priv
  · rename_i e1 e2; exact nop (fun p hpt => hpt.elim) e1
  · exact h.priv

theorem obj_assign_ne {m : Mem R} {i k j : Nat} (hk : k ≠ i) : (m.assign (T := T) k j).2.obj i = m.obj i := by
  unfold assign
  split
  · split_ifs
    · exact obj_change_ne _ _ hk
    · rfl
  · exact obj_change_ne _ _ hk
  · split_ifs
    · exact obj_change_ne _ _ hk
    · rfl
  · exact obj_change_ne _ _ hk
  · rfl

theorem Alone.step_other {m : Mem R} {i : Nat} {x : Thing R} (h : Alone m i x) {s : Stmt T R}
    (hs : Stmt.Leaves i x.IsPole s) (hne : ∀ a, s ≠ .act i a) : Alone (m.step s).2 i x := by
  have hi := lt_of_obj h.obj
  have new : ∀ y : Thing R, (∀ p, y.PointsTo p → p ≠ i) → Alone (m.add (T := T) y).2 i x := fun y hy =>
    ⟨by rw [obj_add _ hi, h.obj], priv_add h.priv hi hy, by unfold Sound; rw [obj_add _ hi]; exact h.sound⟩
  cases s with
  | new c n t =>
    refine new _ fun p hpt => ?_
    have : m.length = p := by rcases hpt with e | e | e <;> exact e
    omega
  | newSos n t => exact new _ fun p hpt => hpt.elim
  | newCascade => exact new _ fun p hpt => by cases hpt
  | newRbj => exact new _ fun p hpt => hpt.elim
  | copy k =>
    cases hk : m.obj k with
    | none => simp only [step, hk]; exact h
    | some y =>
      simp only [step, hk]
      refine new y fun p hpt e => ?_
      have hki : k = i := (h.priv k y p hk hpt).2 e
      subst hki
      obtain rfl : x = y := Option.some.inj (h.obj.symm.trans hk)
      by_cases hpole : x.IsPole
      · exact hs hpole rfl
      · exact h.sound x h.obj hpole p hpt
  | assign k j =>
    have hk : k ≠ i := hs
    have e := obj_assign_ne (T := T) (m := m) (j := j) hk
    exact ⟨e.trans h.obj, priv_assign h hk, by unfold Sound; rw [show (m.step (.assign k j : Stmt T R)).2.obj i = _ from e]; exact h.sound⟩
  | destroy k =>
    have hki : k ≠ i := hs
    cases hk : m.obj k with
    | none => simp only [step, hk]; exact h
    | some y =>
      simp only [step, hk]
      have e : ∀ q z, Mem.obj (m.set k none) q = some z → m.obj q = some z := by
        intro q z hz
        by_cases hq : k = q
        · subst hq
          have hl := lt_of_obj hk
          simp [obj_eq, List.getElem?_set_self hl] at hz
        · rwa [obj_set_ne hq] at hz
      refine ⟨by rw [obj_set_ne hki, h.obj], fun q z p hz hpt => h.priv q z p (e q z hz) hpt, ?_⟩
      unfold Sound; rw [obj_set_ne hki]; exact h.sound
  | act k a =>
    have hki : k ≠ i := fun e => hne a (by rw [e])
    have e : (m.step (.act k a)).2.obj i = m.obj i := act_reach hki
      (fun y hy hpt => hki ((h.priv k y i hy hpt).2 rfl)) a
    refine ⟨e.trans h.obj, ?_, by unfold Sound; rw [e]; exact h.sound⟩
    show Private (m.act k a).2 i
    by_cases ha : ∃ j, a = .attach j
    · obtain ⟨j, rfl⟩ := ha
      have hj : k = i ↔ j = i := hs
      have : (m.act k (.attach j : Do T R)).2 = m ∨ (m.act k (.attach j : Do T R)).2 = (m.attach (T := T) k j).2 := by
        unfold act
        cases m.obj k with
        | none => exact .inl rfl
        | some y => cases y <;> first | exact .inl rfl | exact .inr rfl
      rcases this with e | e <;> rw [e]
      · exact h.priv
      · exact priv_attach h.priv hj
    · exact (keeps_act m k fun j e => ha ⟨j, e⟩).priv h.priv

theorem Alone.step_self {m : Mem R} {i : Nat} {x : Thing R} (h : Alone m i x) {a : Do T R}
    (hs : Stmt.Leaves i x.IsPole (.act i a)) :
    ∃ y, Alone (m.step (.act i a)).2 i y ∧ (y.IsPole ↔ x.IsPole) := by
  obtain ⟨y, hy, hyx⟩ := obj_act_some (k := i) h.obj a
  have goal : Private (m.act i a).2 i ∧ Sound (m.act i a).2 i := by
    by_cases ha : ∃ j, a = .attach j
    · obtain ⟨j, rfl⟩ := ha
      obtain rfl : j = i := (show i = i ↔ j = i from hs).1 rfl
      have : (m.act j (.attach j : Do T R)).2 = m ∨ (m.act j (.attach j : Do T R)).2 = (m.attach (T := T) j j).2 := by
        unfold act
        cases m.obj j with
        | none => exact .inl rfl
        | some y => cases y <;> first | exact .inl rfl | exact .inr rfl
      rcases this with e | e <;> rw [e]
      · exact ⟨h.priv, h.sound⟩
      · exact ⟨priv_attach h.priv .rfl, attach_self_sound h.sound⟩
    · have hk := keeps_act m i (a := a) fun j e => ha ⟨j, e⟩
      refine ⟨hk.priv h.priv, fun z hz hn p hpt => ?_⟩
      obtain ⟨w, hw, h1, h2⟩ := hk i z hz
      exact h.sound w hw (fun hh => hn (h2.2 hh)) p ((h1 p).1 hpt)
  exact ⟨y, ⟨hy, goal.1, goal.2⟩, hyx⟩

end Mem

open Mem

/-- **C83**: a member function of one object changes only this object and those it points to. -/
theorem C83_reach {m : Mem R} {k q : Nat} (hk : k ≠ q) (hp : ∀ x, m.obj k = some x → ¬ x.PointsTo q) (a : Do T R) :
    (m.step (.act k a)).2.obj q = m.obj q := act_reach hk hp a

theorem callsOn_self (i : Nat) (a : Do T R) (p : List (Stmt T R)) : callsOn i (.act i a :: p) = a :: callsOn i p := by
  simp [callsOn]

theorem callsOn_other {i : Nat} {s : Stmt T R} (p : List (Stmt T R)) (hne : ∀ a, s ≠ .act i a) :
    callsOn i (s :: p) = callsOn i p := by
  cases s with
  | act k a =>
    have : k ≠ i := fun e => hne a (by rw [e])
    simp [callsOn, this]
  | _ => rfl

theorem resultsOn_self (i : Nat) (a : Do T R) (p : List (Stmt T R)) (r : Res (Obs T R)) (rs) :
    resultsOn i (.act i a :: p) (r :: rs) = r :: resultsOn i p rs := by simp [resultsOn]

theorem resultsOn_other {i : Nat} {s : Stmt T R} (p : List (Stmt T R)) (hne : ∀ a, s ≠ .act i a) (r : Res (Obs T R)) (rs) :
    resultsOn i (s :: p) (r :: rs) = resultsOn i p rs := by
  cases s with
  | act k a =>
    have : k ≠ i := fun e => hne a (by rw [e])
    simp [resultsOn, this]
  | _ => rfl

theorem independent_aux (i : Nat) (p : List (Stmt T R)) {m m' : Mem R} {x : Thing R} (h : Alone m i x) (h' : Alone m' i x)
    (hp : ∀ s ∈ p, Stmt.Leaves i x.IsPole s) :
    resultsOn i p (m.run p).1 = (m'.run ((callsOn i p).map (.act i))).1 ∧
    (m.run p).2.obj i = (m'.run ((callsOn i p).map (.act i))).2.obj i := by
  induction p generalizing m m' x with
  | nil => exact ⟨rfl, h.obj.trans h'.obj.symm⟩
  | cons s p ih =>
    have hs := hp s (by simp)
    have hps : ∀ s ∈ p, Stmt.Leaves i x.IsPole s := fun d hd => hp d (by simp [hd])
    by_cases hne : ∀ a, s ≠ .act i a
    · simp only [run, resultsOn_other p hne, callsOn_other p hne]
      exact ih (h.step_other hs hne) h' hps
    · push Not at hne
      obtain ⟨a, rfl⟩ := hne
      have hpt : ∀ q, x.PointsTo q → q = i := fun q hq => (h.priv i x q h.obj hq).1 rfl
      obtain ⟨e1, e2⟩ := act_private h.obj h'.obj hpt (a := a) fun j e => by
        subst e
        exact (show i = i ↔ j = i from hs).1 rfl
      obtain ⟨y, hy, hyx⟩ := h.step_self hs
      obtain ⟨y', hy', -⟩ := h'.step_self hs
      obtain rfl : y' = y := Option.some.inj (hy'.obj.symm.trans (e2.symm.trans hy.obj))
      have hps' : ∀ s ∈ p, Stmt.Leaves i y'.IsPole s := by
        rw [show y'.IsPole = x.IsPole from propext hyx]; exact hps
      obtain ⟨i1, i2⟩ := ih hy hy' hps'
      simp only [run, resultsOn_self, callsOn_self, List.map_cons]
      exact ⟨by rw [i1]; exact congrArg (· :: _) e1, i2⟩

/-- A memory with the object `x` under the number `i` and no other object. -/
def Spec.lone (i : Nat) (x : Thing R) : Mem R := List.replicate i none ++ [some x]

theorem lone_obj (i : Nat) (x : Thing R) (k : Nat) : (lone i x).obj k = if k = i then some x else none := by
  rcases lt_trichotomy k i with h | rfl | h
  · simp [Mem.obj_eq, lone, List.getElem?_append_left, h, Nat.ne_of_lt h]
  · simp [Mem.obj_eq, lone]
  · rw [if_neg (by omega), obj_of_ge (by simp [lone]; omega)]

/-- **C83**: whatever objects with whatever delay lines a program uses, copies, attaches to each other and destroys, the
calls on a private object have exactly the outcomes, and leave the object exactly as, in the program that consists of
these calls only, in a memory without other objects. -/
theorem C83_independent {m : Mem R} {i : Nat} {x : Thing R} (hx : m.obj i = some x) (hp : Private m i)
    (hc : ∀ c, x = .cascade c → c.ptr = none) (p : List (Stmt T R)) (hs : ∀ s ∈ p, Stmt.Leaves i x.IsPole s) :
    resultsOn i p (m.run p).1 = ((lone i x).run ((callsOn i p).map (.act i))).1 ∧
    (m.run p).2.obj i = ((lone i x).run ((callsOn i p).map (.act i))).2.obj i := by
  have np : ¬ x.IsPole → ∀ q, ¬ x.PointsTo q := by
    intro hn q hq
    cases x with
    | pole o => exact hn trivial
    | cascade c => have := hc c rfl; rw [show c.ptr = some q from hq] at this; cases this
    | sos f => exact hq
    | rbj f => exact hq
  refine independent_aux i p ⟨hx, hp, fun y hy => ?_⟩ ⟨by rw [lone_obj, if_pos rfl], fun k y q hy hq => ?_, fun y hy => ?_⟩ hs
  · obtain rfl := Option.some.inj (hx.symm.trans hy); exact np
  · rw [lone_obj] at hy
    split_ifs at hy with hk
    subst hk
    obtain rfl := Option.some.inj hy
    exact ⟨fun _ => (hp k x q hx hq).1 rfl, fun _ => rfl⟩
  · rw [lone_obj, if_pos rfl] at hy
    obtain rfl := Option.some.inj hy; exact np

/-! ## Objects just constructed are private -/

/-- No pointer leads beyond the objects that ever existed. -/
def Mem.Bounded (m : Mem R) : Prop := ∀ k x p, m.obj k = some x → x.PointsTo p → p < m.length

theorem Mem.length_change (m : Mem R) (p : Nat) (f : Thing R → Thing R) : (m.change p f).length = m.length := by
  simp [change]

theorem Mem.length_storeCascade (m : Mem R) (i : Nat) (c : CascadeThing) (b : Cascade R) :
    (m.storeCascade i c b).length = m.length := by
  cases hp : c.ptr <;> simp only [storeCascade, hp, length_change]

theorem Mem.length_store (m : Mem R) (i : Nat) (o : PoleThing R) (b : PFB R) : (m.store i o b).length = m.length := by
  simp only [store, length_change]

theorem Mem.length_attach (m : Mem R) (i j : Nat) : (m.attach (T := T) i j).2.length = m.length := by
  unfold attach
  cases (m.obj j).bind Thing.stages? with
  | none => rfl
  | some st => exact length_change _ _ _

theorem Mem.length_act (m : Mem R) (i : Nat) (a : Do T R) : (m.act i a).2.length = m.length := by
  unfold act
  cases m.obj i with
  | none => rfl
  | some x =>
    cases x with
    | pole o =>
      cases a
      case attach j => exact length_attach m i j
      all_goals simp only [doPole]
      all_goals try split_ifs
      all_goals first | rfl | exact length_store _ _ _ _ | exact length_change _ _ _
    | cascade c =>
      cases a
      case attach j => exact length_attach m i j
      all_goals simp only [doCascade]
      all_goals first | rfl | exact length_storeCascade _ _ _ _
    | sos f => cases a <;> simp only [doSos] <;> first | rfl | exact length_change _ _ _
    | rbj f => cases a <;> simp only [doRbj] <;> first | rfl | exact length_change _ _ _

theorem Mem.length_step_le (m : Mem R) (s : Stmt T R) : m.length ≤ (m.step s).2.length := by
  cases s with
  | copy k => simp only [step]; cases m.obj k <;> simp [add]
  | destroy k => simp only [step]; cases m.obj k <;> simp
  | act k a => exact (length_act m k a).ge
  | assign k j =>
    simp only [step, assign]
    split
    all_goals try split_ifs
    all_goals simp [length_change]
  | _ => simp [step, add]

theorem Mem.Bounded.keeps {m m' : Mem R} (h : m.Bounded) (hk : Keeps m m') (hl : m.length ≤ m'.length) : m'.Bounded := fun k x' p hx hpt => by
  obtain ⟨x, hx, h1, -⟩ := hk k x' hx
  exact lt_of_lt_of_le (h k x p hx ((h1 p).1 hpt)) hl

theorem Mem.Bounded.change {m : Mem R} (h : m.Bounded) {i : Nat} {f : Thing R → Thing R}
    (hf : ∀ x, m.obj i = some x → ∀ p, (f x).PointsTo p → p < m.length) : (m.change i f).Bounded := fun k x p hx hpt => by
  rw [length_change]
  rw [obj_change] at hx
  split_ifs at hx with hk
  · subst hk
    cases hy : m.obj i with
    | none => rw [hy] at hx; cases hx
    | some y =>
      rw [hy] at hx
      obtain rfl := Option.some.inj hx
      exact hf y hy p hpt
  · exact h k x p hx hpt

theorem Mem.Bounded.add {m : Mem R} (h : m.Bounded) {x : Thing R} (hx : ∀ p, x.PointsTo p → p ≤ m.length) :
    (m.add (T := T) x).2.Bounded := fun k y p hy hpt => by
  have hl : (m.add (T := T) x).2.length = m.length + 1 := by simp [Mem.add]
  rw [hl]
  rcases obj_add_cases hy with hy | ⟨rfl, rfl⟩
  · exact Nat.lt_succ_of_lt (h k y p hy hpt)
  · exact Nat.lt_succ_of_le (hx p hpt)

theorem Mem.Bounded.attach {m : Mem R} (h : m.Bounded) (i j : Nat) : (m.attach (T := T) i j).2.Bounded := by
  unfold Mem.attach
  cases hj : (m.obj j).bind Thing.stages? with
  | none => exact h
  | some st =>
    refine h.change fun x hx p hpt => ?_
    rcases attached_other hpt with rfl | hpt
    · cases hy : m.obj p with
      | none => rw [hy] at hj; cases hj
      | some y => exact lt_of_obj hy
    · exact h i x p hx hpt

theorem Mem.Bounded.step {m : Mem R} (h : m.Bounded) (s : Stmt T R) : (m.step s).2.Bounded := by
  cases s with
  | new c n t =>
    refine h.add fun p hpt => ?_
    have : m.length = p := by rcases hpt with e | e | e <;> exact e
    omega
  | newSos n t => exact h.add fun p hpt => hpt.elim
  | newCascade => exact h.add fun p hpt => by cases hpt
  | newRbj => exact h.add fun p hpt => hpt.elim
  | copy k =>
    simp only [Mem.step]
    cases hk : m.obj k with
    | none => exact h
    | some y => exact h.add fun p hpt => (h k y p hk hpt).le
  | destroy k =>
    simp only [Mem.step]
    cases hk : m.obj k with
    | none => exact h
    | some y =>
      intro q z p hz hpt
      rw [List.length_set]
      by_cases hq : k = q
      · subst hq
        simp [obj_eq, List.getElem?_set_self (lt_of_obj hk)] at hz
      · rw [obj_set_ne hq] at hz
        exact h q z p hz hpt
  | assign k j =>
    simp only [Mem.step, assign]
    split
    · split_ifs
      · exact h.keeps (keeps_change m k (tame_lines _)) (length_change _ _ _).ge
      · exact h
    · rename_i e1 e2
      exact h.change fun x _ p hpt => h j _ p e2 hpt
    · split_ifs
      · exact h.change fun x _ p hpt => hpt.elim
      · exact h
    · exact h.change fun x _ p hpt => hpt.elim
    · exact h
  | act k a =>
    show (m.act k a).2.Bounded
    by_cases ha : ∃ j, a = .attach j
    · obtain ⟨j, rfl⟩ := ha
      have : (m.act k (.attach j : Do T R)).2 = m ∨ (m.act k (.attach j : Do T R)).2 = (m.attach (T := T) k j).2 := by
        unfold act
        cases m.obj k with
        | none => exact .inl rfl
        | some y => cases y <;> first | exact .inl rfl | exact .inr rfl
      rcases this with e | e <;> rw [e]
      · exact h
      · exact h.attach k j
    · exact h.keeps (keeps_act m k fun j e => ha ⟨j, e⟩) (length_act m k a).ge

theorem Mem.Bounded.run {m : Mem R} (h : m.Bounded) (p : List (Stmt T R)) : (m.run p).2.Bounded := by
  induction p generalizing m with
  | nil => exact h
  | cons s p ih => exact ih (h.step s)

/-- Constructors of objects. -/
def Spec.Stmt.IsNew : Stmt T R → Prop
  | .new _ _ _ => True
  | .newSos _ _ => True
  | .newCascade => True
  | .newRbj => True
  | _ => False

/-- **C83**, whole programs: an object constructed at any point of any program is private; unless the rest of the program
assigns to it, destroys it, copies it (a pole filter) or attaches it, its calls have the outcomes they have without the
rest of the program. -/
theorem C83_new (before after : List (Stmt T R)) (s : Stmt T R) (hs : Spec.Stmt.IsNew s) :
    ∃ x i, let m := (Mem.run (before ++ [s]) ([] : Mem R)).2
      m.obj i = some x ∧ (∀ k, k ≠ i → m.obj k = (Mem.run before ([] : Mem R)).2.obj k) ∧
      (Mem.run before ([] : Mem R)).2.obj i = none ∧
      ((∀ s ∈ after, Stmt.Leaves i x.IsPole s) →
        resultsOn i after (m.run after).1 = ((lone i x).run ((callsOn i after).map (.act i))).1 ∧
        (m.run after).2.obj i = ((lone i x).run ((callsOn i after).map (.act i))).2.obj i) := by
  have app : ∀ (p : List (Stmt T R)) (m : Mem R), (Mem.run (p ++ [s]) m).2 = ((Mem.run p m).2.step s).2 := by
    intro p
    induction p with
    | nil => intro m; rfl
    | cons c p ih => intro m; exact ih _
  have hb : (Mem.run before ([] : Mem R)).2.Bounded := Mem.Bounded.run (fun k x p hx => by simp [Mem.obj_eq] at hx) before
  generalize hm : (Mem.run before ([] : Mem R)).2 = m at hb
  have main : ∀ x : Thing R, (m.step s).2 = (m.add (T := T) x).2 → (∀ p, x.PointsTo p → p = m.length) →
      (∀ c, x = .cascade c → c.ptr = none) →
      ∃ x i, let m' := (Mem.run (before ++ [s]) ([] : Mem R)).2
      m'.obj i = some x ∧ (∀ k, k ≠ i → m'.obj k = m.obj k) ∧ m.obj i = none ∧
      ((∀ s ∈ after, Stmt.Leaves i x.IsPole s) →
        resultsOn i after (m'.run after).1 = ((lone i x).run ((callsOn i after).map (.act i))).1 ∧
        (m'.run after).2.obj i = ((lone i x).run ((callsOn i after).map (.act i))).2.obj i) := by
    intro x e hx hc
    refine ⟨x, m.length, ?_⟩
    rw [app, hm, e]
    refine ⟨obj_add_new m x, fun k hk => ?_, obj_of_ge (Nat.le_refl _), fun ha =>
      C83_independent (obj_add_new m x) (fun k y p hy hpt => ?_) hc after ha⟩
    · rcases lt_or_gt_of_ne hk with h | h
      · exact obj_add x h
      · rw [obj_of_ge (by simp [Mem.add]; omega), obj_of_ge (by omega)]
    · rcases obj_add_cases hy with hy | ⟨rfl, rfl⟩
      · have h1 := lt_of_obj hy
        have h2 := hb k y p hy hpt
        exact ⟨fun e => by omega, fun e => by omega⟩
      · exact ⟨fun _ => hx p hpt, fun _ => rfl⟩
  cases s with
  | new c n t => exact main _ rfl (fun p hpt => by rcases hpt with e | e | e <;> exact e.symm) (fun c e => by cases e)
  | newSos n t => exact main _ rfl (fun p hpt => hpt.elim) (fun c e => by cases e)
  | newCascade => exact main _ rfl (fun p hpt => by cases hpt) (fun c e => by cases e; rfl)
  | newRbj => exact main _ rfl (fun p hpt => hpt.elim) (fun c e => by cases e)
  | copy k => cases hs
  | assign k j => cases hs
  | destroy k => cases hs
  | act k a => cases hs

end Iir
