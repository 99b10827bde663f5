import Verif.Props.Attach
import Verif.Props.Inherited
import Verif.Props.Heap

/-! # C84: designing the sections of one object through another -/

set_option linter.unusedSectionVars false

namespace Iir
open FArith Exec Spec Mem

section anyArith
variable {R : Type} [FArith R] {T : Type} [Sample T R]

/-! ## A pole filter attached to the sections of another object -/

theorem Mem.step_attach {m : Mem R} {i j : Nat} {o : PoleThing R} {y : Thing R} {st : List (Biquad R)}
    (hi : m.obj i = some (.pole o)) (hj : m.obj j = some y) (hst : y.stages? = some st) :
    m.step (.act i (.attach j : Do T R)) = (.ok .none, m.change i (attached j st)) := by
  simp only [step, act, hi, doPole, attach, hj, Option.bind_some, hst]

/-- What `setup` works on after the attachment. -/
theorem Mem.view_attached {m : Mem R} {i j : Nat} {o : PoleThing R} {y : Thing R} {st : List (Biquad R)}
    (hij : i ≠ j) (hi : m.obj i = some (.pole o)) (h2 : o.digitalPtr = i) (h3 : o.analogPtr = i)
    (hj : m.obj j = some y) (hst : y.stages? = some st) :
    (m.change i (attached j st)).view { o with stagePtr := j, own := { o.own with
      cascade := { numStages := 0, maxStages := st.length, stages := o.own.cascade.stages } } } =
    { o.own with cascade := { numStages := 0, maxStages := st.length, stages := st } } := by
  have e1 : (m.change i (attached j st)).obj j = some y := by rw [obj_change_ne _ _ hij, hj]
  have e2 := obj_change_self hi (attached j st)
  simp only [view, stagesAt, digitalAt, analogAt, e1, h2, h3, e2, Option.bind_some, hst, attached, Option.getD_some]
  rfl

/-- **C84** (any arithmetic).  A pole filter `i` is attached to the sections of another object `j`, of which there are as
many as `i` has itself; then `setup` is called on `i`.  The outcome is that of the same call without the attachment.
If it succeeds, `j` has the sections that `i` would have got, and its delay lines are as before; `i` keeps its own
sections and delay lines, so it goes on filtering as before the call — while its `response ()` and `getPoleZeros ()` report
the new design. -/
theorem C84_setup {S : Type → Type} [StateType S R] {m : Mem R} {i j : Nat} {o : PoleThing R} {y : Thing R} {st : List (Biquad R)}
    (hij : i ≠ j) (hi : m.obj i = some (.pole o)) (h1 : o.stagePtr = i) (h2 : o.digitalPtr = i) (h3 : o.analogPtr = i)
    (hj : m.obj j = some y) (hst : y.stages? = some st) (hlen : st.length = PoleFilter.numStages o.cls o.order)
    (hn1 : 1 ≤ o.order) (hn : o.order < 2 ^ 30) {f : PoleFilter S R} (hf : Reach S T o.cls o.order f) (hof : o.own = f.base)
    (call : Call R) (hcls : call.design.cls = o.cls) :
    let r := (m.step (.act i (.attach j : Do T R))).2.step (.act i (.setup call) : Stmt T R)
    let s := m.step (.act i (.setup call) : Stmt T R)
    r.1 = s.1 ∧ (r.1 = .ok .none →
      (∃ st', (s.2.obj i).bind Thing.stages? = some st' ∧ r.2.obj j = some (y.writeStages st')) ∧
      (∃ o', r.2.obj i = some (.pole o') ∧ o'.own.cascade.stages = o.own.cascade.stages ∧ o'.lines = o.lines) ∧
      (∀ x : T, (r.2.step (.act i (.filter x))).1 = (m.step (.act i (.filter x))).1) ∧
      (∀ nf, (r.2.step (.act i (.response nf) : Stmt T R)).1 = (s.2.step (.act i (.response nf))).1) ∧
      (r.2.step (.act i .poleZeros : Stmt T R)).1 = (s.2.step (.act i .poleZeros)).1) := by
  intro r s
  have hok : o.own.Ok o.cls o.order := by rw [hof]; exact hf.ok hn1 (by simpa using hn)
  have e1 : (m.change i (attached j st)).obj i = some (.pole { o with stagePtr := j, own := { o.own with
      cascade := { numStages := 0, maxStages := st.length, stages := o.own.cascade.stages } } }) := obj_change_self hi _
  have ej : (m.change i (attached j st)).obj j = some y := by rw [obj_change_ne _ _ hij, hj]
  have hview := view_attached hij hi h2 h3 hj hst
  obtain ⟨p, hp⟩ : ∃ p : PFB R, p = { o.own with cascade := { numStages := 0, maxStages := st.length, stages := st } } := ⟨_, rfl⟩
  rw [← hp] at hview
  have hpok : p.Ok call.design.cls o.order := by
    rw [hp, hcls]
    exact ⟨⟨hlen, hlen, Nat.zero_le _⟩, hok.digital, hok.analog⟩
  obtain ⟨a1, -, a3⟩ := Call.run_same_analog hn1 (by simpa using hn) (call := call) hpok (hcls ▸ hok) (by rw [hp])
  obtain ⟨b, hb⟩ : ∃ b, b = (call.run o.order p).2 := ⟨_, rfl⟩
  obtain ⟨q, hq⟩ : ∃ q, q = (call.run o.order o.own).2 := ⟨_, rfl⟩
  have hr : r = ((call.run o.order p).1.map fun _ => .none, (m.change i (attached j st)).store i { o with stagePtr := j, own := { o.own with
      cascade := { numStages := 0, maxStages := st.length, stages := o.own.cascade.stages } } } b) := by
    show (m.step (.act i (.attach j : Do T R))).2.step (.act i (.setup call) : Stmt T R) = _
    rw [step_attach hi hj hst]
    simp only [step, act, e1, doPole, hcls, if_true, hview, hb]
  have hv := view_private hi h1 h2 h3
  have hs : s = ((call.run o.order o.own).1.map fun _ => .none, m.store i o q) := by
    show m.step (.act i (.setup call) : Stmt T R) = _
    simp only [step, act, hi, doPole, hcls, if_true, hv, hq]
  have hsobj : s.2.obj i = some (.pole { o with own := q }) := by rw [hs]; exact store_private hi h1 h2 h3
  have hrj : r.2.obj j = some (y.writeStages b.cascade.stages) := by
    rw [hr]
    show ((((Mem.change _ i _).change j _).change o.digitalPtr _).change o.analogPtr _).obj j = _
    rw [h2, h3, obj_change_ne _ _ hij, obj_change_ne _ _ hij,
      obj_change_self (x := y) (by rw [obj_change_ne _ _ hij, ej])]
  have hri : r.2.obj i = some (.pole { o with stagePtr := j, own := b.withArrays o.own.cascade.stages b.digital.pairs b.analog.lay.pairs }) := by
    rw [hr]
    show ((((Mem.change _ i _).change j _).change o.digitalPtr _).change o.analogPtr _).obj i = _
    rw [h2, h3, obj_change_self (obj_change_self ((obj_change_ne _ _ hij.symm).trans (obj_change_self e1 _)) _)]
    simp only [Thing.writeScalars, Thing.writeDigital, Thing.writeAnalog, PFB.withArrays, h2, h3]
  refine ⟨by rw [hr, hs, a1], fun hok' => ?_⟩
  have hok1 : (call.run o.order p).1 = .ok () := by
    rw [hr] at hok'
    revert hok'
    simp only
    rcases (call.run o.order p).1 with _ | _ | _
    · intro _; rfl
    · intro h; exact absurd h (by simp [Res.map])
    · intro h; exact absurd h (by simp [Res.map])
  have hag : PFB.Agree b q := by rw [hb, hq]; exact a3 hok1
  have hvs : ∀ o', s.2.obj i = some (.pole o') → s.2.view o' = q := by
    intro o' ho'
    obtain rfl : { o with own := q } = o' := by
      have := hsobj.symm.trans ho'
      exact Thing.pole.inj (Option.some.inj this)
    exact view_private hsobj h1 h2 h3
  have hstj : y.stages?.isSome → (y.writeStages b.cascade.stages).stages? = some b.cascade.stages := by
    cases y with
    | pole o => exact fun _ => rfl
    | sos f => exact fun _ => rfl
    | cascade c => exact fun h => by cases h
    | rbj f => exact fun h => by cases h
  have hvr : r.2.view { o with stagePtr := j, own := b.withArrays o.own.cascade.stages b.digital.pairs b.analog.lay.pairs } = b := by
    simp only [view, stagesAt, digitalAt, analogAt, hrj, h2, h3, hri, Option.bind_some, hstj (by rw [hst]; rfl), Option.getD_some]
    rfl
  refine ⟨⟨q.cascade.stages, by rw [hsobj]; rfl, by rw [hrj, hag.cascade]⟩, ⟨_, hri, rfl, rfl⟩, fun x => ?_, fun nf => ?_, ?_⟩
  · simp only [step, act, hri, hi, doPole, PFB.withArrays]
  · simp only [step, act, hri, hsobj, doPole, hvr, hvs _ hsobj, hag.cascade]
  · simp only [step, act, hri, hsobj, doPole, hvr, hvs _ hsobj, hag.getPoleZeros]

/-! ## A `SOSCascade` that gets its sections that way -/

/-- the outputs of a chain of sections -/
def Spec.sectionsOut (st : List (Biquad R)) : List T → Lines R → List (Res (Obs T R))
  | [], _ => []
  | x :: xs, l => (Lines.filter st x l).1.map .sample :: sectionsOut st xs (Lines.filter st x l).2

theorem run_filters_pole (i : Nat) (xs : List T) {m : Mem R} {o : PoleThing R} (hi : m.obj i = some (.pole o)) :
    (m.run (xs.map fun x => .act i (.filter x))).1 = sectionsOut o.own.cascade.stages xs o.lines := by
  induction xs generalizing m o with
  | nil => rfl
  | cons x xs ih =>
    have e : m.step (.act i (.filter x)) = ((Lines.filter o.own.cascade.stages x o.lines).1.map .sample,
        m.change i (Thing.writeLines (Lines.filter o.own.cascade.stages x o.lines).2)) := by
      simp only [step, act, hi, doPole]
    simp only [List.map_cons, Mem.run, sectionsOut, e]
    rw [ih (o := { o with lines := (Lines.filter o.own.cascade.stages x o.lines).2 }) (obj_change_self hi _)]

theorem run_filters_sos (i : Nat) (xs : List T) {m : Mem R} {f : SosThing R} (hi : m.obj i = some (.sos f)) :
    (m.run (xs.map fun x => .act i (.filter x))).1 = sectionsOut f.stages xs f.lines := by
  induction xs generalizing m f with
  | nil => rfl
  | cons x xs ih =>
    have e : m.step (.act i (.filter x)) = ((Lines.filter f.stages x f.lines).1.map .sample,
        m.change i (Thing.writeLines (Lines.filter f.stages x f.lines).2)) := by
      simp only [step, act, hi, doSos]
    simp only [List.map_cons, Mem.run, sectionsOut, e]
    rw [ih (f := { f with lines := (Lines.filter f.stages x f.lines).2 }) (obj_change_self hi _)]

theorem Lines.init_reset (n : Nat) (t : Topology) : (Lines.init n t : Lines R).reset = Lines.init n t := by
  cases t <;> simp only [Lines.init, Lines.reset, CascadeStages.reset, CascadeStages.initStates, List.map_replicate] <;> rfl

/-- The program that designs a `SOSCascade` (object 1) through a pole filter (object 0). -/
def Spec.designSos (c : Cls) (n : Nat) (t t' : Topology) (call : Call R) : List (Stmt T R) :=
  [.new c n t, .newSos (PoleFilter.numStages c n) t', .act 0 (.attach 1), .act 0 (.setup call)]

/-- The program that designs a pole filter. -/
def Spec.designPole (c : Cls) (n : Nat) (t : Topology) (call : Call R) : List (Stmt T R) :=
  [.new c n t, .act 0 (.setup call)]

/-- **C84** (any arithmetic).  Attach a new pole filter to a new `SOSCascade` with as many sections, of any of the three
topologies, and call `setup` on the pole filter: the outcome is that of `setup` on a new filter, and if it succeeds the
`SOSCascade` returns, for every input, what the pole filter of its topology returns after that `setup`. -/
theorem C84_sos {c : Cls} {n : Nat} (hn1 : 1 ≤ n) (hn : n < 2 ^ 30) (t t' : Topology) (call : Call R)
    (hcls : call.design.cls = c) :
    let a := Mem.run (designSos (T := T) c n t t' call) ([] : Mem R)
    let b := Mem.run (designPole (T := T) c n t' call) ([] : Mem R)
    a.1.getLast? = b.1.getLast? ∧ (b.1.getLast? = some (.ok .none) → ∀ xs : List T,
      (a.2.run (xs.map fun x => .act 1 (.filter x))).1 = (b.2.run (xs.map fun x => .act 0 (.filter x))).1) := by
  intro a b
  have h0 : Mem.obj ([some (.pole (newPole c n t 0)), some (.sos ⟨CascadeStages.initStages (PoleFilter.numStages c n),
        .init (PoleFilter.numStages c n) t'⟩)] : Mem R) 0 = some (.pole (newPole c n t 0)) := rfl
  have hreach : Reach DirectFormII T c n (PoleFilter.init DirectFormII c n : PoleFilter DirectFormII R) := .new
  obtain ⟨e1, e2⟩ := C84_setup (T := T) (i := 0) (j := 1) (by decide) h0 rfl rfl rfl (y := .sos _) rfl rfl
    (by simp [newPole, CascadeStages.initStages]) hn1 hn hreach rfl call hcls
  -- the pole filter with the other topology
  have hb0 : Mem.obj ([some (.pole (newPole c n t' 0))] : Mem R) 0 = some (.pole (newPole c n t' 0)) := rfl
  have hbv := view_private hb0 rfl rfl rfl
  have hbs : Mem.step ([some (.pole (newPole c n t' 0))] : Mem R) (.act 0 (.setup call) : Stmt T R) =
      ((call.run n (PoleFilter.initBase c n)).1.map fun _ => .none,
        Mem.store [some (.pole (newPole c n t' 0))] 0 (newPole c n t' 0) (call.run n (PoleFilter.initBase c n)).2) := by
    have e : (newPole c n t' 0 : PoleThing R).cls = c := rfl
    have e' : (newPole c n t' 0 : PoleThing R).order = n := rfl
    simp only [step, act, hb0, doPole, e, e', hcls, if_true, hbv]
    rfl
  have hav := view_private h0 rfl rfl rfl
  have has : Mem.step ([some (.pole (newPole c n t 0)), some (.sos ⟨CascadeStages.initStages (PoleFilter.numStages c n),
        .init (PoleFilter.numStages c n) t'⟩)] : Mem R) (.act 0 (.setup call) : Stmt T R) =
      ((call.run n (PoleFilter.initBase c n)).1.map fun _ => .none,
        Mem.store ([some (.pole (newPole c n t 0)), some (.sos ⟨CascadeStages.initStages (PoleFilter.numStages c n),
        .init (PoleFilter.numStages c n) t'⟩)] : Mem R) 0 (newPole c n t 0) (call.run n (PoleFilter.initBase c n)).2) := by
    have e : (newPole c n t 0 : PoleThing R).cls = c := rfl
    have e' : (newPole c n t 0 : PoleThing R).order = n := rfl
    simp only [step, act, h0, doPole, e, e', hcls, if_true, hav]
    rfl
  have hout : a.1.getLast? = b.1.getLast? := by
    show some _ = some _
    congr 1
    refine e1.trans ?_
    rw [has]
    exact (congrArg Prod.fst hbs).symm
  refine ⟨hout, fun hok xs => ?_⟩
  obtain ⟨⟨st', g1, g2⟩, -⟩ := e2 (by
    have : some _ = some _ := hout.trans hok
    exact Option.some.inj this)
  rw [has] at g1
  have hst' : st' = (call.run n (PoleFilter.initBase c n)).2.cascade.stages := by
    rw [show (Mem.store ([some (.pole (newPole c n t 0)), some (.sos ⟨CascadeStages.initStages (PoleFilter.numStages c n),
        .init (PoleFilter.numStages c n) t'⟩)] : Mem R) 0 (newPole c n t 0) (call.run n (PoleFilter.initBase c n)).2).obj 0 = _ from
      store_private h0 rfl rfl rfl] at g1
    exact (Option.some.inj g1).symm
  have hb2 : b.2.obj 0 = some (.pole { newPole c n t' 0 with own := (call.run n (PoleFilter.initBase c n)).2 }) := by
    show (Mem.step ([some (.pole (newPole c n t' 0))] : Mem R) (.act 0 (.setup call) : Stmt T R)).2.obj 0 = _
    rw [hbs]
    exact store_private hb0 rfl rfl rfl
  have ha2 : a.2.obj 1 = some (.sos { stages := st', lines := .init (PoleFilter.numStages c n) t' }) := g2
  rw [run_filters_pole 0 xs hb2, run_filters_sos 1 xs ha2, hst']
  show sectionsOut _ xs (Lines.init _ t') = sectionsOut _ xs (Lines.init _ t').reset
  rw [Lines.init_reset]

/-! ## What goes wrong -/

theorem Thing.writeStages_self {y : Thing R} {st : List (Biquad R)} (h : y.stages? = some st) : y.writeStages st = y := by
  cases y with
  | pole o => obtain rfl := Option.some.inj h; rfl
  | sos f => obtain rfl := Option.some.inj h; rfl
  | cascade c => cases h
  | rbj f => cases h

/-- **C84**, what goes wrong, 1: attaching does not make a `Cascade` see the sections: whatever they are, it reports no
stages and no poles, its `response ()` is that of an empty cascade, and scaling it has no effect on the sections. -/
theorem C84_blind {m : Mem R} {i j : Nat} {c : CascadeThing} {y : Thing R} {st : List (Biquad R)} (hij : i ≠ j)
    (hi : m.obj i = some (.cascade c)) (hj : m.obj j = some y) (hst : y.stages? = some st) :
    ∃ m', m.step (.act i (.attach j) : Stmt T R) = (.ok .none, m') ∧
      (m'.step (.act i .numStages : Stmt T R)).1 = .ok (.numStages 0) ∧
      (m'.step (.act i .poleZeros : Stmt T R)).1 = .ok (.poleZeros []) ∧
      (∀ nf, (m'.step (.act i (.response nf) : Stmt T R)).1 =
        ((Cascade.mk 0 0 [] : Cascade R).response nf).map .response) ∧
      (∀ k, (m'.step (.act i (.scale k) : Stmt T R)).1 = .ok .none ∧
        (m'.step (.act i (.scale k) : Stmt T R)).2.obj j = some y) := by
  have e1 : (m.change i (attached j st)).obj i = some (.cascade { numStages := 0, maxStages := st.length, ptr := some j }) :=
    obj_change_self hi _
  have ej : (m.change i (attached j st)).obj j = some y := by rw [obj_change_ne _ _ hij, hj]
  refine ⟨m.change i (attached j st), by simp only [step, act, hi, doCascade, attach, hj, Option.bind_some, hst], ?_, ?_, fun nf => ?_, fun k => ?_⟩
  · simp only [step, act, e1, doCascade, viewCascade]
  · simp only [step, act, e1, doCascade, viewCascade]; rfl
  · simp only [step, act, e1, doCascade, viewCascade]; rfl
  · have : Cascade.applyScale k { numStages := 0, maxStages := st.length, stages := st } =
        (.ok (), { numStages := 0, maxStages := st.length, stages := st }) := rfl
    simp only [step, act, e1, doCascade, viewCascade, Option.map_some, Option.getD_some, stagesAt, ej, Option.bind_some, hst, this]
    refine ⟨rfl, ?_⟩
    simp only [storeCascade]
    rw [obj_change_self ((obj_change_ne _ _ hij).trans ej) _, Thing.writeStages_self hst]

/-- **C84**, what goes wrong, 2: once the object whose sections they are has been destroyed, neither `setup` of an
attached pole filter nor `setLayout` of an attached `Cascade` can succeed. -/
theorem C84_dangling {m : Mem R} {i : Nat} :
    (∀ o, m.obj i = some (.pole o) → m.obj o.stagePtr = none → 0 < o.own.cascade.maxStages → ∀ (call : Call R) (r : Obs T R),
      (m.step (.act i (.setup call))).1 ≠ .ok r) ∧
    (∀ c p, m.obj i = some (.cascade c) → c.ptr = some p → m.obj p = none → 0 < c.maxStages → ∀ (l : Layout R) (r : Obs T R),
      (m.step (.act i (.setLayout l))).1 ≠ .ok r) := by
  refine ⟨fun o ho hd h1 call r => ?_, fun c p hc hp hd h1 l r => ?_⟩
  · simp only [step, act, ho, doPole]
    split_ifs with hcl
    swap
    · simp
    have h0 : (m.view o).cascade.stages = [] := by
      simp only [view, PFB.withArrays, stagesAt, hd]; rfl
    rw [Call.run_eq]
    split_ifs
    · simp [Res.map]
    · have := Design.baseSetup_no_memory (call.order o.order) call.normDesign (m.view o) h0 h1
      revert this
      rcases (call.normDesign.baseSetup (call.order o.order) (m.view o)).1 with _ | _ | _
      · exact fun h => (h rfl).elim
      · simp [Res.map]
      · simp [Res.map]
  · have h0 : (m.viewCascade c).stages = [] := by
      simp only [viewCascade, hp, Option.map_some, Option.getD_some, stagesAt, hd]; rfl
    have := Cascade.setLayout_no_memory l (m.viewCascade c) h0 h1
    simp only [step, act, hc, doCascade]
    revert this
    rcases (Cascade.setLayout l (m.viewCascade c)).1 with _ | _ | _
    · exact fun h => (h rfl).elim
    · simp [Res.map]
    · simp [Res.map]

/-- **C84**: a `Cascade` that was never attached rejects every layout that has a pole. -/
theorem C84_unattached {m : Mem R} {i : Nat} (hi : m.obj i = some (.cascade { numStages := 0, maxStages := 0, ptr := none }))
    {l : Layout R} (hl : 0 < l.numPoles) : (m.step (.act i (.setLayout l) : Stmt T R)).1 = .throw .tooManyStages := by
  have : (m.viewCascade { numStages := 0, maxStages := 0, ptr := none }).maxStages < (l.numPoles + 1) / 2 := by
    show 0 < _
    omega
  simp only [step, act, hi, doCascade, Cascade.setLayout_tooMany this]
  rfl

end anyArith

open XR Cx Biquad

/-! ## Exact arithmetic: a `SOSCascade` made from the client's own poles and zeros -/

/-- number of delay lines -/
def Spec.Lines.count : Lines XR → ℕ
  | .df1 l => l.length
  | .df2 l => l.length
  | .tdf2 l => l.length

/-- the delay lines hold finite numbers -/
def Spec.Lines.Finite : Lines XR → Prop
  | .df1 l => FiniteStates l
  | .df2 l => FiniteStates l
  | .tdf2 l => FiniteStates l

theorem feed_map {σ τ : Type} {F : XR → Exec σ XR} {G : XR → Exec τ XR} (g : σ → τ)
    (h : ∀ x s, G x (g s) = ((F x s).1, g (F x s).2)) (xs : List XR) (s : σ) : (feed G xs (g s)).1 = (feed F xs s).1 := by
  induction xs generalizing s with
  | nil => rfl
  | cons x xs ih =>
    simp only [feed, bind_def, h]
    rcases F x s with ⟨_ | _ | _, s'⟩
    · simp only
      have := ih s'
      revert this
      rcases feed G xs (g s') with ⟨_ | _ | _, t⟩ <;> rcases feed F xs s' with ⟨_ | _ | _, t'⟩ <;> simp
    · rfl
    · rfl

theorem Produces.map {σ τ : Type} {F : XR → Exec σ XR} {G : XR → Exec τ XR} (g : σ → τ)
    (h : ∀ x s, G x (g s) = ((F x s).1, g (F x s).2)) {s : σ} {x y : ℕ → ℝ} (hp : Produces F s x y) : Produces G (g s) x y :=
  fun N => (feed_map g h _ s).trans (hp N)

theorem CascadeStages.produces {S : Type → Type} [StateType S XR] [ExactState S] {bs : List (Biquad ℝ)} {ss : List (S XR)}
    {cs : List (ℝ × ℝ)} (h : Sims bs ss cs) (x : ℕ → ℝ) :
    Produces (CascadeStages.filter (T := XR) (bs.map Biquad.toX)) ss x (chainOut bs cs x) :=
  produces_of_sim (Rel := fun (ss : List (S XR)) cs => Sims bs ss cs)
    (fun f c x h => by
      obtain ⟨ss', e, h'⟩ := h.step x
      exact ⟨ss', by simp [CascadeStages.filter, Sample.toR, Sample.ofR, e], h'⟩) h x

/-- A chain of stable sections with any finite delay lines of any topology. -/
theorem lines_settle {bs : List (Biquad ℝ)} (hsec : ∀ b ∈ bs, SecStable b) {l : Lines XR} (hc : bs.length = Spec.Lines.count l)
    (hf : Spec.Lines.Finite l) (fr A φ : ℝ) :
    ∃ y, Produces (Lines.filter (T := XR) (bs.map Biquad.toX)) l (fun n => A * Real.cos (2 * Real.pi * fr * n + φ)) y ∧
      Settles (bs.map (secH · (circle fr))).prod fr A φ y := by
  have settle : ∀ cs : List (ℝ × ℝ), bs.length = cs.length →
      Settles (bs.map (secH · (circle fr))).prod fr A φ (chainOut bs cs fun n => A * Real.cos (2 * Real.pi * fr * n + φ)) := by
    intro cs hcs
    refine settles_of ?_
    exact chain_steady hsec cs hcs (norm_circle fr) (K := A * Complex.exp (φ * Complex.I))
      (x := fun n => A * Real.cos (2 * Real.pi * fr * n + φ)) (by
        refine Filter.Tendsto.congr (fun n => ?_) tendsto_const_nhds
        rw [cos_eq_re, sub_self])
  cases l with
  | df1 l =>
    obtain ⟨cs, hcs⟩ := Sims.of_finite bs l hc hf
    exact ⟨_, Produces.map Lines.df1 (fun x s => rfl) (CascadeStages.produces hcs _), settle cs hcs.cs_length⟩
  | df2 l =>
    obtain ⟨cs, hcs⟩ := Sims.of_finite bs l hc hf
    exact ⟨_, Produces.map Lines.df2 (fun x s => rfl) (CascadeStages.produces hcs _), settle cs hcs.cs_length⟩
  | tdf2 l =>
    obtain ⟨cs, hcs⟩ := Sims.of_finite bs l hc hf
    exact ⟨_, Produces.map Lines.tdf2 (fun x s => rfl) (CascadeStages.produces hcs _), settle cs hcs.cs_length⟩

/-- **C84** (exact arithmetic).  A client builds a layout from poles and zeros of its own, attaches a plain `Cascade` to a
`SOSCascade` and installs the layout with `setLayout`.  Then all calls succeed, the delay lines of the `SOSCascade` stay, it
is stable if and only if the poles are inside the unit circle, `response ()` of the `Cascade` is the rational function with
these roots, scaled to magnitude `g` at angular frequency `w`, and with poles inside the unit circle the `SOSCascade` makes
of a sampled sinusoid, after transients, the sinusoid scaled and shifted by that response. -/
theorem C84_own_layout {m : Mem XR} {i j : ℕ} {c : CascadeThing} {f : SosThing XR} (hi : m.obj i = some (.cascade c))
    (hj : m.obj j = some (.sos f)) {r : Roots} (hr : r.poles ≠ []) (hx : ∀ x ∈ r.pairs, x.Allowed) {N : ℕ}
    (hN : r.poles.length ≤ N) (hfit : (r.poles.length + 1) / 2 ≤ f.stages.length) {w g : ℝ} (hw0 : 0 ≤ w) (hw1 : w ≤ Real.pi)
    (hp : circle (w / (2 * Real.pi)) ∉ r.poles) (hz : circle (w / (2 * Real.pi)) ∉ r.zeros) :
    ∃ l m1 m2 f', r.build w g (Layout.storage N) = (.ok (), l) ∧
      m.step (.act i (.attach j) : Stmt XR XR) = (.ok .none, m1) ∧
      m1.step (.act i (.setLayout l) : Stmt XR XR) = (.ok .none, m2) ∧
      m2.obj j = some (.sos f') ∧ f'.lines = f.lines ∧
      ((∀ b ∈ f'.stages, StableSection b) ↔ ∀ p ∈ r.poles, ‖p‖ < 1) ∧
      (∀ fr : ℝ, 0 ≤ fr → fr ≤ 1 / 2 → circle fr ∉ r.poles →
        (m2.step (.act i (.response (.fin fr)) : Stmt XR XR)).1 = .ok (.response (number
          ((g / ‖r.transfer (circle (w / (2 * Real.pi)))‖ : ℝ) * r.transfer (circle fr))))) ∧
      ((∀ p ∈ r.poles, ‖p‖ < 1) → Spec.Lines.count f.lines = f.stages.length → Spec.Lines.Finite f.lines →
        ∀ fr A φ : ℝ, ∃ y, Produces (Lines.filter (T := XR) f'.stages) f'.lines
            (fun n => A * Real.cos (2 * Real.pi * fr * n + φ)) y ∧
          Settles ((g / ‖r.transfer (circle (w / (2 * Real.pi)))‖ : ℝ) * r.transfer (circle fr)) fr A φ y) := by
  have hij : i ≠ j := fun e => by rw [e, hj] at hi; cases hi
  obtain ⟨l, el, hl⟩ := (Roots.done_build hx (L := (N + 1) / 2) (by omega) w g).run (storage_stored N)
  have hc0 : circle (w / (2 * Real.pi)) ≠ 0 := Complex.exp_ne_zero _
  have hlen := r.quads_length
  have hpl := List.length_pos_iff.2 hr
  have hne : r.quads ≠ [] := by intro e; rw [e, List.length_nil] at hlen; omega
  obtain ⟨K, hK⟩ : ∃ K, K = f.stages.length := ⟨_, rfl⟩
  have hset : Cascade.setLayout l { numStages := 0, maxStages := f.stages.length, stages := f.stages } =
      (.ok (), setSections r.quads K g (w / (2 * Real.pi))) := by
    refine Spec.setLayout_core r.quads_ok hne hl (by omega) hw0 hw1 (by rw [r.den]; exact Roots.prod_ne_zero hc0 hp)
      (by rw [r.num]; exact Roots.prod_ne_zero hc0 hz) ⟨hK.symm, hK.symm, Nat.zero_le _⟩ (by rw [hlen, hK]; exact hfit)
  obtain ⟨k, hk⟩ : ∃ k, k = g / ‖numL r.quads (circle (w / (2 * Real.pi)))⁻¹ /
    denL r.quads (circle (w / (2 * Real.pi)))⁻¹‖ := ⟨_, rfl⟩
  obtain ⟨bs, hbs⟩ : ∃ bs, bs = (r.quads.map Quad.sec ++ List.replicate (K - r.quads.length) identC).modify 0 (scaledB k) :=
    ⟨_, rfl⟩
  have hsec : setSections r.quads K g (w / (2 * Real.pi)) = ⟨r.quads.length, K, bs.map toX⟩ := by
    rw [hbs, hk]; rfl
  rw [hsec] at hset
  have e1 : (m.change i (attached j f.stages)).obj i =
      some (.cascade { numStages := 0, maxStages := f.stages.length, ptr := some j }) := obj_change_self hi _
  have ej : (m.change i (attached j f.stages)).obj j = some (.sos f) := by rw [obj_change_ne _ _ hij, hj]
  have ha0 : ∀ b ∈ bs, b.a0 = 1 := by rw [hbs]; exact modify_a0 (secs_a0 _ _)
  have hbl : bs.length = K := by
    rw [hbs]; simp only [List.length_modify, List.length_append, List.length_map, List.length_replicate]; omega
  have hgain : k = g / ‖r.transfer (circle (w / (2 * Real.pi)))‖ := by
    rw [hk, r.num, r.den]; rfl
  have hstab := modify_stable r.quads_ok K k
  rw [← hbs, r.inside_iff] at hstab
  have hm2 : ∃ m2, (m.change i (attached j f.stages)).step (.act i (.setLayout l) : Stmt XR XR) = (.ok .none, m2) ∧
      m2.obj j = some (.sos { f with stages := bs.map toX }) ∧
      m2.obj i = some (.cascade { numStages := r.quads.length, maxStages := K, ptr := some j }) := by
    refine ⟨_, by simp only [step, act, e1, doCascade, viewCascade, Option.map_some, Option.getD_some, stagesAt, ej,
      Option.bind_some, Thing.stages?, hset]; rfl, ?_, ?_⟩
    · simp only [storeCascade]
      exact obj_change_self ((obj_change_ne _ _ hij).trans ej) _
    · simp only [storeCascade]
      rw [obj_change_ne _ _ hij.symm, obj_change_self e1]
  obtain ⟨m2, s2, o2, i2⟩ := hm2
  refine ⟨l, _, m2, { f with stages := bs.map toX }, el,
    by simp only [step, act, hi, doCascade, attach, hj, Option.bind_some, Thing.stages?], s2, o2, rfl, hstab, fun fr h0 h1 hfr => ?_,
    fun hin hcount hfin fr A φ => ?_⟩
  · have hfr' : denL r.quads (circle fr)⁻¹ ≠ 0 := by
      rw [r.den]; exact Roots.prod_ne_zero (Complex.exp_ne_zero _) hfr
    simp only [step, act, i2, doCascade, viewCascade, Option.map_some, Option.getD_some, stagesAt, o2,
      Option.bind_some, Thing.stages?]
    rw [Cascade.response_toX (bs := bs) (fun b hb => by rw [ha0 b hb]; exact one_ne_zero) rfl (by simp only; omega) h0 h1]
    simp only
    obtain ⟨e1, e2⟩ := modify_take_prod hne r.quads_ok K k (circle fr)⁻¹
    rw [← hbs] at e1 e2
    rw [e1, e2, cdiv_ofC _ hfr', r.num, r.den, mul_div_assoc, hgain]
    rfl
  · have hst := hstab.2 hin
    have hss : ∀ b ∈ bs, SecStable b := fun b hb z hz =>
      (stableSection_iff (ha0 b hb)).1 (hst _ (List.mem_map_of_mem hb)) z hz
    obtain ⟨y, h1, h2⟩ := lines_settle hss (l := f.lines) (by rw [hbl, hK, hcount]) hfin fr A φ
    refine ⟨y, h1, ?_⟩
    have e : (bs.map (secH · (circle fr))).prod =
        (g / ‖r.transfer (circle (w / (2 * Real.pi)))‖ : ℝ) * r.transfer (circle fr) := by
      rw [hbs]
      simp only [secH_eq]
      rw [modify_prod hne r.quads_ok, r.num, r.den, mul_div_assoc, hgain]
      rfl
    rwa [e] at h2

/-- **C84** (exact arithmetic), with `C84_blind`: after the attachment `response ()` is 1, whatever the sections are. -/
theorem C84_blind_exact {m : Mem XR} {i j : ℕ} {c : CascadeThing} {y : Thing XR} {st : List (Biquad XR)} (hij : i ≠ j)
    (hi : m.obj i = some (.cascade c)) (hj : m.obj j = some y) (hst : y.stages? = some st) {fr : ℝ} (h0 : 0 ≤ fr)
    (h1 : fr ≤ 1 / 2) :
    ((m.step (.act i (.attach j) : Stmt XR XR)).2.step (.act i (.response (.fin fr)) : Stmt XR XR)).1 =
      .ok (.response (number 1)) := by
  obtain ⟨m', e, -, -, h, -⟩ := C84_blind (T := XR) hij hi hj hst
  rw [e]
  simp only
  rw [h, Cascade.response_toX (bs := []) (by simp) rfl (by simp) h0 h1]
  simp only [List.take_nil, List.map_nil, List.prod_nil]
  rw [cdiv_ofC _ one_ne_zero, div_one]
  rfl

end Iir
