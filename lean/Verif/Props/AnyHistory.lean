import Verif.Spec.AnyHistory
import Verif.Props.Inherited
import Verif.Props.Orders
import Verif.Props.HistoryExact
import Verif.Props.Cases

/-! # C78: the members a pole filter inherits leave no trace in the next `setup` -/

set_option linter.unusedSectionVars false

namespace Iir
open FArith Cx Exec Spec

variable {R : Type} [FArith R] {S : Type → Type} [StateType S R] {T : Type} [Sample T R] {n : ℕ} {c : Cls}

/-- `P` is kept whatever the outcome. -/
def Exec.Holding {σ α : Type} (P : σ → Prop) (m : Exec σ α) : Prop := ∀ s, P s → P (m s).2

namespace Exec.Holding
variable {σ α β : Type} {P : σ → Prop}

theorem bind {m : Exec σ α} {k : α → Exec σ β} (h : Holding P m) (h' : ∀ a, Holding P (k a)) : Holding P (m >>= k) := by
  intro s hs
  have := h s hs
  rw [bind_def]
  revert this
  rcases m s with ⟨_ | _ | _, s'⟩ <;> intro hp
  · exact h' _ _ hp
  · exact hp
  · exact hp

theorem loop {body : ℕ → Exec σ Unit} (h : ∀ i, Holding P (body i)) : ∀ k, Holding P (Exec.loop k body)
  | 0 => fun _ hs => hs
  | k + 1 => bind (loop h k) fun _ => h k

theorem lift (r : Res α) : Holding P (Exec.lift r) := by
  intro s hs; cases r <;> exact hs

theorem throwIf (b : Bool) (e : Err) : Holding P (Exec.throwIf b e) := by
  intro s hs; cases b <;> exact hs

theorem get : Holding P (Exec.get : Exec σ σ) := fun _ hs => hs

end Exec.Holding

/-- The arrays of a cascade have `M` elements. -/
structure Cascade.Fit (M : ℕ) (c : Cascade R) : Prop where
  maxStages : c.maxStages = M
  length : c.stages.length = M

theorem Cascade.fit_onStage {M : ℕ} (i : ℕ) (m : Exec (Biquad R) Unit) : Holding (Cascade.Fit M) (Cascade.onStage i m) := by
  intro c hc
  unfold Cascade.onStage
  rcases c.stages[i]? with _ | b
  · exact hc
  · exact ⟨hc.maxStages, by simpa using hc.length⟩

theorem Cascade.fit_applyScale {M : ℕ} (k : R) : Holding (Cascade.Fit M) (Cascade.applyScale k) := by
  refine Holding.bind Holding.get fun c => ?_
  split_ifs
  · exact fun _ hs => hs
  · exact Cascade.fit_onStage _ _

theorem Cascade.fit_setLayout {M : ℕ} (l : Layout R) : Holding (Cascade.Fit M) (Cascade.setLayout l) := by
  unfold Cascade.setLayout
  refine Holding.bind (fun c hc => ⟨hc.maxStages, hc.length⟩) fun _ => ?_
  refine Holding.bind Holding.get fun c => ?_
  refine Holding.bind (Holding.throwIf _ _) fun _ => ?_
  refine Holding.bind (Holding.loop (fun i => Cascade.fit_onStage _ _) _) fun _ => ?_
  refine Holding.bind (Holding.loop (fun i => Holding.bind (Holding.lift _) fun _ => Cascade.fit_onStage _ _) _) fun _ => ?_
  refine Holding.bind Holding.get fun _ => ?_
  exact Holding.bind (Holding.lift _) fun _ => Cascade.fit_applyScale _

theorem CascadeStages.setup_length (rows : List (CascadeStages.SosRow R)) (bs : List (Biquad R)) :
    (CascadeStages.setup rows bs).2.length = bs.length := by
  induction rows generalizing bs with
  | nil => rfl
  | cons r rs ih =>
    cases bs with
    | nil => rfl
    | cons b bs =>
      unfold CascadeStages.setup
      rcases Biquad.setCoefficients r.c3 r.c4 r.c5 r.c0 r.c1 r.c2 b with ⟨_ | _ | _, b'⟩
      · simp [ih]
      · rfl
      · rfl

/-- The base class members with another value of `m_numStages`. -/
def PFB.withNum (k : ℕ) (p : PFB R) : PFB R := { p with cascade := { p.cascade with numStages := k } }

theorem PFB.rest_withNum (d : Design R) (p : PFB R) (k : ℕ) :
    (PFB.rest d (p.withNum k)).1 = (PFB.rest d p).1 ∧
      (∃ j, (PFB.rest d p).2 = (PFB.rest d (p.withNum k)).2.withNum j) ∧
      ((PFB.rest d p).1 = .ok () → PFB.rest d (p.withNum k) = PFB.rest d p) := by
  rw [PFB.rest_apply, PFB.rest_apply]
  have e1 : (p.withNum k).analog = p.analog := rfl
  have e2 : (p.withNum k).digital = p.digital := rfl
  rw [e1, e2]
  rcases d.trans p.analog.lay p.digital with ⟨_ | _ | _, l⟩
  · exact ⟨rfl, ⟨_, rfl⟩, fun _ => rfl⟩
  · exact ⟨rfl, ⟨p.cascade.numStages, rfl⟩, fun h => absurd h (by simp)⟩
  · exact ⟨rfl, ⟨p.cascade.numStages, rfl⟩, fun h => absurd h (by simp)⟩

theorem Call.run_withNum (call : Call R) (p : PFB R) (k : ℕ) :
    (call.run n (p.withNum k)).1 = (call.run n p).1 ∧
      (∃ j, (call.run n p).2 = (call.run n (p.withNum k)).2.withNum j) ∧
      ((call.run n p).1 = .ok () → call.run n (p.withNum k) = call.run n p) := by
  rw [Call.run_eq, Call.run_eq]
  split_ifs with ho
  · exact ⟨rfl, ⟨p.cascade.numStages, rfl⟩, fun h => absurd h (by simp)⟩
  · rw [PFB.baseSetup_proto, PFB.baseSetup_proto]
    have e1 : (p.withNum k).analog = p.analog := rfl
    rw [e1]
    rcases call.normDesign.proto (call.order n) p.analog with ⟨_ | _ | _, a⟩
    · exact PFB.rest_withNum call.normDesign { p with analog := a } k
    · exact ⟨rfl, ⟨p.cascade.numStages, rfl⟩, fun h => absurd h (by simp)⟩
    · exact ⟨rfl, ⟨p.cascade.numStages, rfl⟩, fun h => absurd h (by simp)⟩

/-- Equal prototypes: equal outcomes of every `setup`, and equal prototypes after it. -/
theorem Call.run_same_analog (hn1 : 1 ≤ n) (hn : n < 1073741824) {p q : PFB R} {call : Call R} (hp : p.Ok call.design.cls n)
    (hq : q.Ok call.design.cls n) (ha : p.analog = q.analog) :
    (call.run n p).1 = (call.run n q).1 ∧ (call.run n p).2.analog = (call.run n q).2.analog ∧
      ((call.run n p).1 = .ok () → PFB.Agree (call.run n p).2 (call.run n q).2) := by
  rw [Call.run_eq, Call.run_eq]
  split_ifs with ho
  · exact ⟨rfl, ha, fun h => absurd h (by simp)⟩
  · rw [PFB.baseSetup_proto, PFB.baseSetup_proto, ha]
    rw [← call.normDesign_cls] at hp hq
    have hat := call.normDesign.proto_atMost hn1 hn (o := call.order n) (by omega) hq.analog
    revert hat
    rcases call.normDesign.proto (call.order n) q.analog with ⟨_ | _ | _, a⟩ <;> intro hat
    · have ha := hat (by simp)
      have := PFB.rest_same (d := call.normDesign) hn1 (p := { p with analog := a }) (p' := { q with analog := a })
        ⟨hp.cascade, hp.digital, ha⟩ ⟨hq.cascade, hq.digital, ha⟩ (.refl ⟨rfl, ha.2⟩)
      exact ⟨this.1, by rw [PFB.rest_analog, PFB.rest_analog], this.2⟩
    · exact ⟨rfl, rfl, fun h => absurd h (by simp)⟩
    · exact ⟨rfl, rfl, fun h => absurd h (by simp)⟩

/-- As `PFB.Ok`, but `m_numStages` may be anything. -/
def PFB.Fit (c : Cls) (n : ℕ) (p : PFB R) : Prop := (p.withNum 0).Ok c n

theorem PFB.Ok.fit {p : PFB R} (h : p.Ok c n) : p.Fit c n :=
  ⟨⟨h.cascade.maxStages, h.cascade.length, Nat.zero_le _⟩, h.digital, h.analog⟩

theorem PFB.Fit.withNum {p : PFB R} (h : p.Fit c n) (k : ℕ) : (p.withNum k).Fit c n := h

theorem PFB.Fit.setCascade {p : PFB R} (h : p.Fit c n) {q : Cascade R} (hq : q.Fit (PoleFilter.numStages c n)) :
    PFB.Fit c n { p with cascade := q } :=
  ⟨⟨hq.maxStages, hq.length, Nat.zero_le _⟩, h.digital, h.analog⟩

theorem PFB.Fit.cascade {p : PFB R} (h : p.Fit c n) : p.cascade.Fit (PoleFilter.numStages c n) :=
  ⟨h.1.maxStages, h.1.length⟩

theorem PFB.Fit.run (hn1 : 1 ≤ n) (hn : n < 1073741824) {p : PFB R} {call : Call R} (h : p.Fit call.design.cls n)
    (hu : ∀ u, (call.run n p).1 ≠ .ub u) : (call.run n p).2.Fit call.design.cls n := by
  obtain ⟨h1, ⟨j, h2⟩, -⟩ := Call.run_withNum (n := n) call p 0
  rw [h2]
  refine PFB.Fit.withNum (PFB.Ok.fit ?_) j
  have := Call.trip_run hn1 hn call (p.withNum 0) h
  rw [← h1] at hu
  revert this hu
  rcases call.run n (p.withNum 0) with ⟨_ | _ | _, q⟩
  · exact fun _ h => h
  · exact fun _ h => h
  · exact fun h _ => (h _ rfl).elim

theorem Call.run_fit (hn1 : 1 ≤ n) (hn : n < 1073741824) {p q : PFB R} {call : Call R} (hp : p.Fit call.design.cls n)
    (hq : q.Ok call.design.cls n) (ha : p.analog = q.analog) :
    (call.run n p).1 = (call.run n q).1 ∧ (call.run n p).2.analog = (call.run n q).2.analog ∧
      ((call.run n p).1 = .ok () → PFB.Agree (call.run n p).2 (call.run n q).2) := by
  obtain ⟨h1, ⟨j, h2⟩, h3⟩ := Call.run_withNum (n := n) call p 0
  obtain ⟨g1, g2, g3⟩ := Call.run_same_analog hn1 hn hp hq ha
  refine ⟨h1 ▸ g1, ?_, fun h => ?_⟩
  · rw [h2]; exact g2
  · rw [← h3 h]; exact g3 (h1.trans h)

theorem Spec.onlySetups_append (hs : List (Step T R)) (s : Step T R) :
    onlySetups (hs ++ [s]) = match s.call? with
      | some call => onlySetups hs ++ [.own (.setup call)]
      | none => onlySetups hs := by
  unfold onlySetups
  rcases h : s.call? with _ | call <;> simp [List.filterMap_append, h]

/-- A setup as one of the steps. -/
theorem Spec.Step.exec_call {s : Step T R} {call : Call R} (h : s.call? = some call) (hf : s.fits c n)
    (f : PoleFilter S R) : s.exec n f = PoleFilter.setup n call f ∧ call.design.cls = c := by
  cases s with
  | own op =>
    cases op with
    | setup call' => cases h; exact ⟨rfl, hf⟩
    | filter x => cases h
    | reset => cases h
    | scale k => cases h
  | layout l => cases h
  | sections rows => cases h
  | base o d => cases h; exact ⟨C74_same_as_setupN hf.2 d f, hf.1⟩

theorem Spec.Step.exec_other {s : Step T R} (h : s.call? = none) {f : PoleFilter S R} (hf : f.base.Fit c n) :
    (s.exec n f).2.base.Fit c n ∧ (s.exec n f).2.base.analog = f.base.analog := by
  cases s with
  | own op =>
    cases op with
    | setup call' => cases h
    | filter x =>
      have : (Step.exec n (.own (.filter x) : Step T R) f).2.base = f.base := by
        simp only [Step.exec, Op.exec, Exec.bind_def, PoleFilter.filter, Exec.zoom, CascadeStages.filter]
        rcases (Sample.ofR _ : Res T) with a | e | u <;> rfl
      rw [this]; exact ⟨hf, rfl⟩
    | reset => exact ⟨hf, rfl⟩
    | scale k => exact ⟨hf.setCascade (Cascade.fit_applyScale k _ hf.cascade), rfl⟩
  | layout l => exact ⟨hf.setCascade (Cascade.fit_setLayout l _ hf.cascade), rfl⟩
  | sections rows =>
    refine ⟨hf.setCascade (q := { f.base.cascade with stages := _ }) ⟨hf.cascade.maxStages, ?_⟩, rfl⟩
    rw [CascadeStages.setup_length]; exact hf.cascade.length
  | base o d => cases h

theorem Spec.ClientRuns.states_length {hs : List (Step T R)} {f : PoleFilter S R} (h : ClientRuns S T c n hs f) :
    f.states.length = PoleFilter.numStages c n := by
  induction h with
  | new => simp [PoleFilter.init, CascadeStages.reset, CascadeStages.initStates]
  | step hs f f' s r _ _ he _ ih =>
    have e : f' = (s.exec n f).2 := by rw [he]
    rw [e, ← ih]
    cases s with
    | own op => exact exec_states_length n op f
    | layout l => rfl
    | sections rows => rfl
    | base o d => rfl

theorem Spec.ClientRuns.sim (hn1 : 1 ≤ n) (hn : n < 1073741824) {hs : List (Step T R)} {f : PoleFilter S R}
    (h : ClientRuns S T c n hs f) : f.base.Fit c n ∧ ∃ g, ClientRuns S T c n (onlySetups hs) g ∧ Reach S T c n g ∧
      f.base.analog = g.base.analog := by
  induction h with
  | new => exact ⟨(PFB.ok_init c n).fit, _, .new, .new, rfl⟩
  | step hs f f' s r hf hfit he hr ih =>
    obtain ⟨h1, g, h2, h3, h4⟩ := ih
    have e : f' = (s.exec n f).2 := by rw [he]
    have hr' : ∀ u, (s.exec n f).1 ≠ .ub u := by rw [he]; exact hr
    rw [onlySetups_append]
    rcases hc : s.call? with _ | call
    · obtain ⟨k1, k2⟩ := Step.exec_other hc h1
      rw [e]
      exact ⟨k1, g, h2, h3, k2.trans h4⟩
    · obtain ⟨k1, rfl⟩ := Step.exec_call hc hfit f
      rw [k1, PoleFilter.setup_apply] at hr' e
      obtain ⟨g1, g2, -⟩ := Call.run_fit hn1 hn h1 (h3.ok hn1 hn) h4
      have hu : ∀ u, (call.run n g.base).1 ≠ .ub u := fun u => g1 ▸ hr' u
      rw [e]
      exact ⟨h1.run hn1 hn hr', _, .step _ _ _ (.own (.setup call)) _ h2 rfl rfl hu,
        .call _ _ (.setup call) _ h3 rfl rfl hu, g2⟩

/-- **C78** (any arithmetic).  Whatever public members of a pole filter were called before, its own and the inherited
ones, in any order and with any arguments: what the next `setup` does depends on the earlier setups alone.  There is
an object on which nothing but these setups was called, and on both objects every `setup` has the same outcome and, if
it succeeds, the same effect. -/
theorem C78_only_setups (hn1 : 1 ≤ n) (hn : n < 2 ^ 30) {hs : List (Step T R)} {f : PoleFilter S R}
    (h : ClientRuns S T c n hs f) : ∃ g : PoleFilter S R, ClientRuns S T c n (onlySetups hs) g ∧ Reach S T c n g ∧
      ∀ call : Call R, call.design.cls = c → (PoleFilter.setup n call f).1 = (PoleFilter.setup n call g).1 ∧
        ((PoleFilter.setup n call f).1 = .ok () →
          SameConfig (PoleFilter.setup n call f).2 (PoleFilter.setup n call g).2) := by
  obtain ⟨h1, g, h2, h3, h4⟩ := h.sim hn1 hn
  refine ⟨g, h2, h3, fun call hc => ?_⟩
  subst hc
  obtain ⟨g1, -, g3⟩ := Call.run_fit hn1 hn h1 (h3.ok hn1 hn) h4
  exact ⟨g1, fun h => (g3 h).sameConfig⟩

theorem Spec.SameConfig.then {f g h : PoleFilter S R} (h1 : SameConfig f g) (h2 : SameConfig g h) : SameConfig f h :=
  ⟨h1.1.trans h2.1, fun i => (h1.2 i).trans (h2.2 i), fun i => (h1.3 i).trans (h2.3 i), h1.4.trans h2.4, h1.5.trans h2.5⟩

/-- **C78** (any arithmetic).  A call that succeeds on a new object succeeds after any such history, and makes the
object answer every query as that new object does. -/
theorem C78_like_new [SignedZeros R] (hn1 : 1 ≤ n) (hn : n < 2 ^ 30) {hs : List (Step T R)} {f : PoleFilter S R}
    (h : ClientRuns S T c n hs f) {call : Call R} (hc : call.design.cls = c) (ho : call.order n ≠ -1)
    (hok : (PoleFilter.setup n call (PoleFilter.init S c n)).1 = .ok ()) :
    (PoleFilter.setup n call f).1 = .ok () ∧
      SameConfig (PoleFilter.setup n call f).2 (PoleFilter.setup n call (PoleFilter.init S c n)).2 := by
  obtain ⟨g, -, hg, h1⟩ := C78_only_setups hn1 hn h
  obtain ⟨h2, h3⟩ := h1 call hc
  obtain ⟨h4, h5⟩ := C12_history_partial hn1 hn hg hc ho hok
  have h6 := h2.trans h4
  exact ⟨h6, (h3 h6).then h5⟩

/-- **C78** (any arithmetic).  After any such history no `setup` accesses an array out of range or through a null
pointer, and `filter ()` walks two arrays of the same length. -/
theorem C78_in_bounds (hn1 : 1 ≤ n) (hn : n < 2 ^ 30) {hs : List (Step T R)} {f : PoleFilter S R}
    (h : ClientRuns S T c n hs f) :
    (∀ call : Call R, call.design.cls = c → ∀ u, (PoleFilter.setup n call f).1 = .ub u →
      u = .polarPrecondition ∨ (u = .intOverflow ∧ call.order n < -(2 ^ 30))) ∧
      f.base.cascade.stages.length = f.states.length := by
  refine ⟨fun call hc u hu => ?_, ?_⟩
  · obtain ⟨g, -, hg, h1⟩ := C78_only_setups hn1 hn h
    rcases C16_setup_in_bounds hn1 hn hg call hc u ((h1 call hc).1 ▸ hu) with h | h
    · exact .inl h.1
    · exact .inr h
  · rw [h.states_length]; exact (h.sim hn1 hn).1.cascade.length

/-- **C78** in exact arithmetic: with parameters for which the prototype can be constructed, every `setup` has after
any such history the outcome and effect it has on a new object. -/
theorem C78_exact {S : Type → Type} [StateType S XR] {T : Type} [Sample T XR] (hn1 : 1 ≤ n) (hn : n < 2 ^ 30)
    {hs : List (Step T XR)} {f : PoleFilter S XR} (h : ClientRuns S T c n hs f) {call : Call XR} (hc : call.design.cls = c)
    (ho : 0 ≤ call.order n) (hg : GoodProto call.design) :
    (PoleFilter.setup n call f).1 = (PoleFilter.setup n call (PoleFilter.init S c n)).1 ∧
      ((PoleFilter.setup n call f).1 = .ok () →
        SameConfig (PoleFilter.setup n call f).2 (PoleFilter.setup n call (PoleFilter.init S c n)).2) := by
  obtain ⟨g, -, hg', h1⟩ := C78_only_setups hn1 hn h
  obtain ⟨h2, h3⟩ := h1 call hc
  obtain ⟨h4, h5⟩ := C12_exact_partial hn1 hn hg' hc ho hg
  exact ⟨h2.trans h4, fun h6 => (h3 h6).then (h5 (h2 ▸ h6))⟩

/-- A case: a new order 4 low pass gets two sections that double the signal, then a layout with six poles, which it
rejects with a wrong `getNumStages ()` left behind; the order 3 low pass set up then is that of a new object, with two
sections. -/
example {S : Type → Type} [StateType S XR] [DelayLine XR S] :
    ∃ (hs : List (Step XR XR)) (f : PoleFilter S XR), ClientRuns S XR .bwLowPass 4 hs f ∧ hs.length = 2 ∧
      f.getNumStages = 3 ∧ (PoleFilter.setup 4 caseCall f).1 = .ok () ∧
      SameConfig (PoleFilter.setup 4 caseCall f).2 (PoleFilter.setup 4 caseCall (PoleFilter.init S .bwLowPass 4)).2 ∧
      (PoleFilter.setup 4 caseCall f).2.getNumStages = 2 := by
  have hrow : (rowCoeffs ⟨2, 0, 0, 1, 0, 0⟩).Stable := by
    intro z hz
    simp [rowCoeffs] at hz
    rw [hz]; simp
  obtain ⟨f1, e1, -⟩ := C75_installs (S := S) (T := XR) (n := 4) (c := .bwLowPass) (by norm_num) (by norm_num) .new
    (rows := [⟨2, 0, 0, 1, 0, 0⟩, ⟨2, 0, 0, 1, 0, 0⟩]) rfl (by simp) (by
      intro r hr
      simp only [List.mem_cons, List.not_mem_nil, or_false, or_self] at hr
      subst hr; exact hrow)
  have h1 : ClientRuns S XR .bwLowPass 4 _ f1 := .step _ _ _ (.sections _) _ .new (by simp [Step.fits]; rfl) e1 (by simp)
  let l : Layout XR := ⟨6, 6, [], 0, 1⟩
  have hl := Cascade.setLayout_tooMany (l := l) (c := f1.base.cascade)
      (by rw [(h1.sim (by norm_num) (by norm_num)).1.cascade.maxStages]; decide)
  have h2 := ClientRuns.step _ _ _ (.layout l) _ h1 trivial (PoleFilter.setLayout_apply l _) (by rw [hl]; simp)
  have ok := caseCall_new (S := S) (n := 4) (by norm_num) (by norm_num)
  obtain ⟨h3, h4⟩ := C78_like_new (by norm_num) (by norm_num) h2 (call := caseCall) rfl (by decide) ok
  refine ⟨_, _, h2, rfl, ?_, h3, h4, ?_⟩
  · show (Cascade.setLayout l _).2.numStages = 3
    rw [hl]; simp [l]
  · rw [h4.numStages]
    exact (C19_counts_new (by norm_num) (by norm_num) caseCall rfl 3 rfl (Prod.ext ok rfl)).1

end Iir
