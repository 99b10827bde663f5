import Verif.Spec.Client
import Verif.Lemmas.Exec

/-! # C03, C04, C05, C06, C10 (composition), C11, for every arithmetic -/

set_option linter.unusedSectionVars false

namespace Iir
open Spec FArith

variable {R : Type} [FArith R] {S : Type → Type} [StateType S R] {T : Type} [Sample T R]

/-! ## C03: causality and block independence -/

theorem feed_append {σ : Type} (flt : T → Exec σ T) (xs ys : List T) :
    feed flt (xs ++ ys) = (do
      let a ← feed flt xs
      let b ← feed flt ys
      return a ++ b) := by
  induction xs with
  | nil =>
    funext s
    simp only [List.nil_append, feed, Exec.bind_def, Exec.pure_def']
    rcases feed flt ys s with ⟨r, s'⟩
    cases r <;> rfl
  | cons x xs ih =>
    funext s
    simp only [List.cons_append, feed, Exec.bind_def, ih]
    rcases flt x s with ⟨r, s1⟩
    cases r <;> try rfl
    simp only
    rcases feed flt xs s1 with ⟨r, s2⟩
    cases r <;> try rfl
    simp only [Exec.pure_def]
    rcases feed flt ys s2 with ⟨r, s3⟩
    cases r <;> rfl

/-- `filter` never throws and, for `double` samples, always returns. -/
theorem PoleFilter.filter_double_ok (x : R) (f : PoleFilter S R) :
    ∃ y f', PoleFilter.filter (T := R) x f = (.ok y, f') := ⟨_, _, rfl⟩

theorem feed_double_ok (xs : List R) (f : PoleFilter S R) :
    ∃ ys f', feed (PoleFilter.filter (T := R)) xs f = (.ok ys, f') ∧ ys.length = xs.length := by
  induction xs generalizing f with
  | nil => exact ⟨[], f, rfl, rfl⟩
  | cons x xs ih =>
    obtain ⟨y, f1, h1⟩ := PoleFilter.filter_double_ok x f
    obtain ⟨ys, f2, h2, h3⟩ := ih f1
    refine ⟨y :: ys, f2, ?_, by simp [h3]⟩
    simp [feed, Exec.bind_def, h1, h2]

/-- **C03** (pole filters, any sample type): processing `xs ++ ys` is processing `xs` and then `ys`
with the object in the state reached, in outcome, outputs and final state. -/
theorem C03_block_independent (xs ys : List T) (f : PoleFilter S R) :
    feed (PoleFilter.filter (T := T)) (xs ++ ys) f =
      (do
        let a ← feed PoleFilter.filter xs
        let b ← feed PoleFilter.filter ys
        return a ++ b : Exec (PoleFilter S R) (List T)) f := by
  rw [feed_append]

/-- **C03** (SOS cascades). -/
theorem C03_block_independent_sos (xs ys : List T) (f : Custom.SOS S R) :
    feed (Custom.SOS.filter (T := T)) (xs ++ ys) f =
      (do
        let a ← feed Custom.SOS.filter xs
        let b ← feed Custom.SOS.filter ys
        return a ++ b : Exec (Custom.SOS S R) (List T)) f := by
  rw [feed_append]

/-- **C03** (RBJ filters). -/
theorem C03_block_independent_rbj (xs ys : List T) (f : RBJ.Filter R) :
    feed (RBJ.Filter.filter (T := T)) (xs ++ ys) f =
      (do
        let a ← feed RBJ.Filter.filter xs
        let b ← feed RBJ.Filter.filter ys
        return a ++ b : Exec (RBJ.Filter R) (List T)) f := by
  rw [feed_append]

/-- **C03** (causality): the first outputs do not depend on later inputs.  If two inputs agree on
their first `n` samples, so do the outputs. -/
theorem C03_causal (xs ys : List R) (n : Nat) (h : xs.take n = ys.take n) (f : PoleFilter S R) :
    ∃ us vs f1 f2, feed (PoleFilter.filter (T := R)) xs f = (.ok us, f1) ∧
      feed (PoleFilter.filter (T := R)) ys f = (.ok vs, f2) ∧ us.take n = vs.take n := by
  have key : ∀ (xs ys : List R) (n : Nat), xs.take n = ys.take n → ∀ f : PoleFilter S R,
      ∃ us vs f1 f2, feed (PoleFilter.filter (T := R)) xs f = (.ok us, f1) ∧
      feed (PoleFilter.filter (T := R)) ys f = (.ok vs, f2) ∧ us.take n = vs.take n := by
    intro xs
    induction xs with
    | nil =>
      intro ys n h f
      obtain ⟨vs, f2, h2, h3⟩ := feed_double_ok ys f
      refine ⟨[], vs, f, f2, rfl, h2, ?_⟩
      cases n with
      | zero => simp
      | succ n =>
        cases ys with
        | nil => cases vs with
          | nil => rfl
          | cons => simp at h3
        | cons => simp at h
    | cons x xs ih =>
      intro ys n h f
      cases n with
      | zero =>
        obtain ⟨us, f1, h1, _⟩ := feed_double_ok (x :: xs) f
        obtain ⟨vs, f2, h2, _⟩ := feed_double_ok ys f
        exact ⟨us, vs, f1, f2, h1, h2, by simp⟩
      | succ n =>
        cases ys with
        | nil => simp at h
        | cons y ys =>
          simp only [List.take_succ_cons, List.cons.injEq] at h
          obtain ⟨rfl, h⟩ := h
          obtain ⟨o, g, hg⟩ := PoleFilter.filter_double_ok x f
          obtain ⟨us, vs, f1, f2, h1, h2, h3⟩ := ih ys n h g
          refine ⟨o :: us, o :: vs, f1, f2, ?_, ?_, by simp [h3]⟩
          · simp [feed, Exec.bind_def, hg, h1]
          · simp [feed, Exec.bind_def, hg, h2]
  exact key xs ys n h f

/-! ## C04: `reset` -/

/-- A delay line type whose `reset` restores the initial value. -/
class LawfulState (S : Type → Type) (R : Type) [FArith R] [StateType S R] : Prop where
  reset_eq : ∀ s : S R, StateType.reset s = StateType.init

instance : LawfulState DirectFormI R := ⟨fun _ => rfl⟩
instance : LawfulState DirectFormII R := ⟨fun _ => rfl⟩
instance : LawfulState TransposedDirectFormII R := ⟨fun _ => rfl⟩

/-- all three delay line types are -/
instance (priority := 50) LawfulState.ofDelayLine [h : DelayLine R S] : LawfulState S R := by
  cases h <;> infer_instance

theorem filterD_length (bs : List (Biquad R)) (ss : List (S R)) (x : R) :
    (CascadeStages.filterD bs ss x).2.length = ss.length := by
  induction bs generalizing ss x with
  | nil => cases ss <;> rfl
  | cons b bs ih =>
    cases ss with
    | nil => rfl
    | cons s ss => simp [CascadeStages.filterD, ih]

theorem reset_states [LawfulState S R] (ss : List (S R)) :
    CascadeStages.reset ss = List.replicate ss.length StateType.init := by
  unfold CascadeStages.reset
  induction ss with
  | nil => rfl
  | cons s ss ih => simp [ih, LawfulState.reset_eq, List.replicate_succ]

/-- Every call keeps the number of delay lines. -/
theorem exec_states_length (n : Nat) (op : Op T R) (f : PoleFilter S R) :
    (op.exec n f).2.states.length = f.states.length := by
  cases op with
  | setup c => rfl
  | filter x =>
    simp only [Op.exec, Exec.bind_def, PoleFilter.filter, Exec.zoom, CascadeStages.filter]
    rcases (Sample.ofR _ : Res T) with a | e | u <;> simp [filterD_length]
  | reset => simp [Op.exec, PoleFilter.reset, CascadeStages.reset]
  | scale k => rfl

theorem Spec.Reach.states_length {c : Cls} {n : Nat} {f : PoleFilter S R} (h : Reach S T c n f) :
    f.states.length = PoleFilter.numStages c n := by
  induction h with
  | new => simp [PoleFilter.init, CascadeStages.reset, CascadeStages.initStates]
  | call f f' op r _ _ he _ ih =>
    have := exec_states_length n op f
    rw [he] at this
    rw [this, ih]

/-- **C04**: after any history, `reset ()` gives exactly the object that has the present
coefficients and the delay lines of a newly constructed one. -/
theorem C04_reset_fresh [DelayLine R S] {c : Cls} {n : Nat} {f : PoleFilter S R}
    (h : Reach S T c n f) :
    PoleFilter.reset f = (.ok (), { f with states := (PoleFilter.init S c n).states }) := by
  simp [PoleFilter.reset, reset_states, h.states_length, PoleFilter.init, CascadeStages.initStates]

/-- **C04**, observed: after any history and a `reset ()`, any further inputs give bit for bit the
outputs of a newly constructed filter that was given the same coefficients. -/
theorem C04_reset_outputs [DelayLine R S] {c : Cls} {n : Nat} {f : PoleFilter S R}
    (h : Reach S T c n f) (xs : List T) :
    (feed PoleFilter.filter xs (PoleFilter.reset f).2).1 =
      (feed PoleFilter.filter xs { (PoleFilter.init S c n : PoleFilter S R) with base := f.base }).1 := by
  rw [C04_reset_fresh h]

/-- **C04**: a second `reset ()` changes nothing. -/
theorem C04_reset_idempotent [DelayLine R S] (f : PoleFilter S R) :
    PoleFilter.reset (PoleFilter.reset f).2 = PoleFilter.reset f := by
  simp [PoleFilter.reset, reset_states]

/-- **C04** for SOS cascades: `reset ()` restores the constructor's delay lines. -/
theorem C04_reset_sos [DelayLine R S] (f : Custom.SOS S R) :
    Custom.SOS.reset f =
      (.ok (), { f with states := (Custom.SOS.init S f.states.length : Custom.SOS S R).states }) := by
  simp [Custom.SOS.reset, reset_states, Custom.SOS.init, CascadeStages.initStates]

/-- **C04** for RBJ filters. -/
theorem C04_reset_rbj (f : RBJ.Filter R) :
    RBJ.Filter.reset f = (.ok (), { f with state := (RBJ.Filter.init : RBJ.Filter R).state }) := rfl

/-! ## C05: processing does not change the configuration -/

theorem Spec.SameConfig.of_base {f g : PoleFilter S R} (h : f.base = g.base) : SameConfig f g where
  numStages := by simp [PoleFilter.getNumStages, h]
  stage := by simp [PoleFilter.getStage, h]
  response := by simp [PoleFilter.response, h]
  poleZeros := by simp [PoleFilter.getPoleZeros, h]
  stages := by simp [h]

theorem processing_base (n : Nat) (op : Op T R) (hop : op.isProcessing) (f : PoleFilter S R) :
    (op.exec n f).2.base = f.base := by
  cases op with
  | setup c => exact hop.elim
  | filter x =>
    simp only [Op.exec, Exec.bind_def, PoleFilter.filter, Exec.zoom, CascadeStages.filter]
    rcases (Sample.ofR _ : Res T) with a | e | u <;> rfl
  | reset => rfl
  | scale k => exact hop.elim

/-- **C05**: no sequence of `filter`/`reset` calls changes coefficients, poles and zeros, number of
stages or response. -/
theorem C05_processing_keeps_config (n : Nat) (ops : List (Op T R))
    (hops : ∀ op ∈ ops, op.isProcessing) (f : PoleFilter S R) :
    SameConfig (execAll n ops f) f := by
  apply SameConfig.of_base
  induction ops generalizing f with
  | nil => rfl
  | cons op ops ih =>
    rw [execAll, ih (fun o ho => hops o (List.mem_cons_of_mem _ ho)),
      processing_base n op (hops op List.mem_cons_self)]

/-- **C05** for SOS cascades and RBJ filters: the coefficients stay. -/
theorem C05_sos_filter (x : T) (f : Custom.SOS S R) : (Custom.SOS.filter x f).2.stages = f.stages :=
  rfl
theorem C05_sos_reset (f : Custom.SOS S R) : (Custom.SOS.reset f).2.stages = f.stages := rfl
theorem C05_rbj_filter (x : T) (f : RBJ.Filter R) : (RBJ.Filter.filter x f).2.biquad = f.biquad :=
  rfl
theorem C05_rbj_reset (f : RBJ.Filter R) : (RBJ.Filter.reset f).2.biquad = f.biquad := rfl

/-! ## C06: `setup` does not touch the delay lines -/

/-- **C06**: whatever `setup` does, the delay lines are as before. -/
theorem C06_setup_keeps_states (n : Nat) (call : Call R) (f : PoleFilter S R) :
    (PoleFilter.setup n call f).2.states = f.states := rfl

/-- **C06**: the outcome of `setup` and the configuration it installs do not depend on the delay
lines: samples processed before do not influence it. -/
theorem C06_setup_ignores_states (n : Nat) (call : Call R) (f : PoleFilter S R) (ss : List (S R)) :
    PoleFilter.setup n call { f with states := ss } =
      ((PoleFilter.setup n call f).1, { (PoleFilter.setup n call f).2 with states := ss }) := rfl

/-- **C06**: `setup` then `reset` on an object that has processed samples equals `setup` on the
object before any sample was processed (`ops` = the samples and resets in between). -/
theorem C06_setup_reset [DelayLine R S] (n : Nat) (c : Cls) (call : Call R) (ops : List (Op T R))
    (hops : ∀ op ∈ ops, op.isProcessing) :
    (PoleFilter.reset (PoleFilter.setup n call (execAll n ops (PoleFilter.init S c n))).2).2 =
      (PoleFilter.setup n call (PoleFilter.init S c n)).2 := by
  have hb : (execAll n ops (PoleFilter.init S c n : PoleFilter S R)).base =
      (PoleFilter.init S c n : PoleFilter S R).base := by
    generalize (PoleFilter.init S c n : PoleFilter S R) = f
    induction ops generalizing f with
    | nil => rfl
    | cons op ops ih =>
      rw [execAll, ih (fun o ho => hops o (List.mem_cons_of_mem _ ho)),
        processing_base n op (hops op List.mem_cons_self)]
  have hl : (execAll n ops (PoleFilter.init S c n : PoleFilter S R)).states.length =
      PoleFilter.numStages c n := by
    have h0 : (PoleFilter.init S c n : PoleFilter S R).states.length = PoleFilter.numStages c n := by
      simp [PoleFilter.init, CascadeStages.reset, CascadeStages.initStates]
    rw [← h0]
    clear h0 hb
    generalize (PoleFilter.init S c n : PoleFilter S R) = f
    induction ops generalizing f with
    | nil => rfl
    | cons op ops ih =>
      rw [execAll, ih (fun o ho => hops o (List.mem_cons_of_mem _ ho)), exec_states_length]
  generalize hf : execAll n ops (PoleFilter.init S c n : PoleFilter S R) = f at hb hl
  have : f = { (PoleFilter.init S c n : PoleFilter S R) with states := f.states } := by
    simp only [← hb]
  rw [this, C06_setup_ignores_states]
  simp [PoleFilter.reset, reset_states, hl, PoleFilter.init, CascadeStages.initStates,
    PoleFilter.setup, Exec.zoom]

/-! ## C10: serial composition -/

/-- **C10**: a chain of sections is its first part feeding its second part, sample by sample. -/
theorem C10_serial (bs1 bs2 : List (Biquad R)) (ss1 ss2 : List (S R)) (h : bs1.length = ss1.length)
    (x : R) :
    CascadeStages.filterD (bs1 ++ bs2) (ss1 ++ ss2) x =
      let r1 := CascadeStages.filterD bs1 ss1 x
      let r2 := CascadeStages.filterD bs2 ss2 r1.1
      (r2.1, r1.2 ++ r2.2) := by
  induction bs1 generalizing ss1 x with
  | nil =>
    cases ss1 with
    | nil => simp [CascadeStages.filterD]
    | cons => simp at h
  | cons b bs1 ih =>
    cases ss1 with
    | nil => simp at h
    | cons s ss1 =>
      simp only [List.length_cons, Nat.add_right_cancel_iff] at h
      simp [CascadeStages.filterD, ih ss1 h]

/-- A chain of one section is that section. -/
theorem C10_single (b : Biquad R) (s : S R) (x : R) :
    CascadeStages.filterD [b] [s] x =
      ((b.filter x s).1, [(b.filter x s).2]) := rfl

/-- **C10**, over a whole signal: an SOS cascade built from `bs1 ++ bs2` returns what an SOS cascade
`bs2` returns when fed with the output of an SOS cascade `bs1`. -/
theorem C10_serial_signal (bs1 bs2 : List (Biquad R)) (ss1 ss2 : List (S R))
    (h : bs1.length = ss1.length) (xs : List R) :
    ∃ ys zs f1 f2,
      feed (Custom.SOS.filter (T := R)) xs ⟨bs1, ss1⟩ = (.ok ys, f1) ∧
      feed (Custom.SOS.filter (T := R)) ys ⟨bs2, ss2⟩ = (.ok zs, f2) ∧
      feed (Custom.SOS.filter (T := R)) xs ⟨bs1 ++ bs2, ss1 ++ ss2⟩ =
        (.ok zs, ⟨bs1 ++ bs2, f1.states ++ f2.states⟩) := by
  induction xs generalizing ss1 ss2 with
  | nil => exact ⟨[], [], ⟨bs1, ss1⟩, ⟨bs2, ss2⟩, rfl, rfl, rfl⟩
  | cons x xs ih =>
    have h' : bs1.length = (CascadeStages.filterD bs1 ss1 x).2.length := by
      rw [filterD_length, h]
    obtain ⟨ys, zs, f1, f2, e1, e2, e3⟩ :=
      ih (CascadeStages.filterD bs1 ss1 x).2
        (CascadeStages.filterD bs2 ss2 (CascadeStages.filterD bs1 ss1 x).1).2 h'
    refine ⟨(CascadeStages.filterD bs1 ss1 x).1 :: ys,
      (CascadeStages.filterD bs2 ss2 (CascadeStages.filterD bs1 ss1 x).1).1 :: zs, f1, f2, ?_, ?_, ?_⟩
    · simp [feed, Exec.bind_def, Custom.SOS.filter, Exec.zoom, CascadeStages.filter, Sample.toR,
        Sample.ofR, e1]
    · simp [feed, Exec.bind_def, Custom.SOS.filter, Exec.zoom, CascadeStages.filter, Sample.toR,
        Sample.ofR, e2]
    · simp [feed, Exec.bind_def, Custom.SOS.filter, Exec.zoom, CascadeStages.filter, Sample.toR,
        Sample.ofR, C10_serial bs1 bs2 ss1 ss2 h x, e3]

/-! ## C11: sample types -/

/-- **C11**: with any sample type the delay lines evolve as for the double value of the sample, and
the result is the cast of the double result. -/
theorem C11_cast_only (x : T) (f : PoleFilter S R) :
    (PoleFilter.filter x f).2 = (PoleFilter.filter (T := R) (Sample.toR x) f).2 ∧
    ∃ y : R, (PoleFilter.filter (T := R) (Sample.toR x) f).1 = .ok y ∧
      (PoleFilter.filter x f).1 = Sample.ofR y := ⟨rfl, _, rfl, rfl⟩

/-- **C11** for SOS cascades. -/
theorem C11_cast_only_sos (x : T) (f : Custom.SOS S R) :
    (Custom.SOS.filter x f).2 = (Custom.SOS.filter (T := R) (Sample.toR x) f).2 ∧
    ∃ y : R, (Custom.SOS.filter (T := R) (Sample.toR x) f).1 = .ok y ∧
      (Custom.SOS.filter x f).1 = Sample.ofR y := ⟨rfl, _, rfl, rfl⟩

/-- **C11** for RBJ filters. -/
theorem C11_cast_only_rbj (x : T) (f : RBJ.Filter R) :
    (RBJ.Filter.filter x f).2 = (RBJ.Filter.filter (T := R) (Sample.toR x) f).2 ∧
    ∃ y : R, (RBJ.Filter.filter (T := R) (Sample.toR x) f).1 = .ok y ∧
      (RBJ.Filter.filter x f).1 = Sample.ofR y := ⟨rfl, _, rfl, rfl⟩

/-! ## The hypotheses can be met -/

/-- C03: two inputs that agree on their first two samples only -/
example : ([1, 2, 3] : List Nat).take 2 = [1, 2, 4].take 2 ∧ ([1, 2, 3] : List Nat) ≠ [1, 2, 4] := by
  decide

/-- C05/C06: histories of processing calls exist, e.g. `filter; reset; filter` -/
example (x y : T) : ∀ op ∈ [Op.filter x, Op.reset, Op.filter (R := R) y], op.isProcessing := by
  simp [Op.isProcessing]

/-- C10: two sections then one -/
example (b : Biquad R) (s : DirectFormI R) : [b, b].length = [s, s].length := rfl

end Iir
