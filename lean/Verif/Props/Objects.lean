import Verif.Props.NaN
import Verif.Props.Sections

/-! # RBJ filters and SOS cascades

C01, C03, C06, C07, C09, C12, C15, C16, C27, C28 and C50 for the filter objects that are not pole
filters. -/

set_option linter.unusedSectionVars false

namespace Iir
open Spec FArith Exec

/-! ## Histories of SOS cascades -/

section any
variable {R : Type} [FArith R] {S : Type → Type} [StateType S R] {T : Type} [Sample T R]

/-- The objects `SOSCascade<n, S>` a program can obtain: by either constructor, and by `setup`,
`filter` and `reset` calls with any outcome except undefined behaviour.  The argument of `setup` is a
`double (&)[n][6]`. -/
inductive Spec.SosReach (S : Type → Type) [StateType S R] (T : Type) [Sample T R] (n : Nat) :
    Custom.SOS S R → Prop
  | new : SosReach S T n (Custom.SOS.init S n)
  | ofCoefficients (rows : List (CascadeStages.SosRow R)) (f : Custom.SOS S R) (hl : rows.length = n)
      (e : Custom.SOS.ofCoefficients rows = .ok f) : SosReach S T n f
  | setup (rows : List (CascadeStages.SosRow R)) (f f' : Custom.SOS S R) (r : Res Unit)
      (h : SosReach S T n f) (hl : rows.length = n) (e : Custom.SOS.setup rows f = (r, f'))
      (hub : ∀ u, r ≠ .ub u) : SosReach S T n f'
  | filter (x : T) (f f' : Custom.SOS S R) (r : Res T) (h : SosReach S T n f)
      (e : Custom.SOS.filter x f = (r, f')) (hub : ∀ u, r ≠ .ub u) : SosReach S T n f'
  | reset (f f' : Custom.SOS S R) (r : Res Unit) (h : SosReach S T n f)
      (e : Custom.SOS.reset f = (r, f')) : SosReach S T n f'

theorem CascadeStages.setup_length (rows : List (SosRow R)) (bs : List (Biquad R)) :
    (CascadeStages.setup rows bs).2.length = bs.length := by
  induction rows generalizing bs with
  | nil => rfl
  | cons r rows ih =>
    cases bs with
    | nil => rfl
    | cons b bs =>
      simp only [CascadeStages.setup]
      rcases Biquad.setCoefficients r.c3 r.c4 r.c5 r.c0 r.c1 r.c2 b with ⟨_ | _ | _, b'⟩ <;> simp [ih]

theorem Custom.SOS.setup_states (rows : List (CascadeStages.SosRow R)) (f : Custom.SOS S R) :
    (Custom.SOS.setup rows f).2.states = f.states := rfl

theorem Custom.SOS.setup_stages_length (rows : List (CascadeStages.SosRow R)) (f : Custom.SOS S R) :
    (Custom.SOS.setup rows f).2.stages.length = f.stages.length :=
  CascadeStages.setup_length rows f.stages

theorem Custom.SOS.filter_stages (x : T) (f : Custom.SOS S R) :
    (Custom.SOS.filter x f).2.stages = f.stages := rfl

theorem Custom.SOS.filter_states_length (x : T) (f : Custom.SOS S R) :
    (Custom.SOS.filter x f).2.states.length = f.states.length := filterD_length _ _ _

/-- Every reachable SOS cascade has `n` sections and `n` delay lines. -/
theorem Spec.SosReach.wired {n : Nat} {f : Custom.SOS S R} (h : SosReach S T n f) :
    f.stages.length = n ∧ f.states.length = n := by
  induction h with
  | new => simp [Custom.SOS.init, CascadeStages.initStages, CascadeStages.initStates]
  | ofCoefficients rows f hl e =>
    have h1 := Custom.SOS.setup_stages_length rows (Custom.SOS.init S rows.length : Custom.SOS S R)
    have h2 := Custom.SOS.setup_states rows (Custom.SOS.init S rows.length : Custom.SOS S R)
    unfold Custom.SOS.ofCoefficients at e
    rcases hs : Custom.SOS.setup rows (Custom.SOS.init S rows.length : Custom.SOS S R) with ⟨_ | _ | _, g⟩ <;>
      rw [hs] at e h1 h2 <;> simp only [Res.ok.injEq, reduceCtorEq] at e
    subst e
    simp only at h1 h2
    rw [h1, h2, ← hl]
    simp [Custom.SOS.init, CascadeStages.initStages, CascadeStages.initStates]
  | setup rows f f' r h hl e hub ih =>
    have h1 := Custom.SOS.setup_stages_length rows f
    have h2 := Custom.SOS.setup_states rows f
    rw [e] at h1 h2
    exact ⟨h1.trans ih.1, (congrArg _ h2).trans ih.2⟩
  | filter x f f' r h e hub ih =>
    have h1 := Custom.SOS.filter_stages x f
    have h2 := Custom.SOS.filter_states_length x f
    rw [e] at h1 h2
    exact ⟨(congrArg _ h1).trans ih.1, h2.trans ih.2⟩
  | reset f f' r h e ih =>
    have : f' = (Custom.SOS.reset f).2 := by rw [e]
    subst this
    exact ⟨ih.1, by simpa [Custom.SOS.reset, CascadeStages.reset] using ih.2⟩

/-! ## C16 -/

theorem CascadeStages.setup_not_ub (rows : List (SosRow R)) (bs : List (Biquad R))
    (h : rows.length ≤ bs.length) (u : UB) : (CascadeStages.setup rows bs).1 ≠ .ub u := by
  induction rows generalizing bs with
  | nil => simp [CascadeStages.setup]
  | cons r rows ih =>
    cases bs with
    | nil => simp at h
    | cons b bs =>
      simp only [CascadeStages.setup, Biquad.stores_setCoefficients _ _ _ _ _ _ _, Biquad.coeffsR]
      split_ifs
      · simp
      · exact ih bs (by simpa using h)

/-- **C16** for SOS cascades: after any history, `setup` with an `n` row matrix has no undefined
behaviour. -/
theorem C16_sos_setup {n : Nat} {f : Custom.SOS S R} (h : SosReach S T n f)
    (rows : List (CascadeStages.SosRow R)) (hl : rows.length = n) (u : UB) :
    (Custom.SOS.setup rows f).1 ≠ .ub u :=
  CascadeStages.setup_not_ub rows f.stages (by rw [hl, h.wired.1]) u

/-- **C16** for SOS cascades: the loop of `filter` runs over the two arrays to the end, never past
the end of one of them. -/
theorem C16_sos_filter {n : Nat} {f : Custom.SOS S R} (h : SosReach S T n f) :
    f.stages.length = n ∧ f.states.length = n := h.wired

/-! ## C03 -/

/-- A `filter` member that always returns. -/
def Returning {σ : Type} (flt : R → Exec σ R) : Prop := ∀ x f, ∃ y f', flt x f = (.ok y, f')

theorem feed_returning {σ : Type} {flt : R → Exec σ R} (hf : Returning flt) (xs : List R) (f : σ) :
    ∃ ys f', feed flt xs f = (.ok ys, f') ∧ ys.length = xs.length := by
  induction xs generalizing f with
  | nil => exact ⟨[], f, rfl, rfl⟩
  | cons x xs ih =>
    obtain ⟨y, f1, h1⟩ := hf x f
    obtain ⟨ys, f2, h2, h3⟩ := ih f1
    exact ⟨y :: ys, f2, by simp [feed, Exec.bind_def, h1, h2], by simp [h3]⟩

theorem causal_of_returning {σ : Type} {flt : R → Exec σ R} (hf : Returning flt) (xs ys : List R)
    (n : Nat) (h : xs.take n = ys.take n) (f : σ) :
    ∃ us vs f1 f2, feed flt xs f = (.ok us, f1) ∧ feed flt ys f = (.ok vs, f2) ∧
      us.length = xs.length ∧ vs.length = ys.length ∧ us.take n = vs.take n := by
  induction xs generalizing ys n f with
  | nil =>
    obtain ⟨vs, f2, h2, h3⟩ := feed_returning hf ys f
    refine ⟨[], vs, f, f2, rfl, h2, rfl, h3, ?_⟩
    cases n with
    | zero => simp
    | succ n =>
      cases ys with
      | nil => cases vs with
        | nil => rfl
        | cons => simp at h3
      | cons => simp at h
  | cons x xs ih =>
    cases n with
    | zero =>
      obtain ⟨us, f1, h1, h1'⟩ := feed_returning hf (x :: xs) f
      obtain ⟨vs, f2, h2, h2'⟩ := feed_returning hf ys f
      exact ⟨us, vs, f1, f2, h1, h2, h1', h2', by simp⟩
    | succ n =>
      cases ys with
      | nil => simp at h
      | cons y ys =>
        simp only [List.take_succ_cons, List.cons.injEq] at h
        obtain ⟨rfl, h⟩ := h
        obtain ⟨o, g, hg⟩ := hf x f
        obtain ⟨us, vs, f1, f2, h1, h2, h3, h4, h5⟩ := ih ys n h g
        refine ⟨o :: us, o :: vs, f1, f2, ?_, ?_, by simp [h3], by simp [h4], by simp [h5]⟩
        · simp [feed, Exec.bind_def, hg, h1]
        · simp [feed, Exec.bind_def, hg, h2]

theorem Custom.SOS.returning : Returning (Custom.SOS.filter (S := S) (R := R) (T := R)) :=
  fun _ _ => ⟨_, _, rfl⟩

theorem RBJ.Filter.returning : Returning (RBJ.Filter.filter (R := R) (T := R)) :=
  fun _ _ => ⟨_, _, rfl⟩

/-- **C03** (causality, SOS cascades): one output per input, and if two inputs agree on their first
`n` samples so do the outputs. -/
theorem C03_causal_sos (xs ys : List R) (n : Nat) (h : xs.take n = ys.take n) (f : Custom.SOS S R) :
    ∃ us vs f1 f2, feed (Custom.SOS.filter (T := R)) xs f = (.ok us, f1) ∧
      feed (Custom.SOS.filter (T := R)) ys f = (.ok vs, f2) ∧
      us.length = xs.length ∧ vs.length = ys.length ∧ us.take n = vs.take n :=
  causal_of_returning Custom.SOS.returning xs ys n h f

/-- **C03** (causality, RBJ filters). -/
theorem C03_causal_rbj (xs ys : List R) (n : Nat) (h : xs.take n = ys.take n) (f : RBJ.Filter R) :
    ∃ us vs f1 f2, feed (RBJ.Filter.filter (T := R)) xs f = (.ok us, f1) ∧
      feed (RBJ.Filter.filter (T := R)) ys f = (.ok vs, f2) ∧
      us.length = xs.length ∧ vs.length = ys.length ∧ us.take n = vs.take n :=
  causal_of_returning RBJ.Filter.returning xs ys n h f

/-! ## RBJ setup stores one value, or throws without effect -/

theorem RBJ.Design.stores (d : RBJ.Design R) : ∃ r, Biquad.Stores d.setupN r ∧ ∀ u, r ≠ .ub u := by
  have hs : ∀ a0 a1 a2 b0 b1 b2 : R, ∃ r, Biquad.Stores (Biquad.setCoefficients a0 a1 a2 b0 b1 b2) r ∧
      ∀ u, r ≠ .ub u := by
    intro a0 a1 a2 b0 b1 b2
    refine ⟨_, Biquad.stores_setCoefficients _ _ _ _ _ _, fun u => ?_⟩
    unfold Biquad.coeffsR
    split_ifs <;> simp
  cases d with
  | bandShelf fc g bw =>
    unfold RBJ.Design.setupN RBJ.bandShelf
    generalize hAL : sin (2 * pi * fc) * sinh (ln2 / 2 * bw * (2 * pi * fc) / sin (2 * pi * fc)) = AL
    simp only [hAL]
    cases hn : FArith.isNan AL with
    | true => exact ⟨.throw .noSolution, fun b => by simp [Exec.bind_def], by simp⟩
    | false =>
      obtain ⟨r, h1, h2⟩ := hs (1 + AL / pow 10 (g / 40)) (-2 * cos (2 * pi * fc)) (1 - AL / pow 10 (g / 40))
        (1 + AL * pow 10 (g / 40)) (-2 * cos (2 * pi * fc)) (1 - AL * pow 10 (g / 40))
      exact ⟨r, fun b => by simpa [Exec.bind_def] using h1 b, h2⟩
  | _ => exact hs _ _ _ _ _ _

/-! ## C06 -/

/-- **C06** for RBJ filters: `setupN` and `setup` leave the delay line as it was, whatever the
arguments and the outcome. -/
theorem C06_rbj_keeps_state (fs : R) (d : RBJ.Design R) (f : RBJ.Filter R) :
    (RBJ.Filter.setupN d f).2.state = f.state ∧ (RBJ.Filter.setup fs d f).2.state = f.state :=
  ⟨rfl, rfl⟩

/-- **C06** for RBJ filters: neither outcome nor coefficients depend on the delay line. -/
theorem C06_rbj_ignores_state (fs : R) (d : RBJ.Design R) (f : RBJ.Filter R) (s : DirectFormI R) :
    RBJ.Filter.setupN d { f with state := s } =
      ((RBJ.Filter.setupN d f).1, { (RBJ.Filter.setupN d f).2 with state := s }) ∧
    RBJ.Filter.setup fs d { f with state := s } =
      ((RBJ.Filter.setup fs d f).1, { (RBJ.Filter.setup fs d f).2 with state := s }) :=
  ⟨rfl, rfl⟩

theorem RBJ.Filter.feed_biquad (xs : List T) (f : RBJ.Filter R) :
    (feed (RBJ.Filter.filter (T := T)) xs f).2.biquad = f.biquad := by
  induction xs generalizing f with
  | nil => rfl
  | cons x xs ih =>
    have h1 : (RBJ.Filter.filter x f).2.biquad = f.biquad := rfl
    simp only [feed, Exec.bind_def]
    revert h1
    rcases RBJ.Filter.filter x f with ⟨_ | _ | _, f1⟩ <;> intro h1 <;> try exact h1
    have h2 := ih f1
    revert h2
    simp only
    rcases feed (RBJ.Filter.filter (T := T)) xs f1 with ⟨_ | _ | _, f2⟩ <;> intro h2 <;> exact h2.trans h1

/-- **C06** for RBJ filters: `setupN` and `reset` after processing any samples equals `setupN` on an
object that never processed one. -/
theorem C06_rbj_setup_then_reset (d : RBJ.Design R) (xs : List T) :
    (RBJ.Filter.reset (RBJ.Filter.setupN d (feed (RBJ.Filter.filter (T := T)) xs RBJ.Filter.init).2).2).2 =
      (RBJ.Filter.setupN d RBJ.Filter.init).2 := by
  have h := RBJ.Filter.feed_biquad (R := R) xs RBJ.Filter.init
  generalize (feed (RBJ.Filter.filter (T := T)) xs (RBJ.Filter.init : RBJ.Filter R)).2 = g at h
  obtain ⟨b, s⟩ := g
  simp only at h
  subst h
  rfl

/-- **C06** for SOS cascades: `setup` leaves the delay lines as they were. -/
theorem C06_sos_keeps_states (rows : List (CascadeStages.SosRow R)) (f : Custom.SOS S R) :
    (Custom.SOS.setup rows f).2.states = f.states := rfl

/-- **C06** for SOS cascades: neither outcome nor coefficients depend on the delay lines. -/
theorem C06_sos_ignores_states (rows : List (CascadeStages.SosRow R)) (f : Custom.SOS S R)
    (ss : List (S R)) :
    Custom.SOS.setup rows { f with states := ss } =
      ((Custom.SOS.setup rows f).1, { (Custom.SOS.setup rows f).2 with states := ss }) := rfl

theorem Custom.SOS.feed_keeps (xs : List T) (f : Custom.SOS S R) :
    (feed (Custom.SOS.filter (T := T)) xs f).2.stages = f.stages ∧
      (feed (Custom.SOS.filter (T := T)) xs f).2.states.length = f.states.length := by
  induction xs generalizing f with
  | nil => exact ⟨rfl, rfl⟩
  | cons x xs ih =>
    have h1 := Custom.SOS.filter_stages x f
    have h2 := Custom.SOS.filter_states_length x f
    simp only [feed, Exec.bind_def]
    revert h1 h2
    rcases Custom.SOS.filter x f with ⟨_ | _ | _, f1⟩ <;> intro h1 h2 <;> try exact ⟨h1, h2⟩
    obtain ⟨h3, h4⟩ := ih f1
    revert h3 h4
    simp only
    rcases feed (Custom.SOS.filter (T := T)) xs f1 with ⟨_ | _ | _, f2⟩ <;> intro h3 h4 <;>
      exact ⟨h3.trans h1, h4.trans h2⟩

/-- **C06** for SOS cascades: `setup` and `reset` after processing any samples equals `setup` on an
object that never processed one. -/
theorem C06_sos_setup_then_reset [DelayLine R S] (n : Nat) (rows : List (CascadeStages.SosRow R))
    (xs : List T) :
    (Custom.SOS.reset (Custom.SOS.setup rows
        (feed (Custom.SOS.filter (T := T)) xs (Custom.SOS.init S n : Custom.SOS S R)).2).2).2 =
      (Custom.SOS.setup rows (Custom.SOS.init S n)).2 := by
  obtain ⟨h1, h2⟩ := Custom.SOS.feed_keeps xs (Custom.SOS.init S n : Custom.SOS S R)
  generalize (feed (Custom.SOS.filter (T := T)) xs (Custom.SOS.init S n : Custom.SOS S R)).2 = g at h1 h2
  obtain ⟨b, s⟩ := g
  simp only at h1 h2
  subst h1
  show Custom.SOS.mk _ (CascadeStages.reset s) = Custom.SOS.mk _ (CascadeStages.initStates S n)
  rw [reset_states, h2]
  simp [Custom.SOS.init, CascadeStages.initStates, Custom.SOS.setup, Exec.zoom]

/-! ## C12, C15, C50 -/

theorem RBJ.Filter.setupN_eq (d : RBJ.Design R) : ∃ r : Res (Biquad R), (∀ u, r ≠ .ub u) ∧ ∀ f : RBJ.Filter R,
    RBJ.Filter.setupN d f = match r with
      | .ok b => (.ok (), { f with biquad := b })
      | .throw e => (.throw e, f)
      | .ub u => (.ub u, f) := by
  obtain ⟨r, h1, h2⟩ := RBJ.Design.stores d
  refine ⟨r, h2, fun f => ?_⟩
  have := h1 f.biquad
  unfold RBJ.Filter.setupN Exec.zoom
  cases r <;> simp only at this ⊢ <;> rw [this]

/-- **C12** for RBJ filters: outcome and coefficients of `setupN` are the same on every object. -/
theorem C12_rbj (d : RBJ.Design R) (f g : RBJ.Filter R) :
    (RBJ.Filter.setupN d f).1 = (RBJ.Filter.setupN d g).1 ∧
    ((RBJ.Filter.setupN d f).1 = .ok () →
      (RBJ.Filter.setupN d f).2.biquad = (RBJ.Filter.setupN d g).2.biquad) := by
  obtain ⟨r, _, h⟩ := RBJ.Filter.setupN_eq d
  rw [h f, h g]
  cases r <;> simp

/-- **C12** for RBJ filters: a `setupN` that throws changes nothing, and there is no undefined
behaviour. -/
theorem C12_rbj_throw (d : RBJ.Design R) (f : RBJ.Filter R) :
    (∃ b, RBJ.Filter.setupN d f = (.ok (), { f with biquad := b })) ∨
      ∃ e, RBJ.Filter.setupN d f = (.throw e, f) := by
  obtain ⟨r, hub, h⟩ := RBJ.Filter.setupN_eq d
  rw [h f]
  cases r with
  | ok b => exact .inl ⟨b, rfl⟩
  | throw e => exact .inr ⟨e, rfl⟩
  | ub u => exact (hub u rfl).elim

/-- **C15** for RBJ filters: what is rejected is rejected again, on this and on every other object,
whatever was done in between. -/
theorem C15_rbj {d : RBJ.Design R} {f f' : RBJ.Filter R} {e : Err}
    (h : RBJ.Filter.setupN d f = (.throw e, f')) (g : RBJ.Filter R) :
    RBJ.Filter.setupN d g = (.throw e, g) := by
  obtain ⟨r, _, hr⟩ := RBJ.Filter.setupN_eq d
  rw [hr f] at h
  rw [hr g]
  cases r <;> simp_all

/-- **C50** for RBJ filters: repeating a successful `setupN` changes nothing. -/
theorem C50_rbj {d : RBJ.Design R} {f f' : RBJ.Filter R} (h : RBJ.Filter.setupN d f = (.ok (), f')) :
    RBJ.Filter.setupN d f' = (.ok (), f') := by
  obtain ⟨r, _, hr⟩ := RBJ.Filter.setupN_eq d
  rw [hr f] at h
  rw [hr f']
  cases r <;> simp_all
  obtain rfl := h
  rfl

theorem CascadeStages.setup_fst (rows : List (SosRow R)) (bs bs' : List (Biquad R))
    (h : bs.length = bs'.length) : (CascadeStages.setup rows bs).1 = (CascadeStages.setup rows bs').1 := by
  induction rows generalizing bs bs' with
  | nil => rfl
  | cons r rows ih =>
    cases bs with
    | nil => cases bs' with
      | nil => rfl
      | cons => simp at h
    | cons b bs => cases bs' with
      | nil => simp at h
      | cons b' bs' =>
        simp only [CascadeStages.setup, Biquad.stores_setCoefficients _ _ _ _ _ _ _]
        rcases Biquad.coeffsR r.c3 r.c4 r.c5 r.c0 r.c1 r.c2 with _ | _ | _ <;> simp only
        exact ih bs bs' (by simpa using h)

theorem CascadeStages.setup_snd (rows : List (SosRow R)) (bs bs' : List (Biquad R))
    (h : bs.length = rows.length) (h' : bs'.length = rows.length)
    (hok : (CascadeStages.setup rows bs).1 = .ok ()) :
    (CascadeStages.setup rows bs).2 = (CascadeStages.setup rows bs').2 := by
  induction rows generalizing bs bs' with
  | nil =>
    cases bs with
    | nil => cases bs' with
      | nil => rfl
      | cons => simp at h'
    | cons => simp at h
  | cons r rows ih =>
    cases bs with
    | nil => simp at h
    | cons b bs => cases bs' with
      | nil => simp at h'
      | cons b' bs' =>
        revert hok
        simp only [CascadeStages.setup, Biquad.stores_setCoefficients _ _ _ _ _ _ _]
        rcases Biquad.coeffsR r.c3 r.c4 r.c5 r.c0 r.c1 r.c2 with _ | _ | _ <;> intro hok <;> simp only at hok ⊢
        · rw [ih bs bs' (by simpa using h) (by simpa using h') hok]
        · cases hok
        · cases hok

/-- **C12** for SOS cascades: after any two histories, outcome and (if it succeeds) coefficients of
`setup` are the same. -/
theorem C12_sos {n : Nat} {f g : Custom.SOS S R} (hf : SosReach S T n f) (hg : SosReach S T n g)
    (rows : List (CascadeStages.SosRow R)) (hl : rows.length = n) :
    (Custom.SOS.setup rows f).1 = (Custom.SOS.setup rows g).1 ∧
    ((Custom.SOS.setup rows f).1 = .ok () →
      (Custom.SOS.setup rows f).2.stages = (Custom.SOS.setup rows g).2.stages) :=
  ⟨CascadeStages.setup_fst rows _ _ (hf.wired.1.trans hg.wired.1.symm),
   CascadeStages.setup_snd rows _ _ (hf.wired.1.trans hl.symm) (hg.wired.1.trans hl.symm)⟩

/-- **C15** for SOS cascades: what is rejected is rejected again with the same message. -/
theorem C15_sos {n : Nat} {f : Custom.SOS S R} (hf : SosReach S T n f)
    {rows : List (CascadeStages.SosRow R)} (hl : rows.length = n) {e : Err}
    (h : (Custom.SOS.setup rows f).1 = .throw e) {g : Custom.SOS S R} (hg : SosReach S T n g) :
    (Custom.SOS.setup rows g).1 = .throw e := by
  rw [← h]; exact (C12_sos hg hf rows hl).1

/-- **C50** for SOS cascades: repeating a successful `setup` changes nothing. -/
theorem C50_sos {n : Nat} {f f' : Custom.SOS S R} (hf : SosReach S T n f)
    {rows : List (CascadeStages.SosRow R)} (hl : rows.length = n)
    (h : Custom.SOS.setup rows f = (.ok (), f')) : Custom.SOS.setup rows f' = (.ok (), f') := by
  have hf' : SosReach S T n f' := .setup rows f f' _ hf hl h (by simp)
  have := C12_sos (T := T) hf hf' rows hl
  rw [h] at this
  obtain ⟨h1, h2⟩ := this
  have h3 := h2 rfl
  simp only at h1 h3
  have h4 : (Custom.SOS.setup rows f').2.states = f'.states := rfl
  rcases hs : Custom.SOS.setup rows f' with ⟨r, g⟩
  rw [hs] at h1 h3 h4
  cases f'; cases g
  simp_all

/-! ## C09 -/

theorem Custom.SOS.feed_poisoned [NanSticky S R] (ys : List R) (f : Custom.SOS S R)
    (h : PoisonedChain f.stages f.states) :
    ∃ vs f', feed (Custom.SOS.filter (T := R)) ys f = (.ok vs, f') ∧ ∀ v ∈ vs, isNan v = true := by
  induction ys generalizing f with
  | nil => exact ⟨[], f, rfl, by simp⟩
  | cons y ys ih =>
    obtain ⟨h1, h2⟩ := filterD_stay _ _ h y
    obtain ⟨vs, f', h3, h4⟩ := ih { f with states := (CascadeStages.filterD f.stages f.states y).2 } h2
    refine ⟨(CascadeStages.filterD f.stages f.states y).1 :: vs, f', ?_, ?_⟩
    · simp [feed, Exec.bind_def, Custom.SOS.filter, Exec.zoom, CascadeStages.filter, Sample.toR,
        Sample.ofR, h3]
    · simpa [h1] using h4

/-- **C09** for SOS cascades with at least one section, after any history. -/
theorem C09_poisoned_sos [NanPropagates R] [DelayLine R S] {n : Nat} (hn : 1 ≤ n)
    {f : Custom.SOS S R} (h : SosReach S T n f) (xs ys : List R) (x : R) (hx : isNan x = true) :
    ∃ us vs f', feed (Custom.SOS.filter (T := R)) (xs ++ x :: ys) f = (.ok (us ++ vs), f') ∧
      us.length = xs.length ∧ vs.length = ys.length + 1 ∧ ∀ v ∈ vs, isNan v = true := by
  obtain ⟨us, f1, h1, hus⟩ := feed_returning Custom.SOS.returning xs f
  obtain ⟨hb, hs⟩ := Custom.SOS.feed_keeps xs f
  rw [h1] at hb hs
  simp only at hb hs
  have hl1 : f1.stages.length = n := by rw [hb, h.wired.1]
  have hl2 : f1.states.length = n := by rw [hs, h.wired.2]
  obtain ⟨e1, e2⟩ := filterD_enter f1.stages f1.states (by rw [hl1, hl2]) x hx
  obtain ⟨vs, f2, h2, hvs⟩ := Custom.SOS.feed_poisoned ys
    { f1 with states := (CascadeStages.filterD f1.stages f1.states x).2 }
    ⟨by rw [← List.length_pos_iff]; simp only [hl1]; omega, by rw [filterD_length, hl1, hl2], e2⟩
  have h3 : feed (Custom.SOS.filter (T := R)) (x :: ys) f1 =
      (.ok ((CascadeStages.filterD f1.stages f1.states x).1 :: vs), f2) := by
    simp [feed, Exec.bind_def, Custom.SOS.filter, Exec.zoom, CascadeStages.filter, Sample.toR,
      Sample.ofR, h2]
  refine ⟨us, (CascadeStages.filterD f1.stages f1.states x).1 :: vs, f2, ?_, hus, ?_, ?_⟩
  · rw [feed_append]; simp [Exec.bind_def, h1, h3]
  · obtain ⟨ws, f3, h4, h5⟩ := feed_returning Custom.SOS.returning (x :: ys) f1
    rw [h3] at h4
    simp only [Prod.mk.injEq, Res.ok.injEq] at h4
    rw [h4.1, h5]; rfl
  · simpa [e1] using hvs

/-- **C09** for SOS cascades: `reset ()` restores normal operation. -/
theorem C09_reset_sos [DelayLine R S] (f : Custom.SOS S R) (xs zs : List R) :
    (feed (Custom.SOS.filter (T := R)) zs
        (Custom.SOS.reset (feed (Custom.SOS.filter (T := R)) xs f).2).2).1 =
      (feed (Custom.SOS.filter (T := R)) zs (Custom.SOS.reset f).2).1 := by
  obtain ⟨hb, hs⟩ := Custom.SOS.feed_keeps xs f
  have : (Custom.SOS.reset (feed (Custom.SOS.filter (T := R)) xs f).2).2 = (Custom.SOS.reset f).2 := by
    generalize (feed (Custom.SOS.filter (T := R)) xs f).2 = g at hb hs
    cases g; cases f
    simp only at hb hs
    simp [Custom.SOS.reset, reset_states, hb, hs]
  rw [this]

/-- **C09** for RBJ filters: `reset ()` restores normal operation. -/
theorem C09_reset_rbj (f : RBJ.Filter R) (xs zs : List R) :
    (feed (RBJ.Filter.filter (T := R)) zs
        (RBJ.Filter.reset (feed (RBJ.Filter.filter (T := R)) xs f).2).2).1 =
      (feed (RBJ.Filter.filter (T := R)) zs (RBJ.Filter.reset f).2).1 := by
  have hb := RBJ.Filter.feed_biquad xs f
  have : (RBJ.Filter.reset (feed (RBJ.Filter.filter (T := R)) xs f).2).2 = (RBJ.Filter.reset f).2 := by
    generalize (feed (RBJ.Filter.filter (T := R)) xs f).2 = g at hb
    cases g; cases f
    simp only at hb
    subst hb; rfl
  rw [this]

end any

/-! ## Exact arithmetic: C01, C07, C27, C28 -/

open XR Filter Topology Cx
variable {S : Type → Type} [StateType S XR] [DelayLine XR S] {T : Type} [Sample T XR]

/-- **C01** for SOS cascades after any history and a `reset ()`. -/
theorem C01_sos {n : Nat} {f : Custom.SOS S XR} (h : SosReach S T n f) {ks : List Coeffs}
    (hks : HasSections f.stages ks) (x y : ℕ → ℝ) :
    Produces (Custom.SOS.filter (T := XR)) (Custom.SOS.reset f).2 x y ↔ DiffChain ks x y := by
  have hp := Custom.SOS.produces (f := (Custom.SOS.reset f).2) (hasSections_iff.1 hks).1
    (Custom.SOS.sims_reset (by rw [h.wired.2, ← h.wired.1, hks.length, List.length_map])) x
  rw [List.length_map] at hp
  constructor
  · intro h
    rw [h.unique hp]; exact chain_diffChain ks x
  · intro h
    rw [h.unique (chain_diffChain ks x)]; exact hp

/-- chains of difference equations are linear -/
theorem Spec.DiffChain.linear {ks : List Coeffs} {x x' y y' : ℕ → ℝ} (α β : ℝ) (h : DiffChain ks x y)
    (h' : DiffChain ks x' y') :
    DiffChain ks (fun n => α * x n + β * x' n) (fun n => α * y n + β * y' n) := by
  have e := chain_diffChain ks (fun n => α * x n + β * x' n)
  have hl : ks.length = (ks.map Coeffs.norm).length := by simp
  rw [hl, Ser.chain_linear, ← hl] at e
  rwa [h.unique (chain_diffChain ks x), h'.unique (chain_diffChain ks x')]

/-- chains of difference equations are time invariant -/
theorem Spec.DiffChain.delay {ks : List Coeffs} {x y : ℕ → ℝ} (k : ℕ) (h : DiffChain ks x y) :
    DiffChain ks (delayed k x) (delayed k y) := by
  have e := chain_diffChain ks (delayed k x)
  have hl : ks.length = (ks.map Coeffs.norm).length := by simp
  rw [hl, Ser.chain_shift, ← hl] at e
  rwa [h.unique (chain_diffChain ks x)]

/-- **C07** for SOS cascades: linear, time invariant and total. -/
theorem C07_sos {n : Nat} {f : Custom.SOS S XR} (h : SosReach S T n f) {ks : List Coeffs}
    (hks : HasSections f.stages ks) :
    (∀ x, ∃ y, Produces (Custom.SOS.filter (T := XR)) (Custom.SOS.reset f).2 x y) ∧
    (∀ (x x' y y' : ℕ → ℝ) (α β : ℝ), Produces (Custom.SOS.filter (T := XR)) (Custom.SOS.reset f).2 x y →
      Produces (Custom.SOS.filter (T := XR)) (Custom.SOS.reset f).2 x' y' →
      Produces (Custom.SOS.filter (T := XR)) (Custom.SOS.reset f).2 (fun n => α * x n + β * x' n)
        (fun n => α * y n + β * y' n)) ∧
    (∀ (x y : ℕ → ℝ) (k : ℕ), Produces (Custom.SOS.filter (T := XR)) (Custom.SOS.reset f).2 x y →
      Produces (Custom.SOS.filter (T := XR)) (Custom.SOS.reset f).2 (delayed k x) (delayed k y)) := by
  simp only [C01_sos h hks]
  exact ⟨fun x => ⟨_, chain_diffChain ks x⟩, fun _ _ _ _ α β h1 h2 => h1.linear α β h2,
    fun _ _ k h1 => h1.delay k⟩

theorem diffChain_one {k : Coeffs} {x y : ℕ → ℝ} : DiffChain [k] x y ↔ k.DiffEq x y := by
  constructor
  · intro h
    cases h with
    | cons h1 h2 => cases h2; exact h1
  · intro h; exact .cons h (.nil _)

/-- **C07** for RBJ filters: linear, time invariant and total. -/
theorem C07_rbj {f : RBJ.Filter XR} {k : Coeffs} (hk : HasCoeffs f.biquad k) :
    (∀ x, ∃ y, Produces (RBJ.Filter.filter (T := XR)) (RBJ.Filter.reset f).2 x y) ∧
    (∀ (x x' y y' : ℕ → ℝ) (α β : ℝ), Produces (RBJ.Filter.filter (T := XR)) (RBJ.Filter.reset f).2 x y →
      Produces (RBJ.Filter.filter (T := XR)) (RBJ.Filter.reset f).2 x' y' →
      Produces (RBJ.Filter.filter (T := XR)) (RBJ.Filter.reset f).2 (fun n => α * x n + β * x' n)
        (fun n => α * y n + β * y' n)) ∧
    (∀ (x y : ℕ → ℝ) (j : ℕ), Produces (RBJ.Filter.filter (T := XR)) (RBJ.Filter.reset f).2 x y →
      Produces (RBJ.Filter.filter (T := XR)) (RBJ.Filter.reset f).2 (delayed j x) (delayed j y)) := by
  simp only [C01_rbj hk, ← diffChain_one]
  exact ⟨fun x => ⟨_, chain_diffChain [k] x⟩, fun _ _ _ _ α β h1 h2 => h1.linear α β h2,
    fun _ _ k h1 => h1.delay k⟩

/-- **C28** for RBJ filters, from any finite delay line. -/
theorem C28_rbj {f : RBJ.Filter XR} {k : Coeffs} (hk : HasCoeffs f.biquad k) (hst : k.Stable)
    (hs : ExactState.Finite f.state) (x : ℕ → ℝ) :
    ∃ y, Produces (RBJ.Filter.filter (T := XR)) f x y ∧
      ((∃ M, ∀ n, |x n| ≤ M) → ∃ B, ∀ n, |y n| ≤ B) ∧
      (Tendsto x atTop (𝓝 0) → Tendsto y atTop (𝓝 0)) := by
  obtain ⟨hb, hne⟩ := hasCoeffs_iff.1 hk
  obtain ⟨c, hc⟩ := ExactState.sim_of_finite k.norm f.state hs
  have h := (Coeffs.stable_norm hne).2 hst
  exact ⟨_, RBJ.Filter.produces hb hc x, fun ⟨M, hM⟩ => sec_bounded h c hM, sec_tendsto h c⟩

/-- **C27** for RBJ filters: the output settles to what `response ()` says. -/
theorem C27_rbj {f : RBJ.Filter XR} {k : Coeffs} (hk : HasCoeffs f.biquad k) (hst : k.Stable)
    (hs : ExactState.Finite f.state) (fr A φ : ℝ) :
    ∃ H y, f.biquad.response (fin fr) = .ok (ofC H) ∧
      Produces (RBJ.Filter.filter (T := XR)) f (fun n => A * Real.cos (2 * Real.pi * fr * n + φ)) y ∧
      Settles H fr A φ y := by
  obtain ⟨hb, hne⟩ := hasCoeffs_iff.1 hk
  obtain ⟨c, hc⟩ := ExactState.sim_of_finite k.norm f.state hs
  have h := (Coeffs.stable_norm hne).2 hst
  have hresp := response_toX (b := k.norm) hne fr
  rw [← hb] at hresp
  have hden : k.norm.denQ (circle fr)⁻¹ ≠ 0 := den_ne_zero_of_stable h (norm_circle fr)
  rw [Cx.cdiv_ofC _ hden, ← secH_eq] at hresp
  refine ⟨_, _, hresp, RBJ.Filter.produces hb hc _, settles_of ?_⟩
  exact sec_steady h c (norm_circle fr) (K := A * Complex.exp (φ * Complex.I))
    (x := fun n => A * Real.cos (2 * Real.pi * fr * n + φ)) (by
      refine tendsto_const_nhds.congr fun n => ?_
      rw [cos_eq_re, sub_self])

/-- **C27** for SOS cascades, which have no `response ()`: the output settles to the product of the
transfer functions of the sections. -/
theorem C27_sos {n : Nat} {f : Custom.SOS S XR} (h : SosReach S T n f) {ks : List Coeffs}
    (hks : HasSections f.stages ks) (hst : ∀ k ∈ ks, k.Stable) (hfin : FiniteStates f.states)
    (fr A φ : ℝ) :
    ∃ y, Produces (Custom.SOS.filter (T := XR)) f (fun n => A * Real.cos (2 * Real.pi * fr * n + φ)) y ∧
      Settles (ks.map fun k => k.transfer (circle fr)).prod fr A φ y := by
  obtain ⟨hb, hne⟩ := hasSections_iff.1 hks
  obtain ⟨cs, hcs⟩ := Sims.of_finite (ks.map Coeffs.norm) f.states
    (by rw [h.wired.2, ← h.wired.1, hks.length, List.length_map]) hfin
  refine ⟨_, Custom.SOS.produces hb hcs _, settles_of ?_⟩
  have := chain_steady (stable_norms hne hst) cs hcs.cs_length (norm_circle fr)
    (K := A * Complex.exp (φ * Complex.I))
    (x := fun n => A * Real.cos (2 * Real.pi * fr * n + φ)) (by
      refine tendsto_const_nhds.congr fun n => ?_
      rw [cos_eq_re, sub_self])
  have e : (ks.map Coeffs.norm).map (secH · (circle fr)) = ks.map fun k => k.transfer (circle fr) := by
    rw [List.map_map]
    exact List.map_congr_left fun k hk => Coeffs.secH_norm (hne k hk) (circle fr)
  rwa [e] at this

/-! ## Cases -/

/-- an object built from one row `{1, 1, 0, 2, -1, 0}`: it is reachable, its section is stable, and its
delay line is finite -/
theorem exSos : ∃ f : Custom.SOS DirectFormII XR, SosReach DirectFormII XR 1 f ∧
    HasSections f.stages [exCoeffs] ∧ FiniteStates f.states := by
  obtain ⟨f, h, hs, -⟩ := C46_import (S := DirectFormII) [⟨1, 1, 0, 2, -1, 0⟩] (by simp)
  refine ⟨f, .ofCoefficients _ f rfl h, hs, ?_⟩
  have : f.states = CascadeStages.initStates DirectFormII 1 := by
    unfold Custom.SOS.ofCoefficients at h
    rcases hr : Custom.SOS.setup (List.map finRow [⟨1, 1, 0, 2, -1, 0⟩])
      (Custom.SOS.init DirectFormII 1 : Custom.SOS DirectFormII XR) with ⟨_ | _ | _, g⟩ <;>
      simp only [List.length_map, List.length_singleton, hr, Res.ok.injEq, reduceCtorEq] at h
    subst h
    exact congrArg (fun p => p.2.states) hr.symm
  intro s hs
  rw [this] at hs
  rw [List.eq_of_mem_replicate hs]
  exact ExactState.finite_init

/-- a case of `C27_sos`: a quarter of the sampling rate -/
example : ∃ (f : Custom.SOS DirectFormII XR) (y : ℕ → ℝ),
    Produces (Custom.SOS.filter (T := XR)) f (fun n => 3 * Real.cos (2 * Real.pi * (1 / 4) * n + 1)) y ∧
      Settles ([exCoeffs].map fun k => k.transfer (circle (1 / 4))).prod (1 / 4) 3 1 y := by
  obtain ⟨f, h1, h2, h3⟩ := exSos
  obtain ⟨y, hy⟩ := C27_sos h1 h2 (by simpa using exCoeffs_stable) h3 (1 / 4) 3 1
  exact ⟨f, y, hy⟩

/-- a case of `C01_sos` and `C07_sos` -/
example : ∃ f : Custom.SOS DirectFormII XR, ∀ x, ∃ y,
    Produces (Custom.SOS.filter (T := XR)) (Custom.SOS.reset f).2 x y ∧ exCoeffs.DiffEq x y := by
  obtain ⟨f, h1, h2, -⟩ := exSos
  refine ⟨f, fun x => ?_⟩
  obtain ⟨y, hy⟩ := (C07_sos h1 h2).1 x
  exact ⟨y, hy, diffChain_one.1 ((C01_sos h1 h2 x y).1 hy)⟩

/-- a case of `C27_rbj`, `C28_rbj`: the delay line holds what the object was fed before -/
example : ∃ H y, exCoeffs.norm.toX.response (fin (1 / 8)) = .ok (ofC H) ∧
    Produces (RBJ.Filter.filter (T := XR)) { biquad := exCoeffs.norm.toX, state := ⟨fin 1, fin 2, fin 3, fin 4⟩ }
      (fun n => 1 * Real.cos (2 * Real.pi * (1 / 8) * n + 0)) y ∧ Settles H (1 / 8) 1 0 y :=
  C27_rbj (f := { biquad := exCoeffs.norm.toX, state := ⟨fin 1, fin 2, fin 3, fin 4⟩ }) exCoeffs_has
    exCoeffs_stable ⟨3, 1, 4, 2, rfl⟩ (1 / 8) 1 0

/-- a case of `C15_rbj`: a NaN frequency is rejected by every object -/
example (f : RBJ.Filter XR) : RBJ.Filter.setupN (.lowPass XR.nan (fin 1)) f = (.throw .coeffNaN, f) := by
  have h : RBJ.Filter.setupN (.lowPass XR.nan (fin 1)) (RBJ.Filter.init : RBJ.Filter XR) =
      (.throw .coeffNaN, RBJ.Filter.init) := by
    have : RBJ.lowPass XR.nan (fin 1) (RBJ.Filter.init : RBJ.Filter XR).biquad =
        (.throw .coeffNaN, (RBJ.Filter.init : RBJ.Filter XR).biquad) := by
      unfold RBJ.lowPass
      refine C20_nan_throws ?_ _
      right; left
      simp [FArith.isNan]
      rfl
    simp [RBJ.Filter.setupN, RBJ.Design.setupN, Exec.zoom, this]
  exact C15_rbj h f

/-- a case of `C15_sos` and `C12_sos`: a matrix whose only row has a NaN -/
example {f : Custom.SOS DirectFormII XR} (h : SosReach DirectFormII XR 1 f) :
    (Custom.SOS.setup [⟨fin 1, XR.nan, fin 0, fin 2, fin (-1), fin 0⟩] f).1 = .throw .coeffNaN := by
  refine C15_sos (T := XR) .new (n := 1) rfl ?_ h
  exact congrArg Prod.fst (C46_nan_row [] ⟨fin 1, XR.nan, fin 0, fin 2, fin (-1), fin 0⟩ [] (by simp)
    (by simp [AnyNaN]) [] [Biquad.default] rfl rfl)

end Iir
