import Verif.Lemmas.Template
import Verif.Props.History
import Verif.Props.TimeDomain

/-! # C18: a lower order in a larger template -/

set_option linter.unusedSectionVars false

namespace Iir
open Spec FArith Exec

section config
variable {R : Type} [FArith R] {S : Type → Type} [StateType S R] {T : Type} [Sample T R]

/-- `f'` is `f` with additional sections at the end, all of them what `Biquad::setIdentity` gives;
everything an object reports is the same. -/
structure Spec.SameButLonger (f f' : PoleFilter S R) : Prop where
  numStages : f'.getNumStages = f.getNumStages
  stage : ∀ i, f'.getStage i = f.getStage i
  response : ∀ nf, f'.response nf = f.response nf
  poleZeros : f'.getPoleZeros = f.getPoleZeros
  sections : ∃ extra, f'.base.cascade.stages = f.base.cascade.stages ++ extra ∧
    ∀ b ∈ extra, ∀ b1 : Biquad R, Biquad.setIdentity b1 = (.ok (), b)

theorem Cascade.Extends.same {f f' : PoleFilter S R} (h : Cascade.Extends f.base.cascade f'.base.cascade)
    (hp : f.base.getPoleZeros = f'.base.getPoleZeros) : SameButLonger f f' := by
  obtain ⟨m, b0, h0, hst⟩ := h.stages
  refine ⟨h.num, fun i => ?_, fun nf => ?_, hp.symm, _, hst, ?_⟩
  · unfold PoleFilter.getStage Cascade.getStage
    rw [h.num]
    split_ifs with hi
    · rfl
    · unfold Cascade.stageAt
      simp only [Bool.or_eq_true, decide_eq_true_eq, not_or] at hi
      have := h.le
      rw [hst, List.getElem?_append_left (by omega)]
  · exact Cascade.response_prefix hst h.num h.le nf
  · intro b hb b1
    rw [(List.mem_replicate.1 hb).2, Biquad.stores_setIdentity, h0]

variable {c : Cls} {n n' : Nat}

/-- **C18**, new objects: whether `setup` with a requested order succeeds does not depend on the
template order, nor does what it configures; the sections the larger object has in addition are
identities. -/
theorem C18_template_new (hn1 : 1 ≤ n) (hnn : n ≤ n') (d : Design R) (o : Int) (ho : o ≤ n) :
    (PoleFilter.setup n (.setupNReq o d) (PoleFilter.init S d.cls n)).1 =
      (PoleFilter.setup n' (.setupNReq o d) (PoleFilter.init S d.cls n')).1 ∧
    ((PoleFilter.setup n (.setupNReq o d) (PoleFilter.init S d.cls n)).1 = .ok () →
      SameButLonger (PoleFilter.setup n (.setupNReq o d) (PoleFilter.init S d.cls n)).2
        (PoleFilter.setup n' (.setupNReq o d) (PoleFilter.init S d.cls n')).2) := by
  have := PFB.baseSetup_template hn1 hnn ho d
  have e : ∀ m : Nat, n ≤ m → PoleFilter.setup m (.setupNReq o d) (PoleFilter.init S d.cls m) =
      ((d.baseSetup o (PoleFilter.initBase d.cls m)).1, { (PoleFilter.init S d.cls m) with
        base := (d.baseSetup o (PoleFilter.initBase d.cls m)).2 }) := by
    intro m hm
    rw [PoleFilter.setup_apply, Call.run_eq, if_neg (by simp only [Call.order]; omega)]
    rfl
  rw [e n (Nat.le_refl _), e n' hnn]
  refine ⟨this.1, fun h => ?_⟩
  exact (this.2 h).1.same (this.2 h).2

/-- **C18** for objects with any history, if a new object accepts the arguments. -/
theorem C18_template [SignedZeros R] (hn1 : 1 ≤ n) (hnn : n ≤ n') (hn' : n' < 2 ^ 30) (d : Design R) (o : Int)
    (ho : o ≤ n) (ho' : o ≠ -1) {f f' : PoleFilter S R} (hf : Reach S T d.cls n f) (hf' : Reach S T d.cls n' f')
    (hok : (PoleFilter.setup n (.setupNReq o d) (PoleFilter.init S d.cls n)).1 = .ok ()) :
    (PoleFilter.setup n (.setupNReq o d) f).1 = .ok () ∧
    (PoleFilter.setup n' (.setupNReq o d) f').1 = .ok () ∧
      SameButLonger (PoleFilter.setup n (.setupNReq o d) f).2
        (PoleFilter.setup n' (.setupNReq o d) f').2 := by
  have h1 := C18_template_new (S := S) hn1 hnn d o ho
  have h2 := C12_history_partial (call := .setupNReq o d) hn1 (by omega) hf rfl ho' hok
  have h3 := C12_history_partial (call := .setupNReq o d) (by omega) hn' hf' rfl ho' (h1.1 ▸ hok)
  have h4 := h1.2 hok
  refine ⟨h2.1, h3.1, h3.2.numStages.trans (h4.numStages.trans h2.2.numStages.symm),
    fun i => (h3.2.stage i).trans ((h4.stage i).trans (h2.2.stage i).symm),
    fun i => (h3.2.response i).trans ((h4.response i).trans (h2.2.response i).symm),
    h3.2.poleZeros.trans (h4.poleZeros.trans h2.2.poleZeros.symm), ?_⟩
  rw [h3.2.stages, h2.2.stages]
  exact h4.sections

/-- **C18**: the overloads with sampling rate are covered too. -/
theorem C18_fs (n : Nat) (o : Int) (fs : R) (d : Design R) :
    (PoleFilter.setup n (.setupReq o fs d) : Exec (PoleFilter S R) Unit) =
      PoleFilter.setup n (.setupNReq o (mapFreq (· / fs) d)) := by
  rw [← Design.overFs_eq]; rfl

end config

/-! ## Outputs, in exact arithmetic -/

section out
open XR
variable {S : Type → Type} [StateType S XR] [DelayLine XR S]

/-- pass-through section -/
def identB : Biquad ℝ := { a0 := 1, a1 := 0, a2 := 0, b1 := 0, b2 := 0, b0 := 1 }

theorem identX_eq : identX = identB.toX := rfl

theorem setIdentity_exact (b b1 : Biquad XR) (h : Biquad.setIdentity b1 = (.ok (), b)) : b = identB.toX := by
  rw [Biquad.stores_setIdentity, identR_exact] at h
  exact (congrArg (fun q => q.2) h).symm

theorem chainStep_ident (m : Nat) (x : ℝ) :
    chainStep (List.replicate m identB) x (rest m) = (x, rest m) := by
  induction m with
  | zero => rfl
  | succ m ih =>
    have h : secStep identB x (0, 0) = (x, (0, 0)) := by simp [secStep, identB]
    simp only [List.replicate_succ, rest, chainStep, h]
    rw [show List.replicate m ((0 : ℝ), (0 : ℝ)) = rest m from rfl, ih]

theorem CascadeStages.filterD_append {R : Type} [FArith R] {S : Type → Type} [StateType S R]
    (bs cs : List (Biquad R)) (ss ts : List (S R)) (h : bs.length = ss.length) (x : R) :
    CascadeStages.filterD (bs ++ cs) (ss ++ ts) x =
      ((CascadeStages.filterD cs ts (CascadeStages.filterD bs ss x).1).1,
        (CascadeStages.filterD bs ss x).2 ++
          (CascadeStages.filterD cs ts (CascadeStages.filterD bs ss x).1).2) := by
  induction bs generalizing ss x with
  | nil =>
    cases ss with
    | nil => cases cs <;> rfl
    | cons s ss => simp at h
  | cons b bs ih =>
    cases ss with
    | nil => simp at h
    | cons s ss =>
      simp only [List.cons_append, CascadeStages.filterD]
      rw [ih ss (by simpa using h)]

theorem CascadeStages.filterD_length {R : Type} [FArith R] {S : Type → Type} [StateType S R]
    (bs : List (Biquad R)) (ss : List (S R)) (x : R) :
    (CascadeStages.filterD bs ss x).2.length = ss.length := by
  induction bs generalizing ss x with
  | nil => cases ss <;> rfl
  | cons b bs ih =>
    cases ss with
    | nil => rfl
    | cons s ss => simp [CascadeStages.filterD, ih]

theorem feed_longer (m : Nat) (xs ys : List ℝ) (f f' : PoleFilter S XR)
    (hlen : f.base.cascade.stages.length = f.states.length)
    (hst : f'.base.cascade.stages = f.base.cascade.stages ++ List.replicate m identB.toX)
    (hs : ∃ ts : List (S XR), f'.states = f.states ++ ts ∧ Sims (List.replicate m identB) ts (rest m))
    (h : (feed (PoleFilter.filter (T := XR)) (xs.map fin) f).1 = .ok (ys.map fin)) :
    (feed (PoleFilter.filter (T := XR)) (xs.map fin) f').1 = .ok (ys.map fin) := by
  induction xs generalizing f f' ys with
  | nil => exact h
  | cons x xs ih =>
    obtain ⟨ts, hts, hsim⟩ := hs
    rw [List.map_cons, feed] at h ⊢
    simp only [bind_def] at h ⊢
    have e : ∀ g : PoleFilter S XR, PoleFilter.filter (T := XR) (fin x) g =
        (.ok (CascadeStages.filterD g.base.cascade.stages g.states (fin x)).1,
          { g with states := (CascadeStages.filterD g.base.cascade.stages g.states (fin x)).2 }) :=
      fun g => rfl
    rw [e] at h ⊢
    simp only at h ⊢
    have hl := CascadeStages.filterD_length f.base.cascade.stages f.states (fin x)
    rw [hst, hts, CascadeStages.filterD_append _ _ _ _ hlen]
    generalize hr : CascadeStages.filterD f.base.cascade.stages f.states (fin x) = r at h hl ⊢
    obtain ⟨y, ss⟩ := r
    have hih := ih (ys := ys.tail) (f := { f with states := ss })
      (f' := { f' with states := ss ++ (CascadeStages.filterD (List.replicate m identB.toX) ts y).2 })
      (by rw [hlen, ← hl]) hst
    generalize hfd : feed (PoleFilter.filter (T := XR)) (xs.map fin) { f with states := ss } = q at h hih
    rcases q with ⟨r, g⟩
    cases r with
    | throw e => simp at h
    | ub u => simp at h
    | ok zs =>
      simp only [pure_def, Res.ok.injEq] at h
      cases ys with
      | nil => simp at h
      | cons y0 ys =>
        simp only [List.map_cons, List.cons.injEq] at h
        obtain ⟨rfl, rfl⟩ := h
        obtain ⟨ts', hstep, hsim'⟩ := hsim.step y0
        rw [chainStep_ident] at hstep hsim'
        rw [List.map_replicate] at hstep
        simp only [hstep] at hih ⊢
        have := hih ⟨ts', rfl, hsim'⟩ rfl
        revert this
        generalize feed (PoleFilter.filter (T := XR)) (xs.map fin) { f' with states := ss ++ ts' } = q'
        rcases q' with ⟨r', g'⟩
        rintro rfl
        rfl

/-- **C18**, outputs: from reset, the larger object returns the samples the smaller one returns, for
every real input for which the latter returns real numbers. -/
theorem C18_output {f f' : PoleFilter S XR} (hlen : f.states.length = f.base.cascade.stages.length)
    (hlen' : f'.states.length = f'.base.cascade.stages.length) (h : SameButLonger f f') (x y : ℕ → ℝ)
    (hy : Produces (PoleFilter.filter (T := XR)) (PoleFilter.reset f).2 x y) :
    Produces (PoleFilter.filter (T := XR)) (PoleFilter.reset f').2 x y := by
  obtain ⟨extra, h1, h2⟩ := h.sections
  have hex : extra = List.replicate extra.length identB.toX :=
    List.eq_replicate_iff.2 ⟨rfl, fun b hb => setIdentity_exact b Biquad.default (h2 b hb _)⟩
  intro N
  have hN := hy N
  have e : ∀ z : ℕ → ℝ, (List.range N).map (fun n => fin (z n)) = ((List.range N).map z).map fin := by
    intro z; rw [List.map_map]; rfl
  rw [e, e] at hN ⊢
  refine feed_longer extra.length _ _ (PoleFilter.reset f).2 (PoleFilter.reset f').2 ?_ ?_ ?_ hN
  · simp [PoleFilter.reset, CascadeStages.reset, hlen]
  · rw [hex] at h1; simpa [PoleFilter.reset] using h1
  · refine ⟨List.replicate extra.length StateType.init, ?_, ?_⟩
    · simp only [PoleFilter.reset, modify_def, reset_states]
      rw [hlen', h1, List.length_append, hlen, List.replicate_append_replicate]
    · have := Sims.init (S := S) (List.replicate extra.length identB)
      rwa [List.length_replicate] at this

/-- **C18**, all in one: after any histories of the two objects, `setup` with the same arguments and
order, then reset: the larger object returns what the smaller one returns. -/
theorem C18_same_output {T : Type} [Sample T XR] {n n' : Nat} (hn1 : 1 ≤ n) (hnn : n ≤ n') (hn' : n' < 2 ^ 30)
    (d : Design XR) (o : Int) (ho : o ≤ n) (ho' : o ≠ -1) {f f' : PoleFilter S XR}
    (hf : Reach S T d.cls n f) (hf' : Reach S T d.cls n' f')
    (hok : (PoleFilter.setup n (.setupNReq o d) (PoleFilter.init S d.cls n)).1 = .ok ()) (x y : ℕ → ℝ)
    (hy : Produces (PoleFilter.filter (T := XR))
      (PoleFilter.reset (PoleFilter.setup n (.setupNReq o d) f).2).2 x y) :
    Produces (PoleFilter.filter (T := XR))
      (PoleFilter.reset (PoleFilter.setup n' (.setupNReq o d) f').2).2 x y := by
  obtain ⟨h1, h2, h3⟩ := C18_template hn1 hnn hn' d o ho ho' hf hf' hok
  have r1 : Reach S T d.cls n (PoleFilter.setup n (.setupNReq o d) f).2 :=
    .call f _ (.setup (.setupNReq o d)) (.ok ()) hf rfl (Prod.ext h1 rfl) (by simp)
  have r2 : Reach S T d.cls n' (PoleFilter.setup n' (.setupNReq o d) f').2 :=
    .call f' _ (.setup (.setupNReq o d)) (.ok ()) hf' rfl (Prod.ext h2 rfl) (by simp)
  exact C18_output (r1.wired hn1 (by omega)) (r2.wired (by omega) hn') h3 x y hy

end out
end Iir
