import Verif.Lemmas.Setup
import Verif.Props.Streaming
import Verif.Exact.XR

/-! # C13, C14, C16, C17: rejected arguments, array bounds, overloads; for every arithmetic -/

set_option linter.unusedSectionVars false

namespace Iir
open Spec FArith Exec

variable {R : Type} [FArith R] {S : Type → Type} [StateType S R] {T : Type} [Sample T R]

/-! ## C14 -/

/-- **C14**: a requested order above the template order throws and changes nothing at all. -/
theorem C14_order_too_high (n : Nat) (call : Call R) (h : call.order n > n) (f : PoleFilter S R) :
    PoleFilter.setup n call f = (.throw .orderTooHigh, f) := by
  cases call with
  | setup fs d => exact (Int.lt_irrefl _ h).elim
  | setupN d => exact (Int.lt_irrefl _ h).elim
  | setupReq o fs d =>
    have : (decide (o > (n : Int))) = true := decide_eq_true h
    simp [PoleFilter.setup, Exec.zoom, Call.run, bind_def, this]
  | setupNReq o d =>
    have : (decide (o > (n : Int))) = true := decide_eq_true h
    simp [PoleFilter.setup, Exec.zoom, Call.run, bind_def, this]

/-- a case: order 5 requested of an order 4 low pass -/
example (f : PoleFilter DirectFormII XR) :
    PoleFilter.setup 4 (.setupNReq 5 (.bwLowPass (XR.fin 0.1))) f = (.throw .orderTooHigh, f) :=
  C14_order_too_high _ _ (by decide) f

/-! ## C17 -/

/-- **C17**: `setup (sampleRate, F, …)` is `setupN (F / sampleRate, …)`, on any object. -/
theorem C17_setup_eq_setupN (n : Nat) (fs : R) (d : Design R) (f : PoleFilter S R) :
    PoleFilter.setup n (.setup fs d) f = PoleFilter.setup n (.setupN (mapFreq (· / fs) d)) f := by
  rw [← Design.overFs_eq]; rfl

/-- **C17**, same for the overloads with a requested order. -/
theorem C17_setupReq_eq_setupNReq (n : Nat) (o : Int) (fs : R) (d : Design R) (f : PoleFilter S R) :
    PoleFilter.setup n (.setupReq o fs d) f = PoleFilter.setup n (.setupNReq o (mapFreq (· / fs) d)) f := by
  rw [← Design.overFs_eq]; rfl

/-- **C17**: requesting the template order is the overload without requested order. -/
theorem C17_setupNReq_self (n : Nat) (d : Design R) (f : PoleFilter S R) :
    PoleFilter.setup n (.setupNReq n d) f = PoleFilter.setup n (.setupN d) f := by
  simp [PoleFilter.setup, Exec.zoom, Call.run, bind_def]

/-- **C17**, same with a sampling rate. -/
theorem C17_setupReq_self (n : Nat) (fs : R) (d : Design R) (f : PoleFilter S R) :
    PoleFilter.setup n (.setupReq n fs d) f = PoleFilter.setup n (.setup fs d) f := by
  simp [PoleFilter.setup, Exec.zoom, Call.run, bind_def]

/-! ## C16 -/

theorem PFB.ok_exec {c : Cls} {n : Nat} (hn1 : 1 ≤ n) (hn : n < 1073741824) (op : Op T R)
    (hop : op.forCls c) (f : PoleFilter S R) (hf : f.base.Ok c n)
    (hu : ∀ u, (op.exec n f).1 ≠ .ub u) : (op.exec n f).2.base.Ok c n := by
  cases op with
  | setup call =>
    subst hop
    have h1 := Call.trip_run hn1 hn call f.base hf
    have h2 : (Op.exec n (.setup call : Op T R) f).2.base = (call.run n f.base).2 := rfl
    have h3 : (Op.exec n (.setup call : Op T R) f).1 = (call.run n f.base).1 := rfl
    rw [h2]
    rw [h3] at hu
    revert h1 hu
    rcases call.run n f.base with ⟨r, p⟩
    cases r <;> simp only
    · intro _ h; exact h
    · intro _ h; exact h
    · intro h _; exact (h _ rfl).elim
  | filter x =>
    have : (Op.exec n (.filter x : Op T R) f).2.base = f.base := by
      simp only [Op.exec, Exec.bind_def, PoleFilter.filter, Exec.zoom, CascadeStages.filter]
      rcases (Sample.ofR _ : Res T) with a | e | u <;> rfl
    rw [this]; exact hf
  | reset => exact hf
  | scale k =>
    have h1 := Cascade.trip_applyScale (U := fun _ => False) (M := PoleFilter.numStages c n)
      (k := f.base.cascade.numStages) hf.cascade.num k f.base.cascade
      ⟨hf.cascade.maxStages, hf.cascade.length, rfl⟩
    refine ⟨?_, hf.digital, hf.analog⟩
    show (Cascade.applyScale k f.base.cascade).2.Ok _
    revert h1
    rcases Cascade.applyScale k f.base.cascade with ⟨r, p⟩
    cases r <;> simp only
    · intro h; exact ⟨h.maxStages, h.length, h.num ▸ hf.cascade.num⟩
    · intro h; exact ⟨h.maxStages, h.length, h.num ▸ hf.cascade.num⟩
    · exact False.elim

theorem Spec.Reach.ok {c : Cls} {n : Nat} (hn1 : 1 ≤ n) (hn : n < 1073741824)
    {f : PoleFilter S R} (h : Reach S T c n f) : f.base.Ok c n := by
  induction h with
  | new => exact PFB.ok_init c n
  | call f f' op r _ hop he hr ih =>
    have := PFB.ok_exec hn1 hn op hop f ih (by rw [he]; exact hr)
    rwa [he] at this

/-- **C16**: whatever the history (of successful and throwing calls), no `setup` accesses an array
out of range or through a null pointer.  The only undefined behaviour left is a violated
precondition of `std::polar` (C63), and `int` overflow of `2 * reqOrder` for orders below -2^30. -/
theorem C16_setup_in_bounds {c : Cls} {n : Nat} (hn1 : 1 ≤ n) (hn : n < 2 ^ 30)
    {f : PoleFilter S R} (h : Reach S T c n f) (call : Call R) (hc : call.design.cls = c) (u : UB)
    (hu : (PoleFilter.setup n call f).1 = .ub u) :
    (u = .polarPrecondition ∧
      ∃ rho theta : R, PolarModulus (call.order n) call.design rho ∧ polar rho theta = none) ∨
      (u = .intOverflow ∧ call.order n < -(2 ^ 30)) := by
  subst hc
  have h1 := Call.trip_run hn1 hn call f.base (h.ok hn1 hn)
  have h2 : (PoleFilter.setup n call f).1 = (call.run n f.base).1 := rfl
  rw [h2] at hu
  revert h1 hu
  rcases call.run n f.base with ⟨r, p⟩
  rintro rfl h1
  exact h1

/-- **C16** for the queries: `getPoleZeros`, `operator[]` never, `response` only through
`std::polar`. -/
theorem C16_queries_in_bounds {c : Cls} {n : Nat} (hn1 : 1 ≤ n) (hn : n < 2 ^ 30)
    {f : PoleFilter S R} (h : Reach S T c n f) (u : UB) :
    f.getPoleZeros ≠ .ub u ∧ (∀ i, f.getStage i ≠ .ub u) ∧
      ∀ nf, f.response nf = .ub u →
        u = .polarPrecondition ∧ ∃ theta : R, polar 1 theta = none := by
  have hok := h.ok hn1 hn
  refine ⟨?_, fun i => ?_, fun nf hr => Cascade.response_ub hok.cascade nf u hr⟩
  · have key : ∀ k, k ≤ (f.base.digital.numPoles + 1) / 2 →
        ∃ r, PFB.poleZerosLoop f.base.digital k = .ok r := by
      intro k
      induction k with
      | zero => exact fun _ => ⟨_, rfl⟩
      | succ k ih =>
        intro hk
        obtain ⟨r, hr⟩ := ih (by omega)
        obtain ⟨pr, hpr, _⟩ := Layout.getPair_ok hok.digital (i := k) (by omega)
        exact ⟨r ++ [pr], by simp [PFB.poleZerosLoop, Bind.bind, Res.bind, hr, hpr, pure]⟩
    obtain ⟨r, hr⟩ := key _ (Nat.le_refl _)
    simp [PoleFilter.getPoleZeros, PFB.getPoleZeros, hr]
  · unfold PoleFilter.getStage Cascade.getStage
    split_ifs with hi
    · simp
    · rw [Cascade.stageAt_ok]
      · simp
      · have := hok.cascade.length
        have := hok.cascade.num
        simp only [Bool.or_eq_true, decide_eq_true_eq, not_or] at hi
        omega

/-- **C16** for `filter`: the two arrays it walks have the same length, `(MaxDigitalPoles+1)/2`. -/
theorem C16_filter_in_bounds {c : Cls} {n : Nat} (hn1 : 1 ≤ n) (hn : n < 2 ^ 30)
    {f : PoleFilter S R} (h : Reach S T c n f) :
    f.base.cascade.stages.length = f.states.length := by
  rw [h.states_length]; exact (h.ok hn1 hn).cascade.length

/-- the hypotheses hold for every new object, and after any successful or throwing call -/
example : Reach (R := XR) DirectFormII XR .bwBandPass 8 (PoleFilter.init DirectFormII .bwBandPass 8) :=
  .new

/-- one that is reached by a throwing call and a reset -/
example : Reach (R := XR) DirectFormII XR .bwLowPass 4
    (PoleFilter.reset (PoleFilter.init DirectFormII .bwLowPass 4)).2 :=
  .call _ _ .reset (.ok ())
    (.call _ _ (.setup (.setupNReq 5 (.bwLowPass (XR.fin 0.1)))) (.throw .orderTooHigh) .new rfl
      (C14_order_too_high _ _ (by decide) _) (by simp)) trivial rfl (by simp)

/-! ## C13 -/

/-- Not a frequency in `[0, 1/2)`: fails `fc < 0.5` (too high, NaN, infinite) or satisfies `fc < 0`. -/
def Spec.InvalidFreq (fc : R) : Prop := flt fc 0.5 = false ∨ flt fc 0 = true

theorem checkFreq_invalid {σ : Type} {fc : R} (h : InvalidFreq fc) (s : σ) :
    ∃ e, (checkFreq fc : Exec σ Unit) s = (.throw e, s) := by
  unfold checkFreq
  simp only [bind_def]
  rcases h with h | h
  · simp [h]
  · cases h2 : flt fc 0.5
    · simp
    · simp [h]

theorem Design.trans_invalid (d : Design R) (h : InvalidFreq d.freq) (a l : Layout R) :
    ∃ e, d.trans a l = (.throw e, l) := by
  cases d <;> obtain ⟨e, he⟩ := checkFreq_invalid h l <;> refine ⟨e, ?_⟩ <;>
    simp only [Design.freq] at he <;>
    simp [Design.trans, lowPassTransform, highPassTransform, bandPassTransform, bandStopTransform,
      bandShelfTransform, bind_def, he]

theorem Design.baseSetup_invalid (o : Int) (d : Design R) (h : InvalidFreq d.freq) (p : PFB R) :
    (d.baseSetup o p).2.cascade = p.cascade ∧ (d.baseSetup o p).2.digital = p.digital ∧
      (d.baseSetup o p).1 ≠ .ok () := by
  rw [Design.baseSetup_eq]
  simp only [PFB.designWith, bind_def, PFB.onAnalog, PFB.onDigital, Exec.zoom, get_def]
  rcases Proto.cached (d.stale o) (d.setKey o) (d.build o) p.analog with ⟨r, a⟩
  cases r <;> simp
  obtain ⟨e, he⟩ := d.trans_invalid h a.lay p.digital
  simp [he]

theorem Design.overFs_freq (fs : R) (d : Design R) : (d.overFs fs).freq = d.freq / fs := by
  cases d <;> rfl

/-- **C13**: `setup` with a cutoff/centre frequency outside `[0, 1/2)` does not succeed, and leaves
delay lines, coefficients, number of stages, response and reported poles as they were — for any
object in any state, whatever the arithmetic. -/
theorem C13_invalid_frequency_untouched (n : Nat) (call : Call R) (hf : InvalidFreq call.normFreq)
    (f : PoleFilter S R) :
    (PoleFilter.setup n call f).1 ≠ .ok () ∧ (PoleFilter.setup n call f).2.states = f.states ∧
      SameConfig (PoleFilter.setup n call f).2 f := by
  have key : (call.run n f.base).2.cascade = f.base.cascade ∧
      (call.run n f.base).2.digital = f.base.digital ∧ (call.run n f.base).1 ≠ .ok () := by
    cases call with
    | setup fs d =>
      exact Design.baseSetup_invalid n (d.overFs fs) (by rw [Design.overFs_freq]; exact hf) f.base
    | setupN d => exact Design.baseSetup_invalid n d hf f.base
    | setupReq o fs d =>
      unfold Call.run
      by_cases h : o > (n : Int)
      · simp [bind_def, h]
      · have := Design.baseSetup_invalid o (d.overFs fs) (by rw [Design.overFs_freq]; exact hf) f.base
        simpa [bind_def, h] using this
    | setupNReq o d =>
      unfold Call.run
      by_cases h : o > (n : Int)
      · simp [bind_def, h]
      · have := Design.baseSetup_invalid o d hf f.base
        simpa [bind_def, h] using this
  obtain ⟨h1, h2, h3⟩ := key
  refine ⟨h3, rfl, ⟨?_, ?_, ?_, ?_, ?_⟩⟩
  · exact congrArg Cascade.numStages h1
  · intro i
    show Cascade.getStage (call.run n f.base).2.cascade i = _
    rw [h1]; rfl
  · intro nf
    show Cascade.response (call.run n f.base).2.cascade nf = _
    rw [h1]; rfl
  · show PFB.poleZerosLoop (call.run n f.base).2.digital
      (((call.run n f.base).2.digital.numPoles + 1) / 2) = _
    rw [h2]; rfl
  · exact congrArg Cascade.stages h1

/-- **C13**: it throws (rather than being undefined), on every object reachable by any calls, if
`std::polar` has no undefined arguments and the order is not below -2^30. -/
theorem C13_invalid_frequency_throws {c : Cls} {n : Nat} (hn1 : 1 ≤ n) (hn : n < 2 ^ 30)
    {f : PoleFilter S R} (h : Reach S T c n f) (call : Call R) (hc : call.design.cls = c)
    (hf : InvalidFreq call.normFreq) (hp : ∀ rho theta, PolarModulus (call.order n) call.design rho → polar rho theta ≠ none)
    (ho : -(2 ^ 30) ≤ call.order n) : ∃ e, (PoleFilter.setup n call f).1 = .throw e := by
  have h1 := (C13_invalid_frequency_untouched n call hf f).1
  have h2 := C16_setup_in_bounds hn1 hn h call hc
  cases hr : (PoleFilter.setup n call f).1 with
  | ok a => exact (h1 (by rw [hr])).elim
  | throw e => exact ⟨e, rfl⟩
  | ub u =>
    rcases h2 u hr with ⟨_, x, y, h4, h3⟩ | ⟨_, h3⟩
    · exact (hp x y h4 h3).elim
    · omega

/-- invalid frequencies: above 1/2, negative, and anything over a zero sampling rate -/
example : InvalidFreq (XR.fin 0.7) := .inl (by simp; norm_num)
example : InvalidFreq (XR.fin (-0.1)) := .inr (by simp; norm_num)
example : InvalidFreq (Call.normFreq (.setup 0 (.c1LowPass (XR.fin 100) (XR.fin 1)))) := by
  left; simp [Call.normFreq, Design.freq, XR.fin_div', XR.signInf]; rfl
example : InvalidFreq XR.nan := .inl rfl

/-- `std::polar` is total in the exact arithmetic -/
example (rho theta : XR) : polar rho theta ≠ none := by simp [polar]

end Iir
