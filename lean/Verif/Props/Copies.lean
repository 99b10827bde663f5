import Verif.Props.Heap
import Verif.Props.Accepted

/-! # Setting up a copy changes the original: a concrete program -/

namespace Iir
open FArith Spec XR Heap Filter Exec

set_option linter.unusedSectionVars false

section feed
variable {R : Type} [FArith R] {S : Type → Type} [StateType S R] {T : Type} [Sample T R]

theorem PoleFilter.filter_config {f g : PoleFilter S R} (hs : f.base.cascade.stages = g.base.cascade.stages)
    (ht : f.states = g.states) (x : T) :
    (PoleFilter.filter x f).1 = (PoleFilter.filter x g).1 ∧
      (PoleFilter.filter x f).2.base.cascade.stages = (PoleFilter.filter x g).2.base.cascade.stages ∧
      (PoleFilter.filter x f).2.states = (PoleFilter.filter x g).2.states := by
  obtain ⟨fb, fs⟩ := f
  obtain ⟨gb, gs⟩ := g
  simp only at hs ht
  subst ht
  unfold PoleFilter.filter
  simp only [Exec.zoom, hs, and_self]

/-- Filtering some samples on a single object, statement by statement and as a stream. -/
theorem alone_feed (c : Cls) (n : Nat) (xs ys : List T) (f g : PoleFilter S R)
    (hs : f.base.cascade.stages = g.base.cascade.stages) (ht : f.states = g.states)
    (h : (feed (PoleFilter.filter (T := T)) xs g).1 = .ok ys) :
    (alone (poleAct c n) (xs.map .filter) f).1 = ys.map fun y => .ok (.sample y) := by
  induction xs generalizing f g ys with
  | nil =>
    have : ys = [] := by
      have h : (Res.ok [] : Res (List T)) = .ok ys := h
      cases h; rfl
    subst this
    rfl
  | cons x xs ih =>
    obtain ⟨h1, h2, h3⟩ := PoleFilter.filter_config (T := T) hs ht x
    rw [feed, Exec.bind_def] at h
    rcases hg : PoleFilter.filter x g with ⟨r, g'⟩
    rw [hg] at h h1 h2 h3
    cases r with
    | throw e => cases h
    | ub e => cases h
    | ok y =>
      simp only [Exec.bind_def] at h
      rcases hg' : feed (PoleFilter.filter (T := T)) xs g' with ⟨r, g''⟩
      rw [hg'] at h
      cases r with
      | throw e => cases h
      | ub e => cases h
      | ok ys' =>
        have : ys = y :: ys' := by cases h; rfl
        subst this
        have := ih ys' (PoleFilter.filter x f).2 g' h2 h3 (by rw [hg'])
        simp only [List.map_cons, alone, poleAct, h1, Res.map]
        rw [this]

theorem actsOn_filters (i : Nat) (xs : List T) :
    actsOn i (xs.map fun x => (.act i (.filter x) : Cmd T R)) = xs.map .filter := by
  induction xs with
  | nil => rfl
  | cons x xs ih =>
    simp only [actsOn] at ih
    simp [actsOn, ih]

theorem unshared_filters (i : Nat) (xs : List T) (h : Heap S R) :
    Unshared i (xs.map fun x => (.act i (.filter x) : Cmd T R)) h := by
  induction xs generalizing h with
  | nil => trivial
  | cons x xs ih => exact ⟨fun k a o hk e => (by cases e; exact absurd rfl hk), ih _⟩

end feed

variable (S : Type → Type) [StateType S XR] [DelayLine XR S]

/-- The program: copy object 0, set up the *copy* as a low pass, and filter samples with object 0. -/
noncomputable def Spec.setupOfCopy (xs : List XR) : List (Cmd XR XR) :=
  .copy 0 :: .act 1 (.setup (.setupN (.bwLowPass (fin (1 / 4))))) :: xs.map fun x => .act 0 (.filter x)

/-- **C44 as stated is false**: `Butterworth::LowPass<1> f; auto g = f; g.setupN (0.25);` changes what `f` returns. -/
theorem C44_false : ∃ xs : List XR, (∀ d ∈ setupOfCopy xs, Cmd.keeps 0 d) ∧
    outcomesOn 0 (setupOfCopy xs) (Heap.run (setupOfCopy xs)
      (Heap.run ([.new .bwLowPass 1] : List (Cmd XR XR)) ([] : Heap S XR)).2).1 ≠
    (alone (poleAct .bwLowPass 1) (actsOn 0 (setupOfCopy xs)) (PoleFilter.init S .bwLowPass 1)).1 := by
  by_contra hcon
  push Not at hcon
  have heq : ∀ xs, outcomesOn 0 (setupOfCopy xs) (Heap.run (setupOfCopy xs)
      (Heap.run ([.new .bwLowPass 1] : List (Cmd XR XR)) ([] : Heap S XR)).2).1 =
    (alone (poleAct .bwLowPass 1) (actsOn 0 (setupOfCopy xs)) (PoleFilter.init S .bwLowPass 1)).1 := by
    intro xs
    apply hcon
    intro d hd
    simp only [setupOfCopy, List.mem_cons, List.mem_map] at hd
    rcases hd with rfl | rfl | ⟨x, -, rfl⟩ <;> trivial
  -- what the copy is set up to
  obtain ⟨f, e1, e2, e3⟩ := C30_lowpass (S := S) (T := XR) (call := .setupN (.bwLowPass (fin (1 / 4)))) (n := 1) (o := 1)
    (fc := 1 / 4) ⟨rfl, rfl, by norm_num, le_rfl, by norm_num⟩ (by norm_num) (by norm_num) _ .new
  have hreach : Reach S XR .bwLowPass 1 f :=
    .call _ f (.setup (.setupN (.bwLowPass (fin (1 / 4))))) (.ok ()) .new rfl e1 (by simp)
  obtain ⟨ks, hks, hst⟩ := stable_sections e3.1.stable
  have hfin : FiniteStates f.states := by
    rw [e2]
    intro s hs
    have : s = StateType.init := by
      simp only [PoleFilter.init, reset_states, CascadeStages.initStates] at hs
      exact (List.mem_replicate.1 hs).2
    rw [this]
    exact ExactState.finite_init
  obtain ⟨H, y, h1, h2, h3⟩ := C27_filter_realises_response (T := XR) le_rfl (by norm_num) hreach hks hst hfin
    (fr := 1 / 2) (by norm_num) le_rfl 1 0
  have hH : H = 0 := by
    obtain ⟨H', h4, h5⟩ := e3.1.nyquist
    rw [h1] at h4
    have h6 : ofC H = ofC H' := by injection h4
    rw [ofC_inj.1 h6]
    simpa using h5
  subst hH
  -- the original's outputs
  have hnew : (Heap.run ([.new .bwLowPass 1] : List (Cmd XR XR)) ([] : Heap S XR)).2.obj 0 =
    some (.pole (newPole S .bwLowPass 1 0)) := rfl
  obtain ⟨hp, j, hj, -, oi, oj, oi', ho1, -, ho3, hst1, -, -, -, hst2, -, hcl, hor, hpt⟩ := C44_setup_on_copy (T := XR)
    hnew ⟨rfl, rfl, rfl⟩ (.setupN (.bwLowPass (fin (1 / 4)))) rfl
  have hj1 : hp = (Heap.step (Heap.run ([.new .bwLowPass 1] : List (Cmd XR XR)) ([] : Heap S XR)).2
    (.copy 0 : Cmd XR XR)).2 ∧ j = 1 := by
    rw [step_copy hnew] at hj ⊢
    injection hj with h1 h2
    injection h1 with h1
    injection h1 with h1
    exact ⟨h2.symm, h1.symm⟩
  obtain ⟨rfl, rfl⟩ := hj1
  have hf : oi'.filter = f := by
    obtain ⟨-, o', h5, h6⟩ := C44_independent_partial (T := XR) hnew ⟨rfl, rfl, rfl⟩
      [.act 0 (.setup (.setupN (.bwLowPass (fin (1 / 4)))))] (by simp [Cmd.keeps])
      ⟨fun k a o hk e => (by cases e; exact absurd rfl hk), trivial⟩
    have h7 := h5.symm.trans ho3
    injection h7 with h7
    injection h7 with h7
    rw [← h7, h6]
    exact congrArg Prod.snd e1
  have hxy : ∀ n, y n = 1 * Real.cos (2 * Real.pi * (1 / 2) * n + 0) := by
    intro N
    have h5 := heq ((List.range (N + 1)).map fun n : ℕ => fin (1 * Real.cos (2 * Real.pi * (1 / 2) * n + 0)))
    have h6 : outcomesOn 0 (setupOfCopy ((List.range (N + 1)).map fun n : ℕ =>
        fin (1 * Real.cos (2 * Real.pi * (1 / 2) * n + 0)))) (Heap.run (setupOfCopy ((List.range (N + 1)).map fun n : ℕ =>
        fin (1 * Real.cos (2 * Real.pi * (1 / 2) * n + 0))))
        (Heap.run ([.new .bwLowPass 1] : List (Cmd XR XR)) ([] : Heap S XR)).2).1 =
        ((List.range (N + 1)).map fun n => fin (y n)).map fun y => .ok (.sample y) := by
      have h7 := (C44_independent_partial (T := XR) ho1 hpt (((List.range (N + 1)).map fun n : ℕ =>
        fin (1 * Real.cos (2 * Real.pi * (1 / 2) * n + 0))).map fun x => .act 0 (.filter x))
        (by intro d hd; obtain ⟨x, -, rfl⟩ := List.mem_map.1 hd; trivial) (unshared_filters _ _ _)).1
      rw [actsOn_filters, alone_feed _ _ _ _ _ f (hst1.trans (congrArg (fun g => g.base.cascade.stages) hf))
        (hst2.trans e2.symm) (h2 (N + 1))] at h7
      exact h7
    have h8 : (alone (poleAct .bwLowPass 1) (actsOn 0 (setupOfCopy ((List.range (N + 1)).map fun n : ℕ =>
        fin (1 * Real.cos (2 * Real.pi * (1 / 2) * n + 0))))) (PoleFilter.init S .bwLowPass 1)).1 =
        ((List.range (N + 1)).map fun n : ℕ => fin (1 * Real.cos (2 * Real.pi * (1 / 2) * n + 0))).map
          fun y => .ok (.sample y) := by
      have h9 : ∀ xs, actsOn 0 (setupOfCopy xs) = xs.map .filter := fun xs => actsOn_filters (R := XR) 0 xs
      rw [h9]
      exact alone_feed _ _ _ _ _ (PoleFilter.init S .bwLowPass 1) rfl rfl
        (C08_pass_through .bwLowPass 1 le_rfl (by norm_num) _ (N + 1))
    rw [h6, h8] at h5
    have h9 := congrArg (fun l => l[N]?) h5
    simp only [List.getElem?_map, List.getElem?_range (Nat.lt_succ_self N), Option.map_some, Option.some.injEq,
      Res.ok.injEq, Obs.sample.injEq, fin.injEq] at h9
    exact h9
  simp only [Settles, norm_zero, mul_zero, zero_mul, sub_zero, hxy] at h3
  have h4 : (fun n : ℕ => 1 * Real.cos (2 * Real.pi * (1 / 2) * n + 0)) = fun n => (-1) ^ n := by
    funext n
    rw [← Real.cos_nat_mul_pi]
    ring_nf
  rw [h4] at h3
  have h5 := h3.abs
  simp at h5

end Iir
