import Verif.Props.Setup

/-! # C09: a NaN sample poisons a filter until `reset ()` -/

set_option linter.unusedSectionVars false

namespace Iir
open Spec FArith Exec

/-- Arithmetic in which NaN propagates through `+`, `-` and `*` (IEEE 754 arithmetic does). -/
class NanPropagates (R : Type) [FArith R] : Prop where
  add_left : ∀ x y : R, isNan x = true → isNan (x + y) = true
  add_right : ∀ x y : R, isNan y = true → isNan (x + y) = true
  sub_left : ∀ x y : R, isNan x = true → isNan (x - y) = true
  sub_right : ∀ x y : R, isNan y = true → isNan (x - y) = true
  mul_left : ∀ x y : R, isNan x = true → isNan (x * y) = true
  mul_right : ∀ x y : R, isNan y = true → isNan (x * y) = true

/-- the exact arithmetic is one -/
instance : NanPropagates XR where
  add_left x y h := by cases x <;> first | rfl | simp [XR.isNan_eq, XR.isNaN] at h
  add_right x y h := by cases y <;> cases x <;> first | rfl | simp [XR.isNan_eq, XR.isNaN] at h
  sub_left x y h := by cases x <;> first | rfl | simp [XR.isNan_eq, XR.isNaN] at h
  sub_right x y h := by cases y <;> cases x <;> first | rfl | simp [XR.isNan_eq, XR.isNaN] at h
  mul_left x y h := by cases x <;> first | rfl | simp [XR.isNan_eq, XR.isNaN] at h
  mul_right x y h := by cases y <;> cases x <;> first | rfl | simp [XR.isNan_eq, XR.isNaN] at h

variable {R : Type} [FArith R] {S : Type → Type} [StateType S R]

/-- A delay line type with a "poisoned" condition: a NaN input poisons it, and once poisoned every
output is NaN and it stays poisoned. -/
class NanSticky (S : Type → Type) (R : Type) [FArith R] [StateType S R] where
  Poisoned : S R → Prop
  enter : ∀ (x : R) (b : Biquad R) (s : S R), isNan x = true →
    isNan (StateType.filter x b s).1 = true ∧ Poisoned (StateType.filter x b s).2
  stay : ∀ (x : R) (b : Biquad R) (s : S R), Poisoned s →
    isNan (StateType.filter x b s).1 = true ∧ Poisoned (StateType.filter x b s).2

section
variable [NanPropagates R]
open NanPropagates

instance : NanSticky DirectFormI R where
  Poisoned s := isNan s.y1 = true
  enter x b s h := by
    have : isNan (DirectFormI.filter x b s).1 = true :=
      sub_left _ _ (sub_left _ _ (add_left _ _ (add_left _ _ (mul_right _ _ h))))
    exact ⟨this, this⟩
  stay x b s h := by
    have : isNan (DirectFormI.filter x b s).1 = true :=
      sub_left _ _ (sub_right _ _ (mul_right _ _ h))
    exact ⟨this, this⟩

instance : NanSticky DirectFormII R where
  Poisoned s := isNan s.v1 = true
  enter x b s h := by
    have hw : isNan (x - b.a1 * s.v1 - b.a2 * s.v2) = true := sub_left _ _ (sub_left _ _ h)
    exact ⟨add_left _ _ (add_left _ _ (mul_right _ _ hw)), hw⟩
  stay x b s h := by
    have hw : isNan (x - b.a1 * s.v1 - b.a2 * s.v2) = true :=
      sub_left _ _ (sub_right _ _ (mul_right _ _ h))
    exact ⟨add_left _ _ (add_left _ _ (mul_right _ _ hw)), hw⟩

instance : NanSticky TransposedDirectFormII R where
  Poisoned s := isNan s.s1_1 = true
  enter x b s h := by
    have hw : isNan (s.s1_1 + b.b0 * x) = true := add_right _ _ (mul_right _ _ h)
    exact ⟨hw, sub_right _ _ (mul_right _ _ hw)⟩
  stay x b s h := by
    have hw : isNan (s.s1_1 + b.b0 * x) = true := add_left _ _ h
    exact ⟨hw, sub_right _ _ (mul_right _ _ hw)⟩

/-- all three delay line types are -/
instance (priority := 50) NanSticky.ofDelayLine [h : DelayLine R S] : NanSticky S R := by
  cases h <;> infer_instance

end

/-! ## Chains -/

/-- all sections that are run are poisoned, and there is at least one -/
def PoisonedChain [NanSticky S R] (bs : List (Biquad R)) (ss : List (S R)) : Prop :=
  bs ≠ [] ∧ bs.length = ss.length ∧ ∀ s ∈ ss, NanSticky.Poisoned s

theorem filterD_enter [NanSticky S R] (bs : List (Biquad R)) (ss : List (S R))
    (h : bs.length = ss.length) (x : R) (hx : isNan x = true) :
    isNan (CascadeStages.filterD bs ss x).1 = true ∧
      ∀ s ∈ (CascadeStages.filterD bs ss x).2, NanSticky.Poisoned s := by
  induction bs generalizing ss x with
  | nil =>
    cases ss with
    | nil => exact ⟨hx, by simp [CascadeStages.filterD]⟩
    | cons => simp at h
  | cons b bs ih =>
    cases ss with
    | nil => simp at h
    | cons s ss =>
      obtain ⟨h1, h2⟩ := NanSticky.enter x b s hx
      obtain ⟨h3, h4⟩ := ih ss (by simpa using h) _ h1
      refine ⟨h3, fun t ht => ?_⟩
      simp only [CascadeStages.filterD, List.mem_cons] at ht
      rcases ht with rfl | ht
      · exact h2
      · exact h4 _ ht

theorem filterD_stay [NanSticky S R] (bs : List (Biquad R)) (ss : List (S R))
    (h : PoisonedChain bs ss) (x : R) :
    isNan (CascadeStages.filterD bs ss x).1 = true ∧
      PoisonedChain bs (CascadeStages.filterD bs ss x).2 := by
  obtain ⟨h1, h2, h3⟩ := h
  cases bs with
  | nil => exact (h1 rfl).elim
  | cons b bs =>
    cases ss with
    | nil => simp at h2
    | cons s ss =>
      obtain ⟨e1, e2⟩ := NanSticky.stay x b s (h3 s (by simp))
      obtain ⟨e3, e4⟩ := filterD_enter bs ss (by simpa using h2) _ e1
      refine ⟨e3, h1, by rw [filterD_length, h2], fun t ht => ?_⟩
      simp only [CascadeStages.filterD, List.mem_cons] at ht
      rcases ht with rfl | ht
      · exact e2
      · exact e4 _ ht

/-! ## Statements -/

theorem feed_poisoned [NanSticky S R] (ys : List R) (f : PoleFilter S R)
    (h : PoisonedChain f.base.cascade.stages f.states) :
    ∃ vs f', feed (PoleFilter.filter (T := R)) ys f = (.ok vs, f') ∧ ∀ v ∈ vs, isNan v = true := by
  induction ys generalizing f with
  | nil => exact ⟨[], f, rfl, by simp⟩
  | cons y ys ih =>
    obtain ⟨h1, h2⟩ := filterD_stay _ _ h y
    obtain ⟨vs, f', h3, h4⟩ := ih { f with states := (CascadeStages.filterD f.base.cascade.stages f.states y).2 } h2
    refine ⟨(CascadeStages.filterD f.base.cascade.stages f.states y).1 :: vs, f', ?_, ?_⟩
    · simp [feed, Exec.bind_def, PoleFilter.filter, Exec.zoom, CascadeStages.filter, Sample.toR,
        Sample.ofR, h3]
    · simpa [h1] using h4

theorem filter_keeps (x : R) (f : PoleFilter S R) :
    (PoleFilter.filter (T := R) x f).2.base = f.base ∧
      (PoleFilter.filter (T := R) x f).2.states.length = f.states.length :=
  ⟨rfl, filterD_length _ _ _⟩

theorem feed_keeps (xs : List R) (f : PoleFilter S R) :
    (feed (PoleFilter.filter (T := R)) xs f).2.base = f.base ∧
      (feed (PoleFilter.filter (T := R)) xs f).2.states.length = f.states.length := by
  induction xs generalizing f with
  | nil => exact ⟨rfl, rfl⟩
  | cons x xs ih =>
    obtain ⟨y, f1, h1⟩ := PoleFilter.filter_double_ok x f
    obtain ⟨ys, f2, h2, _⟩ := feed_double_ok xs f1
    have e := filter_keeps x f
    rw [h1] at e
    have e2 := ih f1
    rw [h2] at e2
    simp only [feed, Exec.bind_def, h1, h2, Exec.pure_def]
    exact ⟨e2.1.trans e.1, e2.2.trans e.2⟩

/-- **C09**: once a NaN sample has been fed to an object (after any history, with at least one
section), the output for it and all later outputs are NaN, whatever the later samples `ys` are. -/
theorem C09_poisoned [NanPropagates R] [DelayLine R S] {c : Cls} {n : Nat} (hn1 : 1 ≤ n) (hn : n < 2 ^ 30)
    {f : PoleFilter S R} (h : Reach S R c n f) (xs ys : List R) (x : R) (hx : isNan x = true) :
    ∃ us vs f', feed (PoleFilter.filter (T := R)) (xs ++ x :: ys) f = (.ok (us ++ vs), f') ∧
      us.length = xs.length ∧ vs.length = ys.length + 1 ∧ ∀ v ∈ vs, isNan v = true := by
  have hlen : f.base.cascade.stages.length = f.states.length := C16_filter_in_bounds hn1 hn h
  have hne : f.base.cascade.stages ≠ [] := by
    rw [← List.length_pos_iff, hlen, h.states_length]
    unfold PoleFilter.numStages
    rw [Cls.maxDigital_eq]
    have : 1 ≤ c.mult := by cases c <;> simp [Cls.mult]
    have := Nat.mul_le_mul hn1 this
    omega
  obtain ⟨us, f1, h1, hus⟩ := feed_double_ok xs f
  have hk := feed_keeps xs f
  rw [h1] at hk
  obtain ⟨hb, hs⟩ := hk
  simp only at hb hs
  obtain ⟨e1, e2⟩ := filterD_enter f1.base.cascade.stages f1.states (by rw [hb, hs, hlen]) x hx
  obtain ⟨vs, f2, h2, hvs⟩ := feed_poisoned ys
    { f1 with states := (CascadeStages.filterD f1.base.cascade.stages f1.states x).2 }
    ⟨by rw [hb]; exact hne, by rw [filterD_length, hb, hs, hlen], e2⟩
  have h3 : feed (PoleFilter.filter (T := R)) (x :: ys) f1 =
      (.ok ((CascadeStages.filterD f1.base.cascade.stages f1.states x).1 :: vs), f2) := by
    simp [feed, Exec.bind_def, PoleFilter.filter, Exec.zoom, CascadeStages.filter, Sample.toR,
      Sample.ofR, h2]
  refine ⟨us, (CascadeStages.filterD f1.base.cascade.stages f1.states x).1 :: vs, f2, ?_, hus, ?_, ?_⟩
  · rw [feed_append]; simp [Exec.bind_def, h1, h3]
  · obtain ⟨ws, f3, h4, h5⟩ := feed_double_ok (x :: ys) f1
    rw [h3] at h4
    simp only [Prod.mk.injEq, Res.ok.injEq] at h4
    rw [h4.1, h5]; rfl
  · simpa [e1] using hvs

/-- **C09**: `reset ()` restores normal operation: whatever was fed before, the outputs after
`reset ()` are those the object gives when reset without having been fed anything. -/
theorem C09_reset [DelayLine R S] {c : Cls} {n : Nat} {f : PoleFilter S R} (h : Reach S R c n f)
    (xs zs : List R) :
    (feed (PoleFilter.filter (T := R)) zs
        (PoleFilter.reset (feed (PoleFilter.filter (T := R)) xs f).2).2).1 =
      (feed (PoleFilter.filter (T := R)) zs (PoleFilter.reset f).2).1 := by
  obtain ⟨hb, hs⟩ := feed_keeps xs f
  have : (PoleFilter.reset (feed (PoleFilter.filter (T := R)) xs f).2).2 = (PoleFilter.reset f).2 := by
    generalize (feed (PoleFilter.filter (T := R)) xs f).2 = g at hb hs
    cases g; cases f
    simp only at hb hs
    simp [PoleFilter.reset, reset_states, hb, hs]
  rw [this]

/-- **C09** for RBJ filters (one section, direct form I). -/
theorem C09_poisoned_rbj [NanPropagates R] (f : RBJ.Filter R) (x : R) (hx : isNan x = true)
    (ys : List R) :
    ∃ v vs f', feed (RBJ.Filter.filter (T := R)) (x :: ys) f = (.ok (v :: vs), f') ∧
      isNan v = true ∧ ∀ v ∈ vs, isNan v = true := by
  have key : ∀ (ys : List R) (f : RBJ.Filter R), isNan f.state.y1 = true →
      ∃ vs f', feed (RBJ.Filter.filter (T := R)) ys f = (.ok vs, f') ∧ ∀ v ∈ vs, isNan v = true := by
    intro ys
    induction ys with
    | nil => intro f _; exact ⟨[], f, rfl, by simp⟩
    | cons y ys ih =>
      intro f hf
      obtain ⟨h1, h2⟩ := NanSticky.stay (S := DirectFormI) y f.biquad f.state hf
      obtain ⟨vs, f', h3, h4⟩ := ih { f with state := (StateType.filter y f.biquad f.state).2 } h2
      refine ⟨(StateType.filter y f.biquad f.state).1 :: vs, f', ?_, List.forall_mem_cons.2 ⟨h1, h4⟩⟩
      have h5 : RBJ.Filter.filter (T := R) y f = (.ok (StateType.filter y f.biquad f.state).1,
        { f with state := (StateType.filter y f.biquad f.state).2 }) := rfl
      simp [feed, Exec.bind_def, h5, h3]
  obtain ⟨h1, h2⟩ := NanSticky.enter (S := DirectFormI) x f.biquad f.state hx
  obtain ⟨vs, f', h3, h4⟩ := key ys { f with state := (StateType.filter x f.biquad f.state).2 } h2
  refine ⟨(StateType.filter x f.biquad f.state).1, vs, f', ?_, h1, h4⟩
  have h5 : RBJ.Filter.filter (T := R) x f = (.ok (StateType.filter x f.biquad f.state).1,
    { f with state := (StateType.filter x f.biquad f.state).2 }) := rfl
  simp [feed, Exec.bind_def, h5, h3]

/-- a case: a new order 4 Butterworth object, two samples, a NaN, two more samples -/
example : ∃ (us vs : List XR) (f' : PoleFilter TransposedDirectFormII XR), feed (PoleFilter.filter (T := XR))
      ([XR.fin 1, XR.fin 2] ++ XR.nan :: [XR.fin 3, XR.fin 4])
      (PoleFilter.init TransposedDirectFormII .bwLowPass 4) = (.ok (us ++ vs), f') ∧
    us.length = 2 ∧ vs.length = 3 ∧ ∀ v ∈ vs, isNan v = true :=
  C09_poisoned (by norm_num) (by norm_num) .new _ _ _ XR.isNan_nan

end Iir
