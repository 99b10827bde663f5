import Verif.Props.HistoryExact
import Verif.Props.Template
import Verif.Props.Reported
import Verif.Props.BaseSetup
import Verif.Props.Inherited

/-! # Cases that meet the hypotheses of C12, C15, C18, C19, C47, C50, C74 and C75

These theorems are about any arithmetic, or were proved before it was known which calls succeed.  The cases below are in
exact arithmetic, where C30 and C36 say that the calls succeed. -/

set_option linter.unusedSectionVars false

namespace Iir
open FArith XR Spec Exec

variable {S : Type → Type} [StateType S XR] [DelayLine XR S] {T : Type} [Sample T XR]

/-- a low pass at an eighth of the sampling rate, order 3 -/
noncomputable def caseCall : Call XR := .setupNReq 3 (.bwLowPass (fin (1 / 8)))

/-- the call succeeds on every object -/
theorem caseCall_ok {n : ℕ} (h3 : 3 ≤ n) (hn : n < 2 ^ 30) {f : PoleFilter S XR} (h : Reach S T .bwLowPass n f) :
    ∃ f', PoleFilter.setup n caseCall f = (.ok (), f') := by
  obtain ⟨f', h1, -⟩ := C30_lowpass (S := S) (T := T) (call := caseCall) (n := n) (o := 3) (fc := 1 / 8)
    ⟨rfl, rfl, by norm_num, h3, hn⟩ (by norm_num) (by norm_num) f h
  exact ⟨f', h1⟩

theorem caseCall_new {n : ℕ} (h3 : 3 ≤ n) (hn : n < 2 ^ 30) :
    (PoleFilter.setup n caseCall (PoleFilter.init S .bwLowPass n)).1 = .ok () := by
  obtain ⟨f', h⟩ := caseCall_ok (T := XR) h3 hn (.new : Reach S XR .bwLowPass n _)
  rw [h]

/-- an object that was set up as a low pass of order 2, rejected a call, and was reset -/
theorem caseHistory : ∃ f : PoleFilter S XR, Reach S T .bwLowPass 4 f ∧ f.getNumStages = 1 := by
  obtain ⟨f1, h1, -⟩ := C30_lowpass (S := S) (T := T) (call := .setupNReq 2 (.bwLowPass (fin (1 / 4)))) (n := 4) (o := 2)
    (fc := 1 / 4) ⟨rfl, rfl, by norm_num, by norm_num, by norm_num⟩ (by norm_num) (by norm_num) _ .new
  have r1 : Reach S T .bwLowPass 4 f1 :=
    .call _ _ (.setup (.setupNReq 2 (.bwLowPass (fin (1 / 4))))) (.ok ()) .new rfl h1 (by simp)
  have n1 := (C19_counts_new (by norm_num) (by norm_num) (.setupNReq 2 (.bwLowPass (fin (1 / 4)))) rfl 2 rfl h1).1
  refine ⟨(PoleFilter.reset f1).2, .call _ _ .reset (.ok ()) (.call _ _
    (.setup (.setupNReq 5 (.bwLowPass (fin (1 / 8))))) (.throw .orderTooHigh) r1 rfl
      (C14_order_too_high _ _ (by decide) _) (by simp)) trivial rfl (by simp), ?_⟩
  show f1.getNumStages = 1
  rw [n1]; rfl

/-- C12, C19: the call makes of that object what it makes of a new one, with two sections -/
example : ∃ f : PoleFilter S XR, f.getNumStages = 1 ∧ (PoleFilter.setup 4 caseCall f).1 = .ok () ∧
    SameConfig (PoleFilter.setup 4 caseCall f).2 (PoleFilter.setup 4 caseCall (PoleFilter.init S .bwLowPass 4)).2 ∧
    (PoleFilter.setup 4 caseCall f).2.getNumStages = 2 := by
  obtain ⟨f, h, h1⟩ := caseHistory (S := S) (T := XR)
  have ok := caseCall_new (S := S) (n := 4) (by norm_num) (by norm_num)
  obtain ⟨h2, h3⟩ := C12_history_partial (call := caseCall) (by norm_num) (by norm_num) h rfl (by decide) ok
  exact ⟨f, h1, h2, h3, (C19_counts_partial (by norm_num) (by norm_num) h caseCall rfl 3 rfl ok).1⟩

/-- C19: its second section can be read, a third not -/
example : ∃ f : PoleFilter S XR, (∃ b, f.getStage 1 = .ok b) ∧ f.getStage 2 = .throw .stageIndexOutOfBounds := by
  obtain ⟨f', h1⟩ := caseCall_ok (T := XR) (n := 4) (by norm_num) (by norm_num) (.new : Reach S XR .bwLowPass 4 _)
  have hr : Reach S XR .bwLowPass 4 f' := .call _ _ (.setup caseCall) (.ok ()) .new rfl h1 (by simp)
  have n1 : f'.getNumStages = 2 := (C19_counts_new (by norm_num) (by norm_num) caseCall rfl 3 rfl h1).1
  exact ⟨f', (C19_stage_index (by norm_num) (by norm_num) hr 1).2 ⟨by norm_num, by rw [n1]; norm_num⟩,
    (C19_stage_index (by norm_num) (by norm_num) hr 2).1 (.inr (by rw [n1]; norm_num))⟩

/-- C12, C15: an order that is too high is rejected whatever the history, and again when the call is repeated -/
example : ∃ f : PoleFilter S XR, f.getNumStages = 1 ∧
    (PoleFilter.setup 4 (.setupNReq 5 (.bwLowPass (fin (1 / 8)))) f).1 = .throw .orderTooHigh ∧
    (PoleFilter.setup 4 (.setupNReq 5 (.bwLowPass (fin (1 / 8))))
      (PoleFilter.setup 4 (.setupNReq 5 (.bwLowPass (fin (1 / 8)))) f).2).1 = .throw .orderTooHigh := by
  obtain ⟨f, h, h1⟩ := caseHistory (S := S) (T := XR)
  have hnew : PoleFilter.setup 4 (.setupNReq 5 (.bwLowPass (fin (1 / 8)))) (PoleFilter.init S .bwLowPass 4) =
      (.throw .orderTooHigh, PoleFilter.init S .bwLowPass 4) := C14_order_too_high _ _ (by decide) _
  have h2 := C12_rejected_partial (call := .setupNReq 5 (.bwLowPass (fin (1 / 8)))) (by norm_num) (by norm_num) h rfl
    (by decide) .orderTooHigh (by simp) (by rw [hnew])
  exact ⟨f, h1, h2, C15_retry_partial (by norm_num) (by norm_num) h _ rfl .orderTooHigh (by simp) (Prod.ext h2 rfl)⟩

/-- C50: the second call changes nothing -/
example : ∃ f1 f2 : PoleFilter S XR, PoleFilter.setup 4 caseCall f1 = (.ok (), f2) ∧ SameConfig f1 f2 ∧ f1.getNumStages = 2 := by
  obtain ⟨f, h, -⟩ := caseHistory (S := S) (T := XR)
  obtain ⟨f1, h1⟩ := caseCall_ok (n := 4) (by norm_num) (by norm_num) h
  obtain ⟨f2, h2, h3, -⟩ := C50_setup_twice (by norm_num) (by norm_num) h caseCall rfl h1
  have n1 := (C19_counts_partial (by norm_num) (by norm_num) h caseCall rfl 3 rfl
    (caseCall_new (by norm_num) (by norm_num))).1
  rw [h1] at n1
  exact ⟨f1, f2, h2, h3, n1⟩

/-- C18: order 3 in `LowPass<3>` and in `LowPass<9>`; the longer filter returns the same samples -/
example (x y : ℕ → ℝ) (hy : Produces (PoleFilter.filter (T := XR))
      (PoleFilter.reset (PoleFilter.setup 3 caseCall (PoleFilter.init S .bwLowPass 3)).2).2 x y) :
    SameButLonger (PoleFilter.setup 3 caseCall (PoleFilter.init S .bwLowPass 3)).2
      (PoleFilter.setup 9 caseCall (PoleFilter.init S .bwLowPass 9)).2 ∧
    Produces (PoleFilter.filter (T := XR))
      (PoleFilter.reset (PoleFilter.setup 9 caseCall (PoleFilter.init S .bwLowPass 9)).2).2 x y := by
  have ok := caseCall_new (S := S) (n := 3) le_rfl (by norm_num)
  exact ⟨(C18_template (T := XR) (by norm_num) (by norm_num : 3 ≤ 9) (by norm_num) (.bwLowPass (fin (1 / 8))) 3 (by norm_num)
    (by norm_num) .new .new ok).2.2, C18_same_output (T := XR) (by norm_num) (by norm_num : 3 ≤ 9) (by norm_num)
      (.bwLowPass (fin (1 / 8))) 3 (by norm_num) (by norm_num) .new .new ok x y hy⟩

/-- C47: two pairs are reported -/
example : ∃ (f1 : PoleFilter S XR) (ps : List (PoleZeroPair XR)), f1.getPoleZeros = .ok ps ∧ ps.length = 2 ∧
    ∀ (i : Nat) (p1 p2 z1 z2 : ℂ), ps[i]? = some ⟨⟨ofC p1, ofC p2⟩, ⟨ofC z1, ofC z2⟩⟩ → Matched p1 p2 ∧ Matched z1 z2 ∧
      ∃ b g, f1.getStage i = .ok b ∧ (i ≠ 0 → g = fin 1) ∧ HasPolesZeros b p1 p2 z1 z2 g := by
  obtain ⟨f, h, -⟩ := caseHistory (S := S) (T := XR)
  obtain ⟨f1, h1⟩ := caseCall_ok (n := 4) (by norm_num) (by norm_num) h
  obtain ⟨ps, h2, h3, h4⟩ := C47_reported (by norm_num) (by norm_num) h caseCall rfl h1
  have n1 := (C19_counts_partial (by norm_num) (by norm_num) h caseCall rfl 3 rfl
    (caseCall_new (by norm_num) (by norm_num))).1
  rw [h1] at n1
  exact ⟨f1, ps, h2, h3.trans n1, h4⟩

/-- C74: order 3 through the base class writes outside the arrays of `LowPass<2>` (which hold one pair) -/
example {f : PoleFilter S XR} (h : Reach S T .bwLowPass 2 f) :
    (PoleFilter.baseSetup 3 (.bwLowPass (fin (1 / 8))) f).1 = .ub .outOfBounds :=
  C74_out_of_bounds (d := .bwLowPass (fin (1 / 8))) (o := 3) (N := 3) (by norm_num) (by norm_num) h (by norm_num) le_rfl
    (caseCall_new le_rfl (by norm_num))

/-- C74: order 3 through the base class of `LowPass<4>` -/
example (f : PoleFilter S XR) : PoleFilter.baseSetup 3 (.bwLowPass (fin (1 / 8))) f = PoleFilter.setup 4 caseCall f :=
  C74_same_as_setupN (n := 4) (by norm_num) _ f

/-- C75: one row installed in `LowPass<2>`, then filtered like an SOS object with that row; the reported count stays 1 -/
example (xs : List XR) : ∃ f : PoleFilter S XR, f.getNumStages = 1 ∧
    (PoleFilter.sosSetup [⟨fin 1, fin 2, fin 0, fin 1, fin 0, fin 0⟩] f).2.getNumStages = 1 ∧
    (feed PoleFilter.filter xs (PoleFilter.sosSetup [⟨fin 1, fin 2, fin 0, fin 1, fin 0, fin 0⟩] f).2).1 =
      (feed Custom.SOS.filter xs (Custom.SOS.setup [⟨fin 1, fin 2, fin 0, fin 1, fin 0, fin 0⟩]
        ⟨f.base.cascade.stages, f.states⟩).2).1 := by
  obtain ⟨f, h, h1⟩ := caseHistory (S := S) (T := XR)
  exact ⟨f, h1, (C75_reports_stay _ f).1.trans h1, (C75_filters_like_sos _ f xs).2⟩

end Iir
