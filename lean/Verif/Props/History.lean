import Verif.Lemmas.Result
import Verif.Lemmas.Poison

/-! # C12, C15, C19, C50: `setup` and the history of the object -/

set_option linter.unusedSectionVars false

namespace Iir
open Spec FArith Exec

variable {R : Type} [FArith R] {S : Type → Type} [StateType S R] {T : Type} [Sample T R]

theorem XR.isZero_iff {x : XR} : IsZero x ↔ x = XR.fin 0 := by
  unfold IsZero
  change XR.eq x (XR.fin ((0 : ℕ) : ℤ)) = true ↔ _
  cases x <;> simp [XR.eq]

/-- In exact arithmetic, values that compare equal are the same. -/
instance : SignedZeros XR where
  eq_or x y h := by
    left
    change XR.eq x y = true at h
    cases x <;> cases y <;> simp [XR.eq] at h <;> simp [h]
  neg x h := by rw [XR.isZero_iff] at *; simp [h]
  decibel x h := by rw [XR.isZero_iff] at *; simp [h]
  div20 x h := by rw [XR.isZero_iff] at *; simp [h, XR.fin_div]
  exp x y h h' := by rw [XR.isZero_iff] at *; rw [h, h']
  pow x y h h' := by rw [XR.isZero_iff] at *; rw [h, h']
  fabs x y h h' := by rw [XR.isZero_iff] at *; rw [h, h']
  lt x y h h' := by rw [XR.isZero_iff] at *; rw [h, h']
  le z x y h h' := by rw [XR.isZero_iff] at *; rw [h, h']
  sub x y h h' := by rw [XR.isZero_iff] at *; simp [h, h']
  sub_left x y z h h' _ := by rw [XR.isZero_iff] at h h'; rw [h, h']
  sub_right x y z h h' _ := by rw [XR.isZero_iff] at h h'; rw [h, h']

theorem PoleFilter.setup_apply (n : Nat) (call : Call R) (f : PoleFilter S R) :
    PoleFilter.setup n call f = ((call.run n f.base).1, { f with base := (call.run n f.base).2 }) := rfl

/-! ## C12 -/

section C12
variable {c : Cls} {n : Nat} {f : PoleFilter S R} {call : Call R}

theorem Call.run_fresh [SignedZeros R] (hn1 : 1 ≤ n) (hn : n < 1073741824) (h : Reach S T c n f)
    (hc : call.design.cls = c) (ho : call.order n ≠ -1)
    (hb : call.order n ≤ n → (call.normDesign.build (call.order n) (c.lay0 n)).1 = .ok ()) :
    (call.run n f.base).1 = (call.run n (PoleFilter.initBase c n)).1 ∧
      ((call.run n f.base).1 = .ok () →
        PFB.Agree (call.run n f.base).2 (call.run n (PoleFilter.initBase c n)).2) := by
  have hcls : call.normDesign.cls = c := call.normDesign_cls.trans hc
  rw [Call.run_eq, Call.run_eq]
  split_ifs with hgt
  · exact ⟨rfl, fun h => by simp at h⟩
  · have hok := h.ok hn1 hn
    have hcoh := h.coh hn1 hn
    subst hcls
    exact PFB.baseSetup_fresh hn1 hok hcoh ho (by omega) (hb (by omega))

/-- **C12**, main part: a call that succeeds on a newly constructed object succeeds on any object of
the class, whatever was done to it before, and leaves it with the same coefficients, response and
reported poles.  (Missing for full C12: calls that a new object rejects because the prototype has NaN
poles, see `C12_false`, and requested order -1.) -/
theorem C12_history_partial [SignedZeros R] (hn1 : 1 ≤ n) (hn : n < 2 ^ 30) (h : Reach S T c n f)
    (hc : call.design.cls = c) (ho : call.order n ≠ -1)
    (hok : (PoleFilter.setup n call (PoleFilter.init S c n)).1 = .ok ()) :
    (PoleFilter.setup n call f).1 = .ok () ∧
      SameConfig (PoleFilter.setup n call f).2
        (PoleFilter.setup n call (PoleFilter.init S c n)).2 := by
  have hcls : call.normDesign.cls = c := call.normDesign_cls.trans hc
  have hok' : (call.run n (PoleFilter.initBase c n)).1 = .ok () := hok
  have := Call.run_fresh hn1 hn h hc ho fun hle => by
    rw [Call.run_eq, if_neg (by omega)] at hok'
    subst hcls
    exact PFB.build_of_fresh ho hok'
  have h1 : (call.run n f.base).1 = .ok () := this.1.trans hok'
  exact ⟨h1, (this.2 h1).sameConfig⟩

/-- **C12**, rejected calls: what a new object rejects for another reason than an unusable
prototype, every object of the class rejects in the same way. -/
theorem C12_rejected_partial [SignedZeros R] (hn1 : 1 ≤ n) (hn : n < 2 ^ 30) (h : Reach S T c n f)
    (hc : call.design.cls = c) (ho : call.order n ≠ -1) (e : Err)
    (he : e ≠ .poleIsNaN ∧ e ≠ .zeroIsNaN ∧ e ≠ .singleNotReal ∧ e ≠ .cantAdd2ndOrder)
    (hthrow : (PoleFilter.setup n call (PoleFilter.init S c n)).1 = .throw e) :
    (PoleFilter.setup n call f).1 = .throw e := by
  have hcls : call.normDesign.cls = c := call.normDesign_cls.trans hc
  have hthrow' : (call.run n (PoleFilter.initBase c n)).1 = .throw e := hthrow
  refine (Call.run_fresh hn1 hn h hc ho fun hle => ?_).1.trans hthrow'
  rw [Call.run_eq, if_neg (by omega)] at hthrow'
  subst hcls
  exact PFB.build_of_fresh_throw ho (by unfold BuildErr; tauto) hthrow'

end C12

/-! ## C50 -/

/-- **C50**: repeating a successful `setup` changes nothing. -/
theorem C50_setup_twice {c : Cls} {n : Nat} (hn1 : 1 ≤ n) (hn : n < 2 ^ 30) {f f1 : PoleFilter S R}
    (h : Reach S T c n f) (call : Call R) (hc : call.design.cls = c)
    (h1 : PoleFilter.setup n call f = (.ok (), f1)) :
    ∃ f2, PoleFilter.setup n call f1 = (.ok (), f2) ∧ SameConfig f1 f2 ∧ f2.states = f1.states := by
  have hcls : call.normDesign.cls = c := call.normDesign_cls.trans hc
  have hrun : (call.run n f.base).1 = .ok () := congrArg (fun q => q.1) h1
  have hf1 : f1 = { f with base := (call.run n f.base).2 } := (congrArg (fun q => q.2) h1).symm
  rw [Call.run_eq] at hrun hf1
  by_cases hgt : call.order n > n
  · rw [if_pos hgt] at hrun; simp at hrun
  rw [if_neg hgt] at hrun hf1
  have hok := h.ok hn1 hn
  have hd : (call.normDesign.proto (call.order n) f.base.analog).1 = .ok () := by
    rw [PFB.baseSetup_proto] at hrun
    revert hrun
    rcases call.normDesign.proto (call.order n) f.base.analog with ⟨r, a⟩
    cases r <;> simp
  subst hcls
  have := PFB.baseSetup_twice hn1 hn (by omega) hok hd (by rw [hrun]; simp)
  have hrun2 : PoleFilter.setup n call f1 = (.ok (),
      { f1 with base := (call.normDesign.baseSetup (call.order n) f1.base).2 }) := by
    rw [PoleFilter.setup_apply, Call.run_eq, if_neg hgt]
    refine Prod.ext ?_ rfl
    rw [hf1]
    exact this.1.trans hrun
  refine ⟨_, hrun2, PFB.Agree.sameConfig ?_, rfl⟩
  rw [hf1]
  exact this.2 hrun

/-! ## C15 -/

/-- **C15**, main part: a `setup` rejected for any other reason than an unusable prototype is
rejected in the same way when it is retried.  (Missing for full C15: rejections of the prototype,
for which the claim is false, see `C15_false`.) -/
theorem C15_retry_partial {c : Cls} {n : Nat} (hn1 : 1 ≤ n) (hn : n < 2 ^ 30) {f f1 : PoleFilter S R}
    (h : Reach S T c n f) (call : Call R) (hc : call.design.cls = c) (e : Err)
    (he : e ≠ .poleIsNaN ∧ e ≠ .zeroIsNaN ∧ e ≠ .singleNotReal ∧ e ≠ .cantAdd2ndOrder)
    (h1 : PoleFilter.setup n call f = (.throw e, f1)) :
    (PoleFilter.setup n call f1).1 = .throw e := by
  have hcls : call.normDesign.cls = c := call.normDesign_cls.trans hc
  have hrun : (call.run n f.base).1 = .throw e := congrArg (fun q => q.1) h1
  have hf1 : f1 = { f with base := (call.run n f.base).2 } := (congrArg (fun q => q.2) h1).symm
  rw [Call.run_eq] at hrun hf1
  by_cases hgt : call.order n > n
  · rw [if_pos hgt] at hrun
    rw [PoleFilter.setup_apply, Call.run_eq, if_pos hgt]
    exact hrun
  rw [if_neg hgt] at hrun hf1
  have hok := h.ok hn1 hn
  have hd : (call.normDesign.proto (call.order n) f.base.analog).1 = .ok () := by
    rw [PFB.baseSetup_proto] at hrun
    cases hs : call.normDesign.stale (call.order n) f.base.analog with
    | false => rw [Design.proto_hit hs]
    | true =>
      rw [Design.proto_miss hs] at hrun ⊢
      have hbt := call.normDesign.build_throws (call.order n) f.base.analog.lay
      revert hrun hbt
      rcases call.normDesign.build (call.order n) f.base.analog.lay with ⟨r, a⟩
      cases r
      · intros; rfl
      · intro h2 h3
        simp only [Res.throw.injEq] at h2
        subst h2
        have := h3 _ rfl
        unfold BuildErr at this
        tauto
      · intro h2; simp at h2
  subst hcls
  have := PFB.baseSetup_twice hn1 hn (by omega) hok hd (by rw [hrun]; simp)
  rw [PoleFilter.setup_apply, Call.run_eq, if_neg hgt, hf1]
  exact this.1.trans hrun

/-! ## C19 -/

/-- The number of second order sections a filter of order `o` needs. -/
def Spec.sectionCount (o : Nat) : Cls → Nat
  | .bwBandPass | .bwBandStop | .bwBandShelf | .c1BandPass | .c1BandStop | .c1BandShelf
  | .c2BandPass | .c2BandStop | .c2BandShelf => o
  | .bwLowPass | .bwHighPass | .bwLowShelf | .bwHighShelf | .c1LowPass | .c1HighPass | .c1LowShelf
  | .c1HighShelf | .c2LowPass | .c2HighPass | .c2LowShelf | .c2HighShelf => (o + 1) / 2

theorem sectionCount_eq (o : Nat) (c : Cls) : Spec.sectionCount o c = (o * c.mult + 1) / 2 := by
  cases c <;> simp [Spec.sectionCount, Cls.mult] <;> omega

/-- **C19** for new objects: the numbers of stages and of reported pole/zero pairs. -/
theorem C19_counts_new {c : Cls} {n : Nat} (hn1 : 1 ≤ n) (hn : n < 2 ^ 30) (call : Call R)
    (hc : call.design.cls = c) (o : Nat) (ho : call.order n = o) {f1 : PoleFilter S R}
    (h1 : PoleFilter.setup n call (PoleFilter.init S c n) = (.ok (), f1)) :
    f1.getNumStages = Spec.sectionCount o c ∧
      ∃ ps, f1.getPoleZeros = .ok ps ∧ ps.length = Spec.sectionCount o c := by
  have hcls : call.normDesign.cls = c := call.normDesign_cls.trans hc
  have hrun : (call.run n (PoleFilter.initBase c n)).1 = .ok () := congrArg (fun q => q.1) h1
  have hf1 : f1 = { (PoleFilter.init S c n) with base := (call.run n (PoleFilter.initBase c n)).2 } :=
    (congrArg (fun q => q.2) h1).symm
  rw [Call.run_eq] at hrun hf1
  by_cases hgt : call.order n > n
  · rw [if_pos hgt] at hrun; simp at hrun
  rw [if_neg hgt] at hrun hf1
  subst hcls
  obtain ⟨ps, qs, b0, g, w, gn, e1, e2, e3, -⟩ := PFB.baseSetup_result hn1 hn (by omega)
    (PFB.ok_init call.normDesign.cls n) (Prod.ext hrun rfl)
  have hk : (call.normDesign.baseSetup (call.order n)
      (PoleFilter.initBase call.normDesign.cls n)).2.analog.lay.numPoles = o := by
    have hb := PFB.build_of_fresh (by omega) hrun
    have hbh := call.normDesign.build_has hn1 hn (by omega) (Cls.lay0_atMost _ n) hb
    rw [PFB.baseSetup_proto] at hrun ⊢
    cases hs : call.normDesign.stale (call.order n) (PoleFilter.initBase call.normDesign.cls n : PFB R).analog with
    | false =>
      rw [Design.proto_hit hs]
      simp only [PFB.rest_analog]
      have := hbh.1
      rw [Design.fresh_hit (by omega) hs, ho, builtPoles_of_nonneg (by omega)] at this
      simpa [Cls.lay0] using this
    | true =>
      rw [Design.proto_miss hs]
      have e : call.normDesign.build (call.order n) (PoleFilter.initBase call.normDesign.cls n : PFB R).analog.lay =
        call.normDesign.build (call.order n) (call.normDesign.cls.lay0 n) := rfl
      rw [e, hb]
      simp only [PFB.rest_analog]
      rw [hbh.1, ho, builtPoles_of_nonneg (by omega)]
      simp
  rw [hk, ← sectionCount_eq] at e3
  rw [hf1]
  exact ⟨e2.trans e3, ps, e1, e3⟩

/-- **C19**, main part: after any history, if a new object accepts the arguments.  (Missing for full
C19: see `C19_false`.) -/
theorem C19_counts_partial [SignedZeros R] {c : Cls} {n : Nat} (hn1 : 1 ≤ n) (hn : n < 2 ^ 30)
    {f : PoleFilter S R} (h : Reach S T c n f) (call : Call R) (hc : call.design.cls = c) (o : Nat)
    (ho : call.order n = o)
    (hok : (PoleFilter.setup n call (PoleFilter.init S c n)).1 = .ok ()) :
    (PoleFilter.setup n call f).2.getNumStages = Spec.sectionCount o c ∧
      ∃ ps, (PoleFilter.setup n call f).2.getPoleZeros = .ok ps ∧
        ps.length = Spec.sectionCount o c := by
  have h1 := C19_counts_new hn1 hn call hc o ho (Prod.ext hok rfl :
    PoleFilter.setup n call (PoleFilter.init S c n) = (.ok (), _))
  have h2 := (C12_history_partial hn1 hn h hc (by omega) hok).2
  rw [h2.numStages, h2.poleZeros]
  exact h1

/-- **C19**, indexing: a stage index outside `0 … getNumStages () - 1` throws, an index inside
returns that section. -/
theorem C19_stage_index {c : Cls} {n : Nat} (hn1 : 1 ≤ n) (hn : n < 2 ^ 30)
    {f : PoleFilter S R} (h : Reach S T c n f) (i : Int) :
    (i < 0 ∨ (f.getNumStages : Int) ≤ i → f.getStage i = .throw .stageIndexOutOfBounds) ∧
    (0 ≤ i ∧ i < (f.getNumStages : Int) → ∃ b, f.getStage i = .ok b) := by
  have hok := h.ok hn1 hn
  unfold PoleFilter.getStage PoleFilter.getNumStages Cascade.getStage
  constructor
  · intro hi
    rw [if_pos (by simpa using hi)]
  · intro hi
    rw [if_neg (by simpa using hi), Cascade.stageAt_ok]
    · exact ⟨_, rfl⟩
    · have := hok.cascade.length
      have := hok.cascade.num
      omega

/-! ## The claims as stated are false: Chebyshev low pass with negative ripple -/

section witness
open XR

/-- `ChebyshevI::LowPass<1>::setupN (1/4, -1)` -/
noncomputable def Spec.badCall : Call XR := .setupN (.c1LowPass (fin (1 / 4)) (fin (-1)))

theorem badCall_first [StateType S XR] (f : PoleFilter S XR) (h : f.base = PoleFilter.initBase .c1LowPass 1) :
    PoleFilter.setup 1 Spec.badCall f = (.throw .poleIsNaN, { f with base := { f.base with
      analog := { f.base.analog with numPoles := 1, rippleDb := fin (-1) } } }) := by
  have hp : Design.proto 1 (.c1LowPass (fin (1 / 4)) (fin (-1))) f.base.analog = (.throw .poleIsNaN,
      { f.base.analog with numPoles := 1, rippleDb := fin (-1) }) := by
    rw [Design.proto_miss (by rw [h]; rfl), Design.build, ChebyshevI.build_negative_ripple, h]
    rfl
  rw [PoleFilter.setup_apply, Call.run_eq, if_neg (by decide)]
  simp only [Spec.badCall, Call.normDesign, Call.order, PFB.baseSetup_proto, Nat.cast_one, hp]

theorem badCall_second [StateType S XR] (f : PoleFilter S XR) (hok : f.base.Ok .c1LowPass 1)
    (h1 : f.base.analog.numPoles = 1) (h2 : f.base.analog.rippleDb = fin (-1))
    (h3 : f.base.analog.lay.numPoles = 0) (h4 : f.base.analog.lay.normalW = fin 0) :
    (PoleFilter.setup 1 Spec.badCall f).1 = .ok () ∧
      (PoleFilter.setup 1 Spec.badCall f).2.getNumStages = 0 := by
  have hp : Design.proto 1 (.c1LowPass (fin (1 / 4)) (fin (-1))) f.base.analog =
      (.ok (), f.base.analog) := by
    apply Design.proto_hit
    simp [Design.stale, h1, h2]
  have hn : (fin 0 : XR) / (2 * pi) = fin 0 := by
    simp only [lit_ofNat, pi_eq, fin_mul]
    rw [fin_div _ (by have := Real.pi_pos; positivity)]
    simp
  rw [PoleFilter.setup_apply, Call.run_eq, if_neg (by decide)]
  simp only [Spec.badCall, Call.normDesign, Call.order, PFB.baseSetup_proto, Nat.cast_one, hp,
    PFB.rest_apply, Design.trans]
  rw [lowPassTransform_empty (by norm_num) (by norm_num) h3]
  simp only
  rw [setLayout_empty hok.cascade rfl (by simp only [h4, hn, lit_sci, flt_fin]; norm_num)
    (by simp only [h4, hn, lit_zero, flt_fin, lt_self_iff_false, decide_false])]
  exact ⟨rfl, rfl⟩

/-- The bad call throws on a new object and succeeds when retried, without any stage. -/
theorem badCall_retry (S : Type → Type) [StateType S XR] :
    (PoleFilter.setup 1 Spec.badCall (PoleFilter.init S .c1LowPass 1)).1 = .throw .poleIsNaN ∧
    (PoleFilter.setup 1 Spec.badCall
      (PoleFilter.setup 1 Spec.badCall (PoleFilter.init S .c1LowPass 1)).2).1 = .ok () ∧
    (PoleFilter.setup 1 Spec.badCall
      (PoleFilter.setup 1 Spec.badCall (PoleFilter.init S .c1LowPass 1)).2).2.getNumStages = 0 := by
  rw [badCall_first (PoleFilter.init S .c1LowPass 1) rfl]
  refine ⟨rfl, badCall_second _ ?_ rfl rfl rfl lit_zero⟩
  have := PFB.ok_init (R := XR) .c1LowPass 1
  exact ⟨this.cascade, this.digital, this.analog⟩

theorem badCall_reach (S : Type → Type) [StateType S XR] :
    Reach S XR .c1LowPass 1 (PoleFilter.setup 1 Spec.badCall (PoleFilter.init S .c1LowPass 1)).2 :=
  .call _ _ (.setup Spec.badCall) (.throw .poleIsNaN) .new rfl
    (Prod.ext (badCall_retry S).1 rfl) (by simp)

/-- **C12 as stated is false**: on an object with a history `setup` succeeds (silently giving a
filter without any stage) where the same call on a new object throws. -/
theorem C12_false (S : Type → Type) [StateType S XR] :
    ∃ (f : PoleFilter S XR) (call : Call XR), Reach S XR .c1LowPass 1 f ∧
      call.design.cls = .c1LowPass ∧ (PoleFilter.setup 1 call f).1 = .ok () ∧
      (PoleFilter.setup 1 call (PoleFilter.init S .c1LowPass 1)).1 = .throw .poleIsNaN :=
  ⟨_, Spec.badCall, badCall_reach S, rfl, (badCall_retry S).2.1, (badCall_retry S).1⟩

/-- **C15 as stated is false**: a rejected `setup` succeeds when it is retried. -/
theorem C15_false (S : Type → Type) [StateType S XR] :
    ∃ (call : Call XR) (f1 : PoleFilter S XR), call.design.cls = .c1LowPass ∧
      PoleFilter.setup 1 call (PoleFilter.init S .c1LowPass 1) = (.throw .poleIsNaN, f1) ∧
      (PoleFilter.setup 1 call f1).1 = .ok () :=
  ⟨Spec.badCall, _, rfl, Prod.ext (badCall_retry S).1 rfl, (badCall_retry S).2.1⟩

/-- **C19 as stated is false**: a successful `setup` of order 1 that leaves no stage. -/
theorem C19_false (S : Type → Type) [StateType S XR] :
    ∃ (f : PoleFilter S XR) (call : Call XR), Reach S XR .c1LowPass 1 f ∧ call.order 1 = 1 ∧
      (PoleFilter.setup 1 call f).1 = .ok () ∧
      (PoleFilter.setup 1 call f).2.getNumStages ≠ Spec.sectionCount 1 .c1LowPass :=
  ⟨_, Spec.badCall, badCall_reach S, rfl, (badCall_retry S).2.1, by
    rw [(badCall_retry S).2.2]; decide⟩

end witness

end Iir
