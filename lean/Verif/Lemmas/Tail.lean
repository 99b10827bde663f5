import Verif.Lemmas.SetLayout
import Verif.Props.Setup

/-! # Sections beyond `getNumStages ()` are pass-through -/

set_option linter.unusedSectionVars false

namespace Iir
open FArith Cx Exec Spec

variable {R : Type} [FArith R] {S : Type → Type} [StateType S R] {T : Type} [Sample T R]

/-- A section as constructed or as `setIdentity` leaves it. -/
def Biquad.Unused (b : Biquad R) : Prop := b = .default ∨ Biquad.identR = .ok b

/-- All sections from `numStages` on are pass-through. -/
def Cascade.Tail (c : Cascade R) : Prop :=
  ∀ i b, c.numStages ≤ i → c.stages[i]? = some b → b.Unused

theorem Cascade.placePairs_drop (ps : List (PoleZeroPair R)) (bs : List (Biquad R)) (i : Nat)
    (h : ps.length ≤ i) : (placePairs ps bs).2[i]? = bs[i]? := by
  induction ps generalizing bs i with
  | nil => cases bs <;> rfl
  | cons p ps ih =>
    cases bs with
    | nil => rfl
    | cons b bs =>
      cases i with
      | zero => simp at h
      | succ i =>
        rw [placePairs]
        cases Biquad.pairR p
        · simp only [List.length_cons, Nat.add_le_add_iff_right] at h
          simp [ih bs i h]
        · rfl
        · rfl

theorem Cascade.finish_tail {w g : R} {c : Cascade R} (h : c.Tail) : (finish w g c).2.Tail := by
  unfold finish
  cases c.response (w / (2 * pi))
  · simp only
    split_ifs with hk
    · exact h
    · intro i b hi hb
      simp only at hi
      have h0 : i ≠ 0 := by omega
      simp only [List.getElem?_modify, if_neg (Ne.symm h0)] at hb
      exact h i b hi (by simpa using hb)
  · exact h
  · exact h

theorem Cascade.setLayout_tail {l : Layout R} {c : Cascade R} {M : Nat} (hc : c.Ok M)
    {b0 : Biquad R} (h0 : Biquad.identR = .ok b0) (hl : (l.numPoles + 1) / 2 ≤ l.pairs.length)
    (hM : (l.numPoles + 1) / 2 ≤ M) : (setLayout l c).2.Tail := by
  rw [setLayout_eq hc h0 hl hM]
  have key : Cascade.Tail ({ numStages := (l.numPoles + 1) / 2, maxStages := M, stages :=
      (placePairs (l.pairs.take ((l.numPoles + 1) / 2)) (List.replicate M b0)).2 } : Cascade R) := by
    intro i b hi hb
    simp only at hi hb
    rw [placePairs_drop _ _ _ (by rw [List.length_take]; omega), List.getElem?_replicate] at hb
    split_ifs at hb
    · right; rw [h0]; simpa using hb
  simp only
  cases (placePairs (l.pairs.take ((l.numPoles + 1) / 2)) (List.replicate M b0)).1
  · exact finish_tail key
  · exact key
  · exact key

/-- A property of cascades that `setLayout` establishes is kept by every `setup`. -/
theorem PFB.trip_baseSetup_keep {n : Nat} {o : Int} (hn1 : 1 ≤ n) (hn : n < 1073741824) (ho : o ≤ n)
    (d : Design R) {K : Cascade R → Prop}
    (hK : ∀ (l : Layout R) (c : Cascade R), (l.numPoles + 1) / 2 ≤ l.pairs.length →
      (l.numPoles + 1) / 2 ≤ PoleFilter.numStages d.cls n → c.Ok (PoleFilter.numStages d.cls n) →
      K (Cascade.setLayout l c).2) :
    Trip (fun p => PFB.Ok d.cls n p ∧ K p.cascade) (d.baseSetup o)
      (fun _ p => PFB.Ok d.cls n p ∧ K p.cascade) (fun _ p => PFB.Ok d.cls n p ∧ K p.cascade)
      (DesignUB (Spec.PolarModulus o d) o) := by
  rw [Design.baseSetup_eq]
  unfold PFB.designWith
  refine Trip.bind (Trip.zoom (Proto.trip_cached (d.good_build hn1 hn ho) (d.setKey_lay o)
    (builtPoles_le ho hn1)) (P' := fun p => PFB.Ok d.cls n p ∧ K p.cascade)
    (Q' := fun _ p => PFB.Ok d.cls n p ∧ K p.cascade)
    (fun s h => h.1.analog) (fun s _ t h ht => ⟨⟨h.1.cascade, h.1.digital, ht⟩, h.2⟩)
    (fun s _ t h ht => ⟨⟨h.1.cascade, h.1.digital, ht⟩, h.2⟩)) fun _ => ?_
  refine Trip.bind (Q := fun s0 s => (s0.Ok d.cls n ∧ K s0.cascade) ∧ s.Ok d.cls n ∧ K s.cascade)
    (Trip.get fun _ h => ⟨h, h⟩) fun s0 => ?_
  by_cases h0 : s0.Ok d.cls n
  swap
  · exact fun s hs => (h0 hs.1.1).elim
  refine Trip.pre (P := fun p => PFB.Ok d.cls n p ∧ K p.cascade) ?_ fun _ h => h.2
  refine Trip.bind (Q := fun _ p => PFB.Ok d.cls n p ∧ K p.cascade)
    (Trip.zoom (d.trip_trans h0.analog (Nat.le_refl _))
    (fun s h => h.1.digital)
    (fun s _ t h ht => ⟨⟨h.1.cascade, ht.atMost ?_, h.1.analog⟩, h.2⟩)
    (fun s _ t h ht => ⟨⟨h.1.cascade, ht, h.1.analog⟩, h.2⟩)) fun _ => ?_
  · rw [Cls.maxDigital_eq]; exact Nat.mul_le_mul_right _ h0.analog.1
  refine Trip.bind (Q := fun s0 s => (s0.Ok d.cls n ∧ K s0.cascade) ∧ s.Ok d.cls n ∧ K s.cascade)
    (Trip.get fun _ h => ⟨h, h⟩) fun s1 => ?_
  by_cases h1 : s1.Ok d.cls n
  swap
  · exact fun s hs => (h1 hs.1.1).elim
  refine Trip.pre (P := fun p => PFB.Ok d.cls n p ∧ K p.cascade) ?_ fun _ h => h.2
  have hle : (s1.digital.numPoles + 1) / 2 ≤ PoleFilter.numStages d.cls n := by
    have := h1.digital.1
    unfold PoleFilter.numStages; omega
  have hlen : (s1.digital.numPoles + 1) / 2 ≤ s1.digital.pairs.length := by
    have := h1.digital.1; have := h1.digital.2; omega
  have hset : Trip (Cascade.Ok (PoleFilter.numStages d.cls n)) (Cascade.setLayout s1.digital)
      (fun _ c => Cascade.OkAt (PoleFilter.numStages d.cls n) ((s1.digital.numPoles + 1) / 2) c ∧ K c)
      (fun _ c => Cascade.OkAt (PoleFilter.numStages d.cls n) ((s1.digital.numPoles + 1) / 2) c ∧ K c)
      (DesignUB (Spec.PolarModulus o d) o) := by
    intro c hc
    have a1 := Cascade.trip_setLayout (A := Spec.PolarModulus o d) (.one o d) (o := o) h1.digital rfl c hc
    have a2 := hK s1.digital c hlen hle hc
    revert a1 a2
    rcases Cascade.setLayout s1.digital c with ⟨r, c'⟩
    cases r
    · exact fun a1 a2 => ⟨a1, a2⟩
    · exact fun a1 a2 => ⟨a1, a2⟩
    · exact fun a1 _ => a1
  exact Trip.zoom hset (fun s h => h.1.cascade)
    (fun s _ t h ht =>
      ⟨⟨⟨ht.1.maxStages, ht.1.length, ht.1.num ▸ hle⟩, h.1.digital, h.1.analog⟩, ht.2⟩)
    (fun s _ t h ht =>
      ⟨⟨⟨ht.1.maxStages, ht.1.length, ht.1.num ▸ hle⟩, h.1.digital, h.1.analog⟩, ht.2⟩)

theorem Call.trip_run_keep {n : Nat} (hn1 : 1 ≤ n) (hn : n < 1073741824) (call : Call R)
    {K : Cascade R → Prop}
    (hK : ∀ (l : Layout R) (c : Cascade R), (l.numPoles + 1) / 2 ≤ l.pairs.length →
      (l.numPoles + 1) / 2 ≤ PoleFilter.numStages call.design.cls n →
      c.Ok (PoleFilter.numStages call.design.cls n) → K (Cascade.setLayout l c).2) :
    Trip (fun p => PFB.Ok call.design.cls n p ∧ K p.cascade) (call.run n)
      (fun _ p => PFB.Ok call.design.cls n p ∧ K p.cascade)
      (fun _ p => PFB.Ok call.design.cls n p ∧ K p.cascade) (DesignUB (Spec.PolarModulus (call.order n) call.design) (call.order n)) := by
  cases call with
  | setup fs d =>
    have := PFB.trip_baseSetup_keep (o := n) hn1 hn (Int.le_refl _) (d.overFs fs) (K := K)
      (by rw [Design.overFs_cls]; exact hK)
    rwa [Design.overFs_cls, Spec.PolarModulus.overFs] at this
  | setupN d => exact PFB.trip_baseSetup_keep (o := n) hn1 hn (Int.le_refl _) d hK
  | setupReq o fs d =>
    unfold Call.run
    by_cases ho : o > (n : Int)
    · refine Trip.bind (Q := fun _ _ => False) (Trip.throwIf (fun s h _ => h) fun s h hb => ?_)
        fun _ s h => h.elim
      simp [ho] at hb
    · have := PFB.trip_baseSetup_keep (o := o) hn1 hn (by omega) (d.overFs fs) (K := K)
        (by rw [Design.overFs_cls]; exact hK)
      rw [Design.overFs_cls, Spec.PolarModulus.overFs] at this
      exact Trip.bind (Trip.throwIf (fun s h _ => h) fun s h _ => h) fun _ => this
  | setupNReq o d =>
    unfold Call.run
    by_cases ho : o > (n : Int)
    · refine Trip.bind (Q := fun _ _ => False) (Trip.throwIf (fun s h _ => h) fun s h hb => ?_)
        fun _ s h => h.elim
      simp [ho] at hb
    · have := PFB.trip_baseSetup_keep (o := o) hn1 hn (by omega) d hK
      exact Trip.bind (Trip.throwIf (fun s h _ => h) fun s h _ => h) fun _ => this

theorem Cascade.applyScale_tail {c : Cascade R} (h : c.Tail) (k : R) : (applyScale k c).2.Tail := by
  unfold applyScale
  simp only [bind_def, get_def]
  split_ifs with hk
  · exact h
  · cases hs : c.stages with
    | nil =>
      simp only [onStage, hs, List.getElem?_nil]
      exact h
    | cons b0 bs =>
      intro i b hi hb
      simp only [onStage, hs, List.getElem?_cons_zero, List.set_cons_zero] at hi hb
      cases i with
      | zero => omega
      | succ i =>
        rw [List.getElem?_cons_succ] at hb
        exact h (i + 1) b hi (by rw [hs, List.getElem?_cons_succ]; exact hb)

/-- In every reachable state the sections beyond `getNumStages ()` are pass-through. -/
theorem Spec.Reach.tail {c : Cls} {n : Nat} (hn1 : 1 ≤ n) (hn : n < 1073741824)
    (h0 : ∃ b0 : Biquad R, Biquad.identR = .ok b0) {f : PoleFilter S R} (h : Reach S T c n f) :
    f.base.cascade.Tail := by
  obtain ⟨b0, h0⟩ := h0
  induction h with
  | new =>
    intro i b _ hb
    simp only [PoleFilter.init, PoleFilter.initBase, CascadeStages.initStages,
      List.getElem?_replicate] at hb
    split_ifs at hb
    left; simpa using hb.symm
  | call f f' op r hf hop he hr ih =>
    cases op with
    | filter x =>
      have := processing_base n (.filter x : Op T R) trivial f
      rw [he] at this; simp only at this; rw [this]; exact ih
    | reset =>
      have := processing_base n (.reset : Op T R) trivial f
      rw [he] at this; simp only at this; rw [this]; exact ih
    | scale k =>
      have := Cascade.applyScale_tail ih k
      have e : (Op.exec n (.scale k : Op T R) f).2.base.cascade = (Cascade.applyScale k f.base.cascade).2 := rfl
      rw [he] at e; rw [e]; exact this
    | setup call =>
      have hc : call.design.cls = c := hop
      subst hc
      have := Call.trip_run_keep hn1 hn call (K := Cascade.Tail)
        (fun l c h1 h2 h3 => Cascade.setLayout_tail h3 h0 h1 h2) f.base ⟨hf.ok hn1 hn, ih⟩
      have e : Op.exec n (.setup call : Op T R) f = ((call.run n f.base).1, { f with base := (call.run n f.base).2 }) := rfl
      rw [he] at e
      revert this e
      rcases call.run n f.base with ⟨r', p⟩
      intro this e
      simp only [Prod.mk.injEq] at e
      obtain ⟨rfl, rfl⟩ := e
      cases r
      · exact this.2
      · exact this.2
      · exact (hr _ rfl).elim

end Iir
