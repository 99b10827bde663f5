import Verif.Props.History
import Verif.Props.OddBands

/-! # C12, C15, C19 in exact arithmetic

`Props/History.lean` shows, in any arithmetic, that only a call whose prototype cannot be built can depend on the
history.  In exact arithmetic that excludes no reasonable call: the prototype is built whenever the ripple is positive
(for Chebyshev shelves: and below the gain) and the gain is a number. -/

set_option linter.unusedSectionVars false

namespace Iir
open Spec XR FArith Exec

/-- The gain is a number, the ripple (stop band rejection) a positive number, for Chebyshev shelves below `|gain|`.
Nothing is required of the frequencies. -/
def Spec.GoodProto : Design XR → Prop
  | .bwLowPass _ | .bwHighPass _ | .bwBandPass _ _ | .bwBandStop _ _ => True
  | .bwLowShelf _ g | .bwHighShelf _ g | .bwBandShelf _ _ g => ∃ G : ℝ, g = fin G
  | .c1LowPass _ r | .c1HighPass _ r | .c1BandPass _ _ r | .c1BandStop _ _ r
  | .c2LowPass _ r | .c2HighPass _ r | .c2BandPass _ _ r | .c2BandStop _ _ r => ∃ ρ : ℝ, r = fin ρ ∧ 0 < ρ
  | .c1LowShelf _ g r | .c1HighShelf _ g r | .c1BandShelf _ _ g r
  | .c2LowShelf _ g r | .c2HighShelf _ g r | .c2BandShelf _ _ g r =>
    ∃ G ρ : ℝ, g = fin G ∧ r = fin ρ ∧ 0 < ρ ∧ ρ < |G|

theorem Spec.GoodProto.norm {call : Call XR} (h : GoodProto call.design) : GoodProto call.normDesign := by
  cases call with
  | setupN d => exact h
  | setupNReq o d => exact h
  | setup fs d => cases d <;> exact h
  | setupReq o fs d => cases d <;> exact h

section even
variable {R : Type} [FArith R]

/-- With an even order that is not positive every prototype is built, without poles. -/
theorem Design.build_even (d : Design R) {o : ℤ} (h0 : o ≤ 0) (hl : -1073741824 ≤ o) (he : o % 2 = 0) (l : Layout R) :
    (d.build o l).1 = .ok () ∧ (d.build o l).2.numPoles = 0 ∧ (d.build o l).2.pairs = l.pairs ∧
      (d.cls.c1lp = false → (d.build o l).2.normalW = l.normalW ∧ (d.build o l).2.normalGain = l.normalGain) ∧
      (d.cls.c1lp = true → (d.build o l).2.normalW = 0) := by
  have h1 : (o.tdiv 2).toNat = 0 := by
    have : o.tdiv 2 ≤ 0 := by
      rcases Int.eq_nat_or_neg o with ⟨k, rfl | rfl⟩
      · have : k = 0 := by omega
        subst this; simp
      · rw [Int.neg_tdiv]
        have : 0 ≤ (k : ℤ).tdiv 2 := Int.tdiv_nonneg (by omega) (by omega)
        omega
    omega
  have h2 : (o % 2 == 1) = false := by rw [he]; rfl
  have h3 : (intChecked (2 * o) : Exec (Layout R) ℤ) = Exec.pure (2 * o) := by
    unfold intChecked; rw [if_pos (by constructor <;> omega)]
  have h4 : (intChecked (o * 2) : Exec (Layout R) ℤ) = Exec.pure (o * 2) := by
    unfold intChecked; rw [if_pos (by constructor <;> omega)]
  match d with
  | .bwLowPass _ | .bwHighPass _ | .bwBandPass _ _ | .bwBandStop _ _ =>
    simp only [Design.build, Butterworth.lowPassBuild, h1, h2, h3, Layout.reset, bind_def, modify_def]
    exact ⟨rfl, rfl, rfl, fun _ => ⟨rfl, rfl⟩, fun h => Bool.noConfusion h⟩
  | .bwLowShelf _ _ | .bwHighShelf _ _ | .bwBandShelf _ _ _ =>
    simp only [Design.build, Butterworth.lowShelfBuild, h1, h2, h4, Layout.reset, bind_def, modify_def]
    exact ⟨rfl, rfl, rfl, fun _ => ⟨rfl, rfl⟩, fun h => Bool.noConfusion h⟩
  | .c1LowPass _ _ | .c1HighPass _ _ | .c1BandPass _ _ _ | .c1BandStop _ _ _ =>
    simp only [Design.build, ChebyshevI.lowPassBuild, h1, h2, h3, Layout.reset, bind_def, modify_def]
    exact ⟨rfl, rfl, rfl, fun h => Bool.noConfusion h, fun _ => rfl⟩
  | .c1LowShelf _ _ _ | .c1HighShelf _ _ _ | .c1BandShelf _ _ _ _ =>
    simp only [Design.build, ChebyshevI.lowShelfBuild, h1, h2, h3, Layout.reset, bind_def, modify_def]
    exact ⟨rfl, rfl, rfl, fun _ => ⟨rfl, rfl⟩, fun h => Bool.noConfusion h⟩
  | .c2LowPass _ _ | .c2HighPass _ _ | .c2BandPass _ _ _ | .c2BandStop _ _ _ =>
    simp only [Design.build, ChebyshevII.lowPassBuild, h1, h2, h3, Layout.reset, bind_def, modify_def]
    exact ⟨rfl, rfl, rfl, fun _ => ⟨rfl, rfl⟩, fun h => Bool.noConfusion h⟩
  | .c2LowShelf _ _ _ | .c2HighShelf _ _ _ | .c2BandShelf _ _ _ _ =>
    simp only [Design.build, ChebyshevII.lowShelfBuild, h1, h2, h3, Layout.reset, bind_def, modify_def]
    exact ⟨rfl, rfl, rfl, fun _ => ⟨rfl, rfl⟩, fun h => Bool.noConfusion h⟩

end even

variable {S : Type → Type} [StateType S XR] {T : Type} [Sample T XR] {c : Cls} {n : Nat} {f : PoleFilter S XR}
  {call : Call XR}

theorem Spec.GoodProto.build {d : Design XR} (h : GoodProto d) {o : ℤ} (h0 : 0 ≤ o) (hon : o ≤ n) (hn : n < 2 ^ 30) :
    (d.build o (d.cls.lay0 n)).1 = .ok () := by
  rcases h0.eq_or_lt with rfl | hpos
  · exact (d.build_even le_rfl (by norm_num) rfl _).1
  · lift o to ℕ using h0
    have ho : 1 ≤ o := by omega
    have hon : o ≤ n := by omega
    match d, h with
    | .bwLowPass _, _ | .bwHighPass _, _ | .bwBandPass _ _, _ | .bwBandStop _ _, _ =>
      apply IsProto.build_ok; exact (Design.proto_bw _ ho hon hn rfl lay0_bw.1 lay0_bw.2)
    | .bwLowShelf _ _, ⟨G, rfl⟩ | .bwHighShelf _ _, ⟨G, rfl⟩ | .bwBandShelf _ _ _, ⟨G, rfl⟩ =>
      apply IsProto.build_ok; exact (Design.proto_bwShelf _ G ho hon hn rfl lay0_bwShelf.1 lay0_bwShelf.2)
    | .c1LowPass _ _, ⟨r, rfl, hr⟩ | .c1HighPass _ _, ⟨r, rfl, hr⟩ | .c1BandPass _ _ _, ⟨r, rfl, hr⟩
    | .c1BandStop _ _ _, ⟨r, rfl, hr⟩ => apply IsProto.build_ok; exact (Design.proto_c1 _ hr ho hon hn rfl)
    | .c2LowPass _ _, ⟨r, rfl, hr⟩ | .c2HighPass _ _, ⟨r, rfl, hr⟩ | .c2BandPass _ _ _, ⟨r, rfl, hr⟩
    | .c2BandStop _ _ _, ⟨r, rfl, hr⟩ => apply IsProto.build_ok; exact (Design.proto_c2 _ hr ho hon hn rfl lay0_c2.1 lay0_c2.2)
    | .c1LowShelf _ _ _, ⟨G, r, rfl, rfl, hr, hG⟩ | .c1HighShelf _ _ _, ⟨G, r, rfl, rfl, hr, hG⟩
    | .c1BandShelf _ _ _ _, ⟨G, r, rfl, rfl, hr, hG⟩ =>
      apply IsProto.build_ok; exact (Design.proto_chebShelf _ hr hG ho hon hn rfl lay0_c1Shelf.1 lay0_c1Shelf.2)
    | .c2LowShelf _ _ _, ⟨G, r, rfl, rfl, hr, hG⟩ | .c2HighShelf _ _ _, ⟨G, r, rfl, rfl, hr, hG⟩
    | .c2BandShelf _ _ _ _, ⟨G, r, rfl, rfl, hr, hG⟩ =>
      apply IsProto.build_ok; exact (Design.proto_chebShelf _ hr hG ho hon hn rfl lay0_c1Shelf.1 lay0_c1Shelf.2)

/-- **C12** in exact arithmetic, without reference to a successful call: for every order that is not negative, every
frequency (valid or not), gains that are numbers and positive ripples, `setup` ends the same way on an object with any
history as on a new one, and if it succeeds the two are configured the same.  (Missing for full C12: unusable ripples,
see `C12_false`, and negative orders, see C49.) -/
theorem C12_exact_partial (hn1 : 1 ≤ n) (hn : n < 2 ^ 30) (h : Reach S T c n f) (hc : call.design.cls = c)
    (ho : 0 ≤ call.order n) (hg : GoodProto call.design) :
    (PoleFilter.setup n call f).1 = (PoleFilter.setup n call (PoleFilter.init S c n)).1 ∧
      ((PoleFilter.setup n call f).1 = .ok () →
        SameConfig (PoleFilter.setup n call f).2 (PoleFilter.setup n call (PoleFilter.init S c n)).2) := by
  have hcls : call.normDesign.cls = c := call.normDesign_cls.trans hc
  have := Call.run_fresh hn1 hn h hc (by omega) fun hle => by
    rw [← hcls]
    exact hg.norm.build ho hle hn
  exact ⟨this.1, fun h1 => (this.2 h1).sameConfig⟩

/-- **C15** in exact arithmetic: a call rejected once is rejected in the same way on every object of the class, in
particular when it is retried.  (Missing for full C15: unusable ripples, see `C15_false`, and negative orders.) -/
theorem C15_exact_partial (hn1 : 1 ≤ n) (hn : n < 2 ^ 30) {f f' : PoleFilter S XR} (h : Reach S T c n f)
    (h' : Reach S T c n f') (hc : call.design.cls = c) (ho : 0 ≤ call.order n) (hg : GoodProto call.design) {e : Err}
    (ht : (PoleFilter.setup n call f).1 = .throw e) : (PoleFilter.setup n call f').1 = .throw e := by
  rw [(C12_exact_partial hn1 hn h' hc ho hg).1, ← (C12_exact_partial hn1 hn h hc ho hg).1, ht]

/-- **C19** in exact arithmetic: after every successful `setup` the numbers of stages and of reported pole/zero pairs are
those the order asks for.  (Missing for full C19: unusable ripples, see `C19_false`, and negative orders.) -/
theorem C19_exact_partial (hn1 : 1 ≤ n) (hn : n < 2 ^ 30) {f f1 : PoleFilter S XR} (h : Reach S T c n f)
    (hc : call.design.cls = c) (o : Nat) (ho : call.order n = o) (hg : GoodProto call.design)
    (h1 : PoleFilter.setup n call f = (.ok (), f1)) :
    f1.getNumStages = Spec.sectionCount o c ∧
      ∃ ps, f1.getPoleZeros = .ok ps ∧ ps.length = Spec.sectionCount o c := by
  have h2 := (C12_exact_partial hn1 hn h hc (by omega) hg).1
  rw [h1] at h2
  have := C19_counts_partial hn1 hn h call hc o ho h2.symm
  rw [h1] at this
  exact this

/-- The hypotheses are met by, and the call succeeds for, a Butterworth low pass of order 3 on an object that was
filtering as a low pass of order 2. -/
example (f : PoleFilter S XR) (h : Reach S T .bwLowPass 3 f) :
    (PoleFilter.setup 3 (.setupN (.bwLowPass (fin (1 / 8)))) f).1 = .ok () ∧
      (PoleFilter.setup 3 (.setupN (.bwLowPass (fin (1 / 8)))) f).2.getNumStages = 2 := by
  obtain ⟨f', h1, -, -⟩ := C30_lowpass (S := S) (T := T) (call := .setupN (.bwLowPass (fin (1 / 8)))) (n := 3) (o := 3)
    (fc := 1 / 8) ⟨rfl, rfl, by norm_num, le_rfl, by norm_num⟩ (by norm_num) (by norm_num) f h
  have h2 := C19_exact_partial (call := .setupN (.bwLowPass (fin (1 / 8)))) (by norm_num) (by norm_num) h rfl 3 rfl trivial h1
  rw [h1]
  exact ⟨rfl, h2.1⟩

end Iir
