import Verif.Lemmas.RoundCheby2
import Verif.Lemmas.DoubleComplex
import Verif.Props.DoubleDesign

/-! # C72: Butterworth and Chebyshev filters designed in floating point arithmetic

C03 is about exact arithmetic.  Here the whole of `setup` is computed with rounding errors: the prototype, the bilinear
transform, the section coefficients, the response at the reference frequency and the scaling of the first section. -/

set_option linter.unusedSectionVars false

namespace Iir
open FArith Cx Exec Spec Proto

variable {R : Type} [FArith R] {u η Ω : ℝ} {r : Rounds R u η Ω}

section
variable (hl : r.Library)
include hl

/-- The prototypes of the low and high passes. -/
theorem analog_of_practical {d : Design R} (hd : r.Practical d) {n o : ℕ} (ho : 1 ≤ o) (h16 : o ≤ 16) (hon : o ≤ n) :
    ∃ a, d.proto (o : ℤ) (PoleFilter.initBase d.cls n : PFB R).analog = (.ok (), a) ∧ a.lay.Analog r o ((n + 1) / 2) := by
  have hL : (o + 1) / 2 ≤ (n + 1) / 2 := by omega
  have hs : d.stale (o : ℤ) (PoleFilter.initBase d.cls n : PFB R).analog = true := by
    cases d <;> first
      | exact hd.elim
      | simp [Design.stale, PoleFilter.initBase, Design.cls, Cls.protoInit, Butterworth.lowPassInit,
          ChebyshevI.lowPassInit, ChebyshevII.lowPassInit]; try omega
  have hlen : (PoleFilter.initBase d.cls n : PFB R).analog.lay.pairs.length = (n + 1) / 2 := (PFB.ok_init d.cls n).analog.2
  have one := In.mono (In.one hl.toAccurate) (a' := -2) (b' := 2) (by norm_num) (by norm_num)
  obtain ⟨l, h1, h2⟩ : ∃ l, d.build (o : ℤ) (PoleFilter.initBase d.cls n : PFB R).analog.lay = (.ok (), l) ∧
      l.Analog r o ((n + 1) / 2) := by
    cases d with
    | bwLowPass fc | bwHighPass fc => exact (Butterworth.analog hl ho h16 hL).run ⟨hlen, ⟨r.zero.1, r.zero.2⟩, one⟩
    | c1LowPass fc g | c1HighPass fc g => exact (ChebyshevI.analog hl ho h16 hL hd.2).run hlen
    | c2LowPass fc g | c2HighPass fc g =>
      exact (ChebyshevII.analog hl ho h16 hL hd.2).run ⟨hlen, ⟨r.zero.1, r.zero.2⟩, one⟩
    | _ => exact hd.elim
  exact ⟨_, by rw [Design.proto_miss hs, h1], h2⟩

/-- The transforms. -/
theorem digital_of_practical {d : Design R} (hd : r.Practical d) {a : Layout R} {m L L' : ℕ} (ha : a.Analog r m L)
    (hL : (m + 1) / 2 ≤ L') : ∃ s, Done (fun l => l.pairs.length = L') (d.trans a) (Layout.Digital r s m L') := by
  cases d with
  | bwLowPass fc => exact ⟨1, lowPass_digital hl hd ha hL⟩
  | bwHighPass fc => exact ⟨-1, highPass_digital hl hd ha hL⟩
  | c1LowPass fc g | c2LowPass fc g => exact ⟨1, lowPass_digital hl hd.1 ha hL⟩
  | c1HighPass fc g | c2HighPass fc g => exact ⟨-1, highPass_digital hl hd.1 ha hL⟩
  | _ => exact hd.elim

end

section
variable {S : Type → Type} [StateType S R]

/-- **C72**: any `setup` of a newly constructed low or high pass with practical parameters and an order of at most 16
succeeds; all sections it stores (also those beyond `getNumStages ()`) are finite and stable. -/
theorem C72_new (hl : r.Library) {c : Cls} {n o : ℕ} (ho : 1 ≤ o) (h16 : o ≤ 16) (hon : o ≤ n)
    {call : Call R} (hc : call.design.cls = c) (hord : call.order n = o) (hd : r.Practical call.normDesign) :
    (PoleFilter.setup n call (PoleFilter.init S c n)).1 = .ok () ∧
      ∃ ks, List.Forall₂ r.Values (PoleFilter.setup n call (PoleFilter.init S c n)).2.base.cascade.stages ks ∧
        ∀ k ∈ ks, k.Stable := by
  obtain rfl : c = call.normDesign.cls := hc.symm.trans call.normDesign_cls.symm
  have hok := PFB.ok_init (R := R) call.normDesign.cls n
  obtain ⟨a, h1, h2⟩ := analog_of_practical hl hd ho h16 hon
  have hmd : call.normDesign.cls.maxDigital n = n ∧ PoleFilter.numStages call.normDesign.cls n = (n + 1) / 2 := by
    generalize call.normDesign = d at hd
    cases d <;> first | exact hd.elim | exact ⟨rfl, rfl⟩
  obtain ⟨s, h3⟩ := digital_of_practical hl hd (L' := (n + 1) / 2) h2 (by omega)
  have hdl := hok.digital.2
  rw [hmd.1] at hdl
  obtain ⟨l, h4, h5⟩ := h3.run hdl
  have hcas := hok.cascade
  rw [hmd.2] at hcas
  have hnp := h5.numPoles
  obtain ⟨c', ks, h6, h7, h8⟩ := setLayout_stable hl (l := l) hcas (by omega) (by rw [h5.length]; omega) (by omega)
    (by rw [hnp]; exact h5.pairs) h5.norm.1 h5.norm.2
  have hrun : call.run n (PoleFilter.initBase call.normDesign.cls n) = (.ok (),
      { (PoleFilter.initBase call.normDesign.cls n : PFB R) with analog := a, digital := l, cascade := c' }) := by
    rw [Call.run_eq, if_neg (by omega), hord, PFB.baseSetup_proto, h1]
    simp only [PFB.rest_apply, h4, h6]
  rw [PoleFilter.setup_apply]
  simp only [PoleFilter.init, hrun]
  exact ⟨trivial, ks, h7, h8⟩

/-- **C72** on an object with any history. -/
theorem C72_stable [SignedZeros R] [DelayLine R S] (hl : r.Library) {T : Type} [Sample T R] {c : Cls} {n o : ℕ} (hn : n < 2 ^ 30) (ho : 1 ≤ o) (h16 : o ≤ 16)
    (hon : o ≤ n) {f : PoleFilter S R} (h : Reach S T c n f) {call : Call R} (hc : call.design.cls = c)
    (hord : call.order n = o) (hd : r.Practical call.normDesign) :
    (PoleFilter.setup n call f).1 = .ok () ∧
      ∃ ks, List.Forall₂ r.Values (PoleFilter.setup n call f).2.base.cascade.stages ks ∧ ∀ k ∈ ks, k.Stable := by
  obtain ⟨h1, h2⟩ := C72_new (S := S) hl ho h16 hon hc hord hd
  obtain ⟨h3, h4⟩ := C12_history_partial (by omega) hn h hc (by omega) h1
  exact ⟨h3, by rw [h4.stages]; exact h2⟩

end

section
variable {S : Type → Type} [StateType S Dbl] [DelayLine Dbl S]

/-- **C72** for IEEE doubles. -/
theorem C72_double {T : Type} [Sample T Dbl] {c : Cls} {n o : ℕ} (hn : n < 2 ^ 30) (ho : 1 ≤ o) (h16 : o ≤ 16)
    (hon : o ≤ n) {f : PoleFilter S Dbl} (h : Reach S T c n f) {call : Call Dbl} (hc : call.design.cls = c)
    (hord : call.order n = o) (hd : doubleRounds.Practical call.normDesign) :
    (PoleFilter.setup n call f).1 = .ok () ∧
      ∃ ks, List.Forall₂ doubleRounds.Values (PoleFilter.setup n call f).2.base.cascade.stages ks ∧ ∀ k ∈ ks, k.Stable :=
  C72_stable doubleRounds_library hn ho h16 hon h hc hord hd

end

/-- a Butterworth low pass at an eighth of the sampling rate -/
example : doubleRounds.Practical (.bwLowPass (.lit2 1 (-3))) := by
  obtain ⟨h1, h2⟩ := Dbl.lit2_val (m := 1) (e := -3) (by norm_num) (by norm_num) (by norm_num)
  refine ⟨h1, ?_⟩
  show _ ≤ Dbl.val _ ∧ Dbl.val _ ≤ _
  rw [h2]
  norm_num

/-- a Chebyshev I high pass with a ripple of 1 dB -/
example : doubleRounds.Practical (.c1HighPass (.lit2 1 (-3)) (.lit2 1 0)) := by
  obtain ⟨h1, h2⟩ := Dbl.lit2_val (m := 1) (e := -3) (by norm_num) (by norm_num) (by norm_num)
  obtain ⟨h3, h4⟩ := Dbl.lit2_val (m := 1) (e := 0) (by norm_num) (by norm_num) (by norm_num)
  refine ⟨⟨h1, ?_⟩, h3, ?_⟩
  · show _ ≤ Dbl.val _ ∧ Dbl.val _ ≤ _
    rw [h2]; norm_num
  · show _ ≤ Dbl.val _ ∧ Dbl.val _ ≤ _
    rw [h4]; norm_num

/-- a Chebyshev II low pass with a stop band of 48 dB -/
example : doubleRounds.Practical (.c2LowPass (.lit2 1 (-3)) (.lit2 48 0)) := by
  obtain ⟨h1, h2⟩ := Dbl.lit2_val (m := 1) (e := -3) (by norm_num) (by norm_num) (by norm_num)
  obtain ⟨h3, h4⟩ := Dbl.lit2_val (m := 48) (e := 0) (by norm_num) (by norm_num) (by norm_num)
  refine ⟨⟨h1, ?_⟩, h3, ?_⟩
  · show _ ≤ Dbl.val _ ∧ Dbl.val _ ≤ _
    rw [h2]; norm_num
  · show _ ≤ Dbl.val _ ∧ Dbl.val _ ≤ _
    rw [h4]; norm_num

end Iir
