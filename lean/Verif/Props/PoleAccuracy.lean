import Verif.Lemmas.BwChain
import Verif.Props.DoublePole

/-! # C77: Butterworth filters designed and run in floating point arithmetic

C72 says that the sections are stable.  Here the outputs are compared with those of the ideal filter, computed without any
rounding: prototype, bilinear transform, section coefficients, normalisation, and the samples themselves. -/

set_option linter.unusedSectionVars false

namespace Iir
open FArith Cx Exec Spec Proto Biquad Cascade

/-! ## The ideal filter -/

/-- the bilinear transform on the unit circle -/
theorem circle_tan {fr : ℝ} (h0 : 0 < fr) (h1 : fr < 1 / 2) :
    1 - (circle fr)⁻¹ = Complex.I * Real.tan (Real.pi * fr) * (1 + (circle fr)⁻¹) ∧ 1 + (circle fr)⁻¹ ≠ 0 := by
  have hpi := Real.pi_pos
  have hc : Real.cos (Real.pi * fr) ≠ 0 :=
    (Real.cos_pos_of_mem_Ioo ⟨by nlinarith, by nlinarith⟩).ne'
  have hc' : (Real.cos (Real.pi * fr) : ℂ) ≠ 0 := by exact_mod_cast hc
  obtain ⟨e, he⟩ : ∃ e, e = Complex.exp (-(Real.pi * fr : ℝ) * Complex.I) := ⟨_, rfl⟩
  have hE : e = Real.cos (Real.pi * fr) - Real.sin (Real.pi * fr) * Complex.I := by
    rw [he, ← Complex.ofReal_neg, Complex.exp_mul_I, ← Complex.ofReal_cos, ← Complex.ofReal_sin, Real.cos_neg, Real.sin_neg]
    push_cast; ring
  have hv : (circle fr)⁻¹ = e * e := by
    rw [Spec.circle, ← Complex.exp_neg, he, ← Complex.exp_add]
    congr 1; push_cast; ring
  have hcs : (Real.cos (Real.pi * fr) : ℂ) ^ 2 + (Real.sin (Real.pi * fr) : ℂ) ^ 2 = 1 := by
    exact_mod_cast Real.cos_sq_add_sin_sq (Real.pi * fr)
  have a1 : 1 + (circle fr)⁻¹ = 2 * Real.cos (Real.pi * fr) * e := by
    rw [hv, hE]
    linear_combination -hcs + (Real.sin (Real.pi * fr) : ℂ) ^ 2 * Complex.I_sq
  have a2 : 1 - (circle fr)⁻¹ = 2 * Complex.I * Real.sin (Real.pi * fr) * e := by
    rw [hv, hE]
    linear_combination -hcs + (Real.sin (Real.pi * fr) : ℂ) ^ 2 * Complex.I_sq
  refine ⟨?_, ?_⟩
  · rw [a1, a2, Real.tan_eq_sin_div_cos]
    push_cast at hc' ⊢
    field_simp
  · rw [a1]
    exact mul_ne_zero (mul_ne_zero two_ne_zero hc') (by rw [he]; exact Complex.exp_ne_zero _)

/-- The sections of the exact filter and the ideal sections give the same samples. -/
theorem known_diffChain {run : (ℕ → ℝ) → (ℕ → ℝ) → Prop} {H : ℝ → ℂ} (h : Known run H) {ks : List Coeffs}
    (hks : ∀ k ∈ ks, k.a0 = 1 ∧ k.Stable)
    (e : ∀ fr, 0 < fr → fr < 1 / 2 → ((ks.map Coeffs.norm).map (secH · (circle fr))).prod = H fr) (x : ℕ → ℝ) :
    ∃ y, run x y ∧ DiffChain ks x y := by
  obtain ⟨ks', h1, h2, h3, h4⟩ := h
  refine ⟨_, (h4 x _).2 rfl, ?_⟩
  rw [← chain_identify (fun k hk => (by rw [(hks k hk).1]; exact one_ne_zero)) (fun k hk => (hks k hk).2) h1 h2
    fun fr a b => by rw [h3 fr a b, e fr a b]]
  exact chain_diffChain ks x

section
variable {S : Type → Type} [StateType S XR] [DelayLine XR S] {T : Type} [Sample T XR] {n o : ℕ} {call : Call XR}

theorem ideal_low {fc0 : ℝ} (h : Asks call n o (.bwLowPass (.fin fc0))) (h16 : o ≤ 16) (h0 : 0 < fc0) (h1 : fc0 < 1 / 2)
    (t1 : 1 / 512 ≤ Real.tan (Real.pi * fc0)) (t2 : Real.tan (Real.pi * fc0) ≤ 512) {m : ℕ} (hm : (o + 1) / 2 = m + 1) (j : ℕ) (x : ℕ → ℝ) :
    ∃ y, SetupRuns S T n call x y ∧ DiffChain (idealChain (idealScale 1 (bwK 1 (Real.tan (Real.pi * fc0)) o) m)
      (bwK 1 (Real.tan (Real.pi * fc0)) o) m j) x y := by
  have ht := tanpi_pos h0 h1
  have k1 : Known (SetupRuns S T n call) fun fr => bwLow o (Complex.I * lowRatio fc0 fr) :=
    known_design h ⟨h0, h1⟩ fun f hf fr a b => hf.value fr a.le b
  refine known_diffChain k1 (idealChain_stable (.inl rfl) hm h16 t1 t2 _) (fun fr a b => ?_) x
  obtain ⟨c1, c2⟩ := circle_tan a b
  refine bwChain_secH (.inl rfl) hm ht ?_ ?_
  · rw [Complex.ofReal_one, one_mul]; exact c2
  · rw [Complex.ofReal_one, one_mul, c1, lowRatio]
    have : (Real.tan (Real.pi * fc0) : ℂ) ≠ 0 := by exact_mod_cast ht.ne'
    rw [Complex.ofReal_div, mul_assoc Complex.I (_ / _), div_mul_cancel₀ _ this]

theorem ideal_high {fc0 : ℝ} (h : Asks call n o (.bwHighPass (.fin fc0))) (h16 : o ≤ 16) (h0 : 0 < fc0) (h1 : fc0 < 1 / 2)
    (t1 : 1 / 512 ≤ 1 / Real.tan (Real.pi * fc0)) (t2 : 1 / Real.tan (Real.pi * fc0) ≤ 512) {m : ℕ}
    (hm : (o + 1) / 2 = m + 1) (j : ℕ) (x : ℕ → ℝ) :
    ∃ y, SetupRuns S T n call x y ∧ DiffChain (idealChain (idealScale (-1) (bwK (-1) (1 / Real.tan (Real.pi * fc0)) o) m)
      (bwK (-1) (1 / Real.tan (Real.pi * fc0)) o) m j) x y := by
  have ht := tanpi_pos h0 h1
  have k1 : Known (SetupRuns S T n call) fun fr => bwLow o (1 / (Complex.I * lowRatio fc0 fr)) :=
    known_design h ⟨h0, h1⟩ fun f hf fr a b => hf.value fr a b
  refine known_diffChain k1 (idealChain_stable (.inr rfl) hm h16 t1 t2 _) (fun fr a b => ?_) x
  obtain ⟨c1, c2⟩ := circle_tan a b
  have hr := tanpi_pos a b
  have hr' : (Real.tan (Real.pi * fr) : ℂ) ≠ 0 := by exact_mod_cast hr.ne'
  have ht' : (Real.tan (Real.pi * fc0) : ℂ) ≠ 0 := by exact_mod_cast ht.ne'
  have e : ((-1 : ℝ) : ℂ) * (circle fr)⁻¹ = -(circle fr)⁻¹ := by push_cast; ring
  refine bwChain_secH (.inr rfl) hm (one_div_pos.2 ht) ?_ ?_
  · rw [e, ← sub_eq_add_neg, c1]
    exact mul_ne_zero (mul_ne_zero Complex.I_ne_zero hr') c2
  · rw [e, ← sub_eq_add_neg, sub_neg_eq_add, c1, lowRatio]
    push_cast at hr' ht' ⊢
    have hI := Complex.I_ne_zero
    field_simp

end

/-! ## The computed filter -/

variable {R : Type} [FArith R] {u η Ω : ℝ} {r : Rounds R u η Ω}

/-- the sign of the point of the unit circle where the filter is normalised -/
def bwSign : Design R → ℝ
  | .bwHighPass _ => -1
  | _ => 1

theorem Spec.Rounds.NearBw.practical {d : Design R} {d0 : Design XR} {φ : ℝ} (h : r.NearBw d d0 φ) : r.Practical d := by
  cases h with
  | low hf _ => exact hf
  | high hf _ => exact hf

theorem bwSign_or (d : Design R) : bwSign d = 1 ∨ bwSign d = -1 := by
  unfold bwSign; split <;> simp

section
variable (hl : r.Library)
include hl

theorem NearBw.phi {d : Design R} {d0 : Design XR} {φ : ℝ} (h : r.NearBw d d0 φ) : 1 / 512 ≤ φ ∧ φ ≤ 512 := by
  cases h with
  | low hf h => exact ⟨(warp_low hl hf h).lo, (warp_low hl hf h).hi⟩
  | high hf h => exact ⟨(warp_high hl hf h).lo, (warp_high hl hf h).hi⟩

/-- prototype and transform -/
theorem NearBw.digital {d : Design R} {d0 : Design XR} {φ : ℝ} (h : r.NearBw d d0 φ) {n o : ℕ} (ho : 1 ≤ o) (h16 : o ≤ 16)
    (hon : o ≤ n) : ∃ a, d.proto (o : ℤ) (PoleFilter.initBase d.cls n : PFB R).analog = (.ok (), a) ∧
      Done (fun l => l.pairs.length = (n + 1) / 2) (d.trans a.lay) (Layout.DigitalBw r (bwSign d) φ o o ((n + 1) / 2)) := by
  have hL : (o + 1) / 2 ≤ (n + 1) / 2 := by omega
  have one := In.one hl.toAccurate
  cases h with
  | low hf h =>
    rename_i fc fc0
    have hlen : (PoleFilter.initBase (Design.bwLowPass fc).cls n : PFB R).analog.lay.pairs.length = (n + 1) / 2 :=
      (PFB.ok_init (Design.bwLowPass fc).cls n).analog.2
    obtain ⟨l, h1, h2⟩ := (Butterworth.analog_near hl ho h16 hL).run ⟨hlen, ⟨r.zero.1, r.zero.2⟩, one⟩
    have hst : (Design.bwLowPass fc).stale (o : ℤ) (PoleFilter.initBase (Design.bwLowPass fc).cls n : PFB R).analog = true := by
      simp [Design.stale, PoleFilter.initBase, Design.cls, Cls.protoInit, Butterworth.lowPassInit]; try omega
    refine ⟨_, by rw [Design.proto_miss hst, show (Design.bwLowPass fc).build (o : ℤ) _ = _ from h1], ?_⟩
    exact lowPass_near hl ho hf h h2 hL
  | high hf h =>
    rename_i fc fc0
    have hlen : (PoleFilter.initBase (Design.bwHighPass fc).cls n : PFB R).analog.lay.pairs.length = (n + 1) / 2 :=
      (PFB.ok_init (Design.bwHighPass fc).cls n).analog.2
    obtain ⟨l, h1, h2⟩ := (Butterworth.analog_near hl ho h16 hL).run ⟨hlen, ⟨r.zero.1, r.zero.2⟩, one⟩
    have hst : (Design.bwHighPass fc).stale (o : ℤ) (PoleFilter.initBase (Design.bwHighPass fc).cls n : PFB R).analog = true := by
      simp [Design.stale, PoleFilter.initBase, Design.cls, Cls.protoInit, Butterworth.lowPassInit]; try omega
    refine ⟨_, by rw [Design.proto_miss hst, show (Design.bwHighPass fc).build (o : ℤ) _ = _ from h1], ?_⟩
    exact highPass_near hl ho hf h h2 hL

theorem NearBw.ideal {d : Design R} {d0 : Design XR} {φ : ℝ} (h : r.NearBw d d0 φ) (S : Type → Type) [StateType S XR]
    [DelayLine XR S] (T : Type) [Sample T XR] {n o : ℕ} {call : Call XR} (ha : Asks call n o d0) (h16 : o ≤ 16) {m : ℕ}
    (hm : (o + 1) / 2 = m + 1) (j : ℕ) (x : ℕ → ℝ) :
    ∃ y, SetupRuns S T n call x y ∧
      DiffChain (idealChain (idealScale (bwSign d) (bwK (bwSign d) φ o) m) (bwK (bwSign d) φ o) m j) x y := by
  obtain ⟨p1, p2⟩ := NearBw.phi hl h
  have key : ∀ {fc : R} {fc0 : ℝ}, r.Freq fc → |r.val fc - fc0| ≤ 1 / 2 ^ 50 → 0 < fc0 ∧ fc0 < 1 / 2 := fun a b => by
    obtain ⟨-, c1, c2⟩ := a
    obtain ⟨b1, b2⟩ := abs_le.1 b
    norm_num at *
    constructor <;> linarith
  cases h with
  | low hf h => exact ideal_low ha h16 (key hf h).1 (key hf h).2 p1 p2 hm j x
  | high hf h => exact ideal_high ha h16 (key hf h).1 (key hf h).2 p1 p2 hm j x

/-- what `setup` stores in a newly constructed object -/
theorem NearBw.stored (S : Type → Type) [StateType S R] [DelayLine R S] {c : Cls} {n o : ℕ} (ho : 1 ≤ o) (h16 : o ≤ 16) (hon : o ≤ n)
    {call : Call R} (hc : call.design.cls = c) (hord : call.order n = o) {d0 : Design XR} {φ : ℝ}
    (hd : r.NearBw call.normDesign d0 φ) {m : ℕ} (hm : (o + 1) / 2 = m + 1) :
    (PoleFilter.setup n call (PoleFilter.init S c n)).1 = .ok () ∧ ∃ bI f, ∃ B : ℕ → Biquad R, identR = .ok bI ∧
      (PoleFilter.setup n call (PoleFilter.init S c n)).2.base.cascade.numStages = m + 1 ∧
      (PoleFilter.setup n call (PoleFilter.init S c n)).2.base.cascade.stages = scaled f (B 0) ::
        ((List.range m).map (fun i => B (i + 1)) ++ List.replicate ((n + 1) / 2 - (m + 1)) bI) ∧
      (∀ i < m + 1, ∃ k', Sect r (bwSign call.normDesign) (B i) k' ∧ CoefNear r (B i) (bwK (bwSign call.normDesign) φ o i)) ∧
      (r.Fin f ∧ |r.val f| ≤ 2 ^ 303) ∧
      Rel (r.val f) (idealScale (bwSign call.normDesign) (bwK (bwSign call.normDesign) φ o) m)
        (0.86 * (∑ i ∈ Finset.range (m + 1), bwG φ o i) / 2 ^ 32) := by
  obtain rfl : c = call.normDesign.cls := hc.symm.trans call.normDesign_cls.symm
  have hs := bwSign_or call.normDesign
  obtain ⟨p1, p2⟩ := NearBw.phi hl hd
  have hok := PFB.ok_init (R := R) call.normDesign.cls n
  obtain ⟨a, h1, h3⟩ := NearBw.digital hl hd ho h16 hon
  have hmd : call.normDesign.cls.maxDigital n = n ∧ PoleFilter.numStages call.normDesign.cls n = (n + 1) / 2 := by
    have hd := hd.practical
    generalize call.normDesign = d at hd
    cases d <;> first | exact hd.elim | exact ⟨rfl, rfl⟩
  have hdl := hok.digital.2
  rw [hmd.1] at hdl
  obtain ⟨l, h4, h5⟩ := h3.run hdl
  have hcas := hok.cascade
  rw [hmd.2] at hcas
  have hnp := h5.numPoles
  have hK : ∀ i < m + 1, Ideal (bwSign call.normDesign) (bwK (bwSign call.normDesign) φ o i) (bwG φ o i) :=
    fun i hi => bw_ideal hs h16 (by omega) p1 p2
  obtain ⟨c', bI, f, B, h6, h7, h7', h8, h9, ⟨h10, h11⟩, h12⟩ := setLayout_near hl (l := l) hcas (m := m) (by rw [hnp]; exact hm)
    (by omega) (by rw [h5.length]; omega) (by omega) (K := bwK (bwSign call.normDesign) φ o) (G := bwG φ o)
    (fun i hi => h5.pairs hs h16 p1 p2 i (by omega)) hK h5.norm.1 h5.norm.2
  have hrun : call.run n (PoleFilter.initBase call.normDesign.cls n) = (.ok (),
      { (PoleFilter.initBase call.normDesign.cls n : PFB R) with analog := a, digital := l, cascade := c' }) := by
    rw [Call.run_eq, if_neg (by omega), hord, PFB.baseSetup_proto, h1]
    simp only [PFB.rest_apply, h4, h6]
  rw [PoleFilter.setup_apply]
  simp only [PoleFilter.init, hrun]
  exact ⟨trivial, bI, f, B, h7, h7', h8, h9, ⟨h10, h11⟩, h12⟩

/-- `setup` of a newly constructed object -/
theorem NearBw.new (S : Type → Type) [StateType S R] [DelayLine R S] {c : Cls} {n o : ℕ} (ho : 1 ≤ o) (h16 : o ≤ 16) (hon : o ≤ n)
    (hn : n < 2 ^ 30) {call : Call R} (hc : call.design.cls = c) (hord : call.order n = o) {d0 : Design XR} {φ : ℝ}
    (hd : r.NearBw call.normDesign d0 φ) {m : ℕ} (hm : (o + 1) / 2 = m + 1) :
    (PoleFilter.setup n call (PoleFilter.init S c n)).1 = .ok () ∧ ∃ j : ℕ, (m + 1) + j ≤ n ∧
      ∀ F, (∀ fma ∈ F, r.Fused fma) → ∀ (X : ℝ) (x y' : ℕ → R) (y : ℕ → ℝ), r.Input X x → 1 / 2 ^ 400 ≤ X → X ≤ 2 ^ 400 →
      ChainC F S (PoleFilter.setup n call (PoleFilter.init S c n)).2.base.cascade.stages x y' →
      DiffChain (idealChain (idealScale (bwSign call.normDesign) (bwK (bwSign call.normDesign) φ o) m)
        (bwK (bwSign call.normDesign) φ o) m j) (fun n => r.val (x n)) y →
      r.Within (1 / 2 ^ 30 * (∏ i ∈ Finset.range (m + 1), bwG φ o i * (1 + bwSign call.normDesign * (bwK (bwSign call.normDesign) φ o i).a1 +
          (bwK (bwSign call.normDesign) φ o i).a2)) * (∑ i ∈ Finset.range (m + 1), bwG φ o i + j) * X) y' y := by
  have hs := bwSign_or call.normDesign
  obtain ⟨p1, p2⟩ := NearBw.phi hl hd
  have hK : ∀ i < m + 1, Ideal (bwSign call.normDesign) (bwK (bwSign call.normDesign) φ o i) (bwG φ o i) :=
    fun i hi => bw_ideal hs h16 (by omega) p1 p2
  obtain ⟨h1, bI, f, B, h7, -, h8, h9, ⟨h10, h11⟩, h12⟩ := NearBw.stored hl S ho h16 hon hc hord hd hm
  refine ⟨h1, (n + 1) / 2 - (m + 1), by omega, fun F hfm X x y' y hx hX1 hX2 hrun hy => ?_⟩
  rw [h8] at hrun
  exact chain_near hl S hfm (by omega) (by omega) hK h7 h9 h10 h11 h12 hrun hx hX1 hX2 hy

end

/-- The output of compiled code, with or without fused operations. -/
theorem NearBw.accurate [SignedZeros R] (hl : r.Library) {S : Type → Type} [StateType S R] [DelayLine R S] {T : Type} [Sample T R]
    {c : Cls} {n o : ℕ} (hn : n < 2 ^ 30) (ho : 1 ≤ o) (h16 : o ≤ 16) (hon : o ≤ n) {f : PoleFilter S R} (h : Reach S T c n f)
    {call : Call R} (hc : call.design.cls = c) (hord : call.order n = o) {d0 : Design XR} {φ : ℝ}
    (hd : r.NearBw call.normDesign d0 φ) {S0 : Type → Type} [StateType S0 XR] [DelayLine XR S0] {T0 : Type} [Sample T0 XR]
    {n0 : ℕ} {call0 : Call XR} (h0 : Asks call0 n0 o d0) :
    ∃ f', PoleFilter.setup n call f = (.ok (), f') ∧ Reach S T c n f' ∧ ∀ X x, r.Input X x → 1 / 2 ^ 400 ≤ X → X ≤ 2 ^ 400 →
      ∃ y, SetupRuns S0 T0 n0 call0 (fun i => r.val (x i)) y ∧ ∀ F, (∀ fma ∈ F, r.Fused fma) → ∀ y',
        ChainC F S f'.base.cascade.stages x y' → r.Within (bwAmplifies φ o * (bwSharp φ o + n) / 2 ^ 30 * X) y' y := by
  obtain ⟨m, hm⟩ : ∃ m, (o + 1) / 2 = m + 1 := ⟨(o + 1) / 2 - 1, by omega⟩
  obtain ⟨p1, p2⟩ := NearBw.phi hl hd
  have hs := bwSign_or call.normDesign
  obtain ⟨h1, j, hj, h2⟩ := NearBw.new hl S ho h16 hon hn hc hord hd hm
  obtain ⟨h3, h4⟩ := C12_history_partial (by omega) hn h hc (by omega) h1
  have hset : PoleFilter.setup n call f = (.ok (), (PoleFilter.setup n call f).2) := Prod.ext h3 rfl
  have hr : Reach S T c n (PoleFilter.setup n call f).2 :=
    .call f _ (.setup call) (.ok ()) h hc hset fun u h => by cases h
  refine ⟨_, hset, hr, fun X x hx hX1 hX2 => ?_⟩
  obtain ⟨y, h5, h6⟩ := NearBw.ideal hl hd S0 T0 h0 h16 hm j fun i => r.val (x i)
  refine ⟨y, h5, fun F hfm y' hrun i => ?_⟩
  have h7 := h2 F hfm X x y' y hx hX1 hX2 (by rw [← h4.stages]; exact hrun) h6 i
  refine ⟨h7.1, h7.2.trans ?_⟩
  have hX : 0 ≤ X := le_trans (by positivity) hX1
  refine mul_le_mul_of_nonneg_right ?_ hX
  have eA := bw_amplifies (o := o) hs h16 p1 p2
  have eQ := bw_sharp (o := o) h16 p1 p2
  rw [hm] at eA eQ
  have hA : 0 ≤ bwAmplifies φ o := Finset.prod_nonneg fun k hk => by
    have := bwDigital_norm (φ := φ) (o := o) (i := k) h16 (Finset.mem_range.1 hk) p1 p2
    have h13 : (0 : ℝ) ≤ 1 / 2 ^ 13 := by positivity
    exact div_nonneg (norm_nonneg _) (by linarith)
  rw [eA]
  have hj' : (j : ℝ) ≤ n := by exact_mod_cast (by omega : j ≤ n)
  have : bwAmplifies φ o * (∑ i ∈ Finset.range (m + 1), bwG φ o i + j) ≤ bwAmplifies φ o * (bwSharp φ o + n) :=
    mul_le_mul_of_nonneg_left (add_le_add eQ hj') hA
  calc _ = bwAmplifies φ o * (∑ i ∈ Finset.range (m + 1), bwG φ o i + j) / 2 ^ 30 := by ring
    _ ≤ _ := div_le_div_of_nonneg_right this (by positivity)

/-- **C77**: a Butterworth low or high pass of order at most 16 is set up with a practical cutoff frequency, whatever was
done with the object before, and fed with samples of magnitude at most `X`.  All outputs are finite, and at all times within
`2⁻³⁰ A (Q + n) X` of the output of the ideal filter, where `A` is what the sections amplify at most and `Q` is how sharp
the poles are.  Neither grows with the number of samples. -/
theorem C77_accurate [SignedZeros R] (hl : r.Library) {S : Type → Type} [StateType S R] [DelayLine R S] {T : Type} [Sample T R]
    {c : Cls} {n o : ℕ} (hn : n < 2 ^ 30) (ho : 1 ≤ o) (h16 : o ≤ 16) (hon : o ≤ n) {f : PoleFilter S R} (h : Reach S T c n f)
    {call : Call R} (hc : call.design.cls = c) (hord : call.order n = o) {d0 : Design XR} {φ : ℝ}
    (hd : r.NearBw call.normDesign d0 φ) {S0 : Type → Type} [StateType S0 XR] [DelayLine XR S0] {T0 : Type} [Sample T0 XR]
    {n0 : ℕ} {call0 : Call XR} (h0 : Asks call0 n0 o d0) :
    ∃ f', PoleFilter.setup n call f = (.ok (), f') ∧ ∀ X x, r.Input X x → 1 / 2 ^ 400 ≤ X → X ≤ 2 ^ 400 →
      ∃ y', Returns (PoleFilter.filter (T := R)) (PoleFilter.reset f').2 x y' ∧
        ∃ y, SetupRuns S0 T0 n0 call0 (fun i => r.val (x i)) y ∧
          r.Within (bwAmplifies φ o * (bwSharp φ o + n) / 2 ^ 30 * X) y' y := by
  obtain ⟨f', h1, hr, h2⟩ := NearBw.accurate hl (S0 := S0) (T0 := T0) hn ho h16 hon h hc hord hd h0
  refine ⟨f', h1, fun X x hx hX1 hX2 => ⟨_, PoleFilter.returns (hr.wired (by omega) hn) x, ?_⟩⟩
  obtain ⟨y, h3, h4⟩ := h2 X x hx hX1 hX2
  exact ⟨y, h3, h4 none (by simp) _ (ChainC.plain _ x)⟩

/-! ## Calls with a sampling rate -/

section calls
variable {R' : Type}

theorem mapArgs_cls (h : R → R') (d : Design R) : (mapArgs h d).cls = d.cls := by cases d <;> rfl

theorem mapCall_cls (h : R → R') (call : Call R) : (mapCall h call).design.cls = call.design.cls := by
  cases call <;> exact mapArgs_cls h _

theorem mapCall_order (h : R → R') (call : Call R) (n : ℕ) : (mapCall h call).order n = call.order n := by
  cases call <;> rfl

theorem mapArgs_low {h : R → R'} {d : Design R} {y : R'} (e : mapArgs h d = .bwLowPass y) :
    ∃ fc, d = .bwLowPass fc ∧ h fc = y := by
  cases d <;> simp [mapArgs] at e
  exact ⟨_, rfl, e⟩

theorem mapArgs_high {h : R → R'} {d : Design R} {y : R'} (e : mapArgs h d = .bwHighPass y) :
    ∃ fc, d = .bwHighPass fc ∧ h fc = y := by
  cases d <;> simp [mapArgs] at e
  exact ⟨_, rfl, e⟩

theorem mapFreq_low {h : R → R} {d : Design R} {y : R} (e : mapFreq h d = .bwLowPass y) :
    ∃ fc, d = .bwLowPass fc ∧ h fc = y := by
  cases d <;> simp [mapFreq] at e
  exact ⟨_, rfl, e⟩

theorem mapFreq_high {h : R → R} {d : Design R} {y : R} (e : mapFreq h d = .bwHighPass y) :
    ∃ fc, d = .bwHighPass fc ∧ h fc = y := by
  cases d <;> simp [mapFreq] at e
  exact ⟨_, rfl, e⟩

end calls

section exact
variable (r) (ha : r.Accurate)
include ha

/-- the quotient of frequency and sampling rate, rounded -/
theorem quotient_near {fc fs : R} (h1 : r.Fin fc) (h2 : r.Fin fs) {f : ℝ} (e : (.fin (r.val fc) / .fin (r.val fs) : XR) = .fin f)
    (f1 : 1 / 2 ^ 9 ≤ f) (f2 : f ≤ 1 / 2 - 1 / 2 ^ 9) :
    (r.Fin (fc / fs) ∧ 1 / 2 ^ 10 ≤ r.val (fc / fs) ∧ r.val (fc / fs) ≤ 1 / 2 - 1 / 2 ^ 10) ∧
      |r.val (fc / fs) - f| ≤ 1 / 2 ^ 50 := by
  by_cases h0 : r.val fs = 0
  · rw [XR.fin_div', if_pos h0] at e
    unfold XR.signInf at e
    split_ifs at e
  · rw [XR.fin_div _ h0] at e
    obtain rfl := XR.fin.inj e
    have hp : (0 : ℝ) < 1 / 2 ^ 9 := by positivity
    obtain ⟨h3, h4⟩ := raw_div ha h1 h2 h0 (M := 1 / 2) (by rw [abs_of_pos (by linarith)]; linarith) (by norm_num)
    have h5 : |r.val (fc / fs) - r.val fc / r.val fs| ≤ 1 / 2 ^ 50 := h4.trans (by norm_num)
    obtain ⟨b1, b2⟩ := abs_le.1 h5
    refine ⟨⟨h3, ?_, ?_⟩, h5⟩
    · norm_num at f1 f2 b1 b2 ⊢; linarith
    · norm_num at f1 f2 b1 b2 ⊢; linarith

theorem exact_near {fc : R} (h1 : r.Fin fc) (f1 : 1 / 2 ^ 9 ≤ r.val fc) (f2 : r.val fc ≤ 1 / 2 - 1 / 2 ^ 9) :
    (r.Fin fc ∧ 1 / 2 ^ 10 ≤ r.val fc ∧ r.val fc ≤ 1 / 2 - 1 / 2 ^ 10) ∧ |r.val fc - r.val fc| ≤ 1 / 2 ^ 50 := by
  refine ⟨⟨h1, ?_, ?_⟩, by simp⟩
  · norm_num at f1 f2 ⊢; linarith
  · norm_num at f1 f2 ⊢; linarith

theorem near_of_ideal {call : Call R} (hf : r.FinCall call) {φ : ℝ}
    (hd : IdealBw (mapCall (fun v => XR.fin (r.val v)) call).normDesign φ) :
    r.NearBw call.normDesign (mapCall (fun v => XR.fin (r.val v)) call).normDesign φ := by
  have rate : ∀ {fs : R} {d : Design R}, r.Fin fs → r.Fin d.freq →
      IdealBw (mapFreq (· / XR.fin (r.val fs)) (mapArgs (fun v => XR.fin (r.val v)) d)) φ →
      r.NearBw (mapFreq (· / fs) d) (mapFreq (· / XR.fin (r.val fs)) (mapArgs (fun v => XR.fin (r.val v)) d)) φ := by
    intro fs d h1 h2 h3
    generalize e : mapFreq (· / XR.fin (r.val fs)) (mapArgs (fun v => XR.fin (r.val v)) d) = d0 at h3
    cases h3 with
    | low f1 f2 =>
      obtain ⟨v, e1, e2⟩ := mapFreq_low e
      obtain ⟨fc, rfl, e3⟩ := mapArgs_low e1
      rw [← e3] at e2
      obtain ⟨q1, q2⟩ := quotient_near r ha h2 h1 e2 f1 f2
      exact .low q1 q2
    | high f1 f2 =>
      obtain ⟨v, e1, e2⟩ := mapFreq_high e
      obtain ⟨fc, rfl, e3⟩ := mapArgs_high e1
      rw [← e3] at e2
      obtain ⟨q1, q2⟩ := quotient_near r ha h2 h1 e2 f1 f2
      exact .high q1 q2
  have norm : ∀ {d : Design R}, r.Fin d.freq → IdealBw (mapArgs (fun v => XR.fin (r.val v)) d) φ →
      r.NearBw d (mapArgs (fun v => XR.fin (r.val v)) d) φ := by
    intro d h2 h3
    generalize e : mapArgs (fun v => XR.fin (r.val v)) d = d0 at h3
    cases h3 with
    | low f1 f2 =>
      obtain ⟨fc, rfl, e3⟩ := mapArgs_low e
      obtain rfl := XR.fin.inj e3
      obtain ⟨q1, q2⟩ := exact_near r ha h2 f1 f2
      exact .low q1 q2
    | high f1 f2 =>
      obtain ⟨fc, rfl, e3⟩ := mapArgs_high e
      obtain rfl := XR.fin.inj e3
      obtain ⟨q1, q2⟩ := exact_near r ha h2 f1 f2
      exact .high q1 q2
  cases call with
  | setup fs d => exact rate hf.1 hf.2 hd
  | setupReq o fs d => exact rate hf.1 hf.2 hd
  | setupN d => exact norm hf hd
  | setupNReq o d => exact norm hf hd

end exact

/-- **C77** for a call, against the same call in exact arithmetic.  The quotient of frequency and sampling rate is rounded
too. -/
theorem C77_call [SignedZeros R] (hl : r.Library) {S : Type → Type} [StateType S R] [DelayLine R S] {T : Type} [Sample T R]
    {n o : ℕ} (hn : n < 2 ^ 30) (ho : 1 ≤ o) (h16 : o ≤ 16) (hon : o ≤ n) {call : Call R} {f : PoleFilter S R}
    (h : Reach S T call.design.cls n f) (hord : call.order n = o) (hf : r.FinCall call) {φ : ℝ}
    (hd : IdealBw (mapCall (fun v => XR.fin (r.val v)) call).normDesign φ) (S0 : Type → Type) [StateType S0 XR]
    [DelayLine XR S0] (T0 : Type) [Sample T0 XR] :
    ∃ f', PoleFilter.setup n call f = (.ok (), f') ∧ ∀ X x, r.Input X x → 1 / 2 ^ 400 ≤ X → X ≤ 2 ^ 400 →
      ∃ y', Returns (PoleFilter.filter (T := R)) (PoleFilter.reset f').2 x y' ∧
        ∃ y, SetupRuns S0 T0 n (mapCall (fun v => XR.fin (r.val v)) call) (fun i => r.val (x i)) y ∧
          r.Within (bwAmplifies φ o * (bwSharp φ o + n) / 2 ^ 30 * X) y' y :=
  C77_accurate hl hn ho h16 hon h rfl hord (near_of_ideal r hl.toAccurate hf hd)
    ⟨(mapCall_order _ _ _).trans hord, rfl, ho, hon, hn⟩

/-- **C77** for IEEE doubles. -/
theorem C77_double {S : Type → Type} [StateType S Dbl] [DelayLine Dbl S] {T : Type} [Sample T Dbl]
    {n o : ℕ} (hn : n < 2 ^ 30) (ho : 1 ≤ o) (h16 : o ≤ 16) (hon : o ≤ n) {call : Call Dbl} {f : PoleFilter S Dbl}
    (h : Reach S T call.design.cls n f) (hord : call.order n = o) (hf : doubleRounds.FinCall call) {φ : ℝ}
    (hd : IdealBw (mapCall (fun v => XR.fin v.val) call).normDesign φ) (S0 : Type → Type) [StateType S0 XR]
    [DelayLine XR S0] (T0 : Type) [Sample T0 XR] :
    ∃ f', PoleFilter.setup n call f = (.ok (), f') ∧
      ∀ X x, (∀ i, (x i).Finite ∧ |(x i).val| ≤ X) → 1 / 2 ^ 400 ≤ X → X ≤ 2 ^ 400 →
      ∃ y', Returns (PoleFilter.filter (T := Dbl)) (PoleFilter.reset f').2 x y' ∧
        ∃ y, SetupRuns S0 T0 n (mapCall (fun v => XR.fin v.val) call) (fun i => (x i).val) y ∧
          ∀ i, (y' i).Finite ∧ |(y' i).val - y i| ≤ bwAmplifies φ o * (bwSharp φ o + n) / 2 ^ 30 * X :=
  C77_call (r := doubleRounds) doubleRounds_library hn ho h16 hon h hord hf hd S0 T0

/-! ## A case -/

/-- a low pass of order two, 12000 Hz at a sampling rate of 48000 Hz -/
noncomputable def exQuarter : Call Dbl := .setup (.lit2 48000 0) (.bwLowPass (.lit2 12000 0))

theorem exQuarter_ideal : IdealBw (mapCall (fun v => XR.fin v.val) exQuarter).normDesign 1 := by
  obtain ⟨-, h2⟩ := Dbl.lit2_val (m := 12000) (e := 0) (by norm_num) (by norm_num) (by norm_num)
  obtain ⟨-, h4⟩ := Dbl.lit2_val (m := 48000) (e := 0) (by norm_num) (by norm_num) (by norm_num)
  have e : (mapCall (fun v => XR.fin v.val) exQuarter).normDesign = .bwLowPass (.fin (1 / 4)) := by
    show Design.bwLowPass (XR.fin (Dbl.val _) / XR.fin (Dbl.val _)) = _
    rw [h2, h4, XR.fin_div _ (by norm_num)]
    norm_num
  have e' : Real.tan (Real.pi * (1 / 4)) = 1 := by rw [mul_one_div, Real.tan_pi_div_four]
  have := IdealBw.low (f := 1 / 4) (by norm_num) (by norm_num)
  rwa [e', ← e] at this

/-- its poles are at `±i (√2 - 1)` -/
theorem exQuarter_pole : bwDigital 1 2 0 = Complex.I * (Real.sqrt 2 - 1 : ℝ) := by
  have hP : bwPole 2 0 = (-1 + Complex.I) / Real.sqrt 2 := by
    have e : bwPole 2 0 = Complex.exp ((3 * Real.pi / 4 : ℝ) * Complex.I) := by
      rw [bwPole]; congr 1; push_cast; ring
    have c : Real.cos (3 * Real.pi / 4) = -(Real.sqrt 2 / 2) := by
      rw [show 3 * Real.pi / 4 = Real.pi - Real.pi / 4 by ring, Real.cos_pi_sub, Real.cos_pi_div_four]
    have s : Real.sin (3 * Real.pi / 4) = Real.sqrt 2 / 2 := by
      rw [show 3 * Real.pi / 4 = Real.pi - Real.pi / 4 by ring, Real.sin_pi_sub, Real.sin_pi_div_four]
    rw [e, Complex.exp_mul_I, ← Complex.ofReal_cos, ← Complex.ofReal_sin, c, s]
    have h2 : (Real.sqrt 2 : ℂ) ^ 2 = 2 := by exact_mod_cast Real.sq_sqrt (by norm_num : (0 : ℝ) ≤ 2)
    have h0 : (Real.sqrt 2 : ℂ) ≠ 0 := by intro h; rw [h] at h2; norm_num at h2
    rw [eq_div_iff h0]
    push_cast
    linear_combination (-1 / 2 + Complex.I / 2) * h2
  have h2 : (Real.sqrt 2 : ℂ) ^ 2 = 2 := by exact_mod_cast Real.sq_sqrt (by norm_num : (0 : ℝ) ≤ 2)
  have h0 : (Real.sqrt 2 : ℂ) ≠ 0 := by intro h; rw [h] at h2; norm_num at h2
  have hd : 1 - (1 : ℂ) * ((-1 + Complex.I) / Real.sqrt 2) ≠ 0 := by
    intro h
    have h3 := congrArg Complex.im h
    have e : 1 - (1 : ℂ) * ((-1 + Complex.I) / Real.sqrt 2) = ((1 + 1 / Real.sqrt 2 : ℝ) : ℂ) + ((-(1 / Real.sqrt 2) : ℝ) : ℂ) * Complex.I := by
      push_cast; ring
    rw [e] at h3
    simp at h3
  rw [bwDigital, Complex.ofReal_one, hP, div_eq_iff hd]
  push_cast
  field_simp
  linear_combination (-Complex.I) * h2 + (Real.sqrt 2 - 1 : ℂ) * Complex.I_sq

/-- the error is at most `27 / 2 ^ 30` of the largest input -/
theorem exQuarter_bound : bwAmplifies 1 2 * (bwSharp 1 2 + 2) / 2 ^ 30 ≤ 27 / 2 ^ 30 := by
  have h1 : bwDigital 1 2 1 = starRingEnd ℂ (bwDigital 1 2 0) := bwDigital_conj (φ := 1) (o := 2) (k := 0) (by norm_num)
  have s1 : (1.414 : ℝ) ≤ Real.sqrt 2 := Real.le_sqrt_of_sq_le (by norm_num)
  have s2 : Real.sqrt 2 ≤ 1.4143 := Real.sqrt_le_iff.2 ⟨by norm_num, by norm_num⟩
  have n1 : ‖bwDigital 1 2 0‖ = Real.sqrt 2 - 1 := by
    rw [exQuarter_pole, norm_mul, Complex.norm_I, one_mul, Complex.norm_real, Real.norm_eq_abs, abs_of_nonneg (by linarith)]
  have n2 : ‖1 - bwDigital 1 2 0‖ ^ 2 = 1 + (Real.sqrt 2 - 1) ^ 2 := by
    rw [← Complex.normSq_eq_norm_sq, Complex.normSq_apply, exQuarter_pole]
    simp
    ring
  have n3 : ‖1 - starRingEnd ℂ (bwDigital 1 2 0)‖ = ‖1 - bwDigital 1 2 0‖ := by
    rw [← Complex.norm_conj (1 - bwDigital 1 2 0), map_sub, map_one]
  have A : bwAmplifies 1 2 = (1 + (Real.sqrt 2 - 1) ^ 2) / (2 - Real.sqrt 2) ^ 2 := by
    rw [bwAmplifies, Finset.prod_range_succ, Finset.prod_range_one, h1, Complex.norm_conj, n3, n1, div_mul_div_comm, ← sq, n2]
    congr 1; ring
  have Q : bwSharp 1 2 = 2 / (2 - Real.sqrt 2) ^ 2 := by
    rw [bwSharp, Finset.sum_range_succ, Finset.sum_range_one, h1, Complex.norm_conj, n1]
    ring
  refine div_le_div_of_nonneg_right ?_ (by positivity)
  have d : (0.5857 : ℝ) ^ 2 ≤ (2 - Real.sqrt 2) ^ 2 := pow_le_pow_left₀ (by norm_num) (by linarith) 2
  have A' : bwAmplifies 1 2 ≤ 3.416 := by
    rw [A, div_le_iff₀ (lt_of_lt_of_le (by norm_num) d)]
    nlinarith
  have Q' : bwSharp 1 2 ≤ 5.831 := by
    rw [Q, div_le_iff₀ (lt_of_lt_of_le (by norm_num) d)]
    nlinarith
  have Q0 : 0 ≤ bwSharp 1 2 := by rw [Q]; positivity
  nlinarith

/-- all of it: a new low pass of order two, set up in double arithmetic and fed with samples of magnitude at most one,
returns samples within `27 / 2 ^ 30` of those of the same filter without rounding -/
example (x : ℕ → Dbl) (hx : ∀ i, (x i).Finite ∧ |(x i).val| ≤ 1) :
    ∃ f', PoleFilter.setup 2 exQuarter (PoleFilter.init DirectFormII .bwLowPass 2) = (.ok (), f') ∧
      ∃ y', Returns (PoleFilter.filter (T := Dbl)) (PoleFilter.reset f').2 x y' ∧
        ∃ y, SetupRuns DirectFormII XR 2 (mapCall (fun v => XR.fin v.val) exQuarter) (fun i => (x i).val) y ∧
          ∀ i, (y' i).Finite ∧ |(y' i).val - y i| ≤ 27 / 2 ^ 30 := by
  obtain ⟨h1, -⟩ := Dbl.lit2_val (m := 12000) (e := 0) (by norm_num) (by norm_num) (by norm_num)
  obtain ⟨h2, -⟩ := Dbl.lit2_val (m := 48000) (e := 0) (by norm_num) (by norm_num) (by norm_num)
  obtain ⟨f', h3, h4⟩ := C77_double (S := DirectFormII) (T := Dbl) (n := 2) (o := 2) (call := exQuarter) (by norm_num)
    (by norm_num) (by norm_num) le_rfl .new rfl ⟨h2, h1⟩ exQuarter_ideal DirectFormII XR
  obtain ⟨y', h5, y, h6, h7⟩ := h4 1 x hx (div_le_one_of_le₀ (one_le_pow₀ (by norm_num)) (by positivity)) (one_le_pow₀ (by norm_num))
  refine ⟨f', h3, y', h5, y, h6, fun i => ⟨(h7 i).1, (h7 i).2.trans ?_⟩⟩
  have := exQuarter_bound
  rw [mul_one]
  exact_mod_cast this

end Iir
