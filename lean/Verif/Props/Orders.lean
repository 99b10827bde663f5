import Verif.Props.HistoryExact
import Verif.Props.TimeDomain

/-! # C49: orders that are zero or negative

`setup` and `setupN` reject orders above the template order only. -/

set_option linter.unusedSectionVars false

namespace Iir
open Spec XR FArith Exec Cascade

variable {S : Type → Type} [StateType S XR] {T : Type} [Sample T XR] {c : Cls} {n : Nat} {f : PoleFilter S XR}
  {call : Call XR}

/-! ## Transforms of a prototype without poles -/

/-- a normalisation frequency that `Cascade::response` does not reject -/
def XR.Rated (w : XR) : Prop := flt 0.5 (w / (2 * pi)) = false ∧ flt (w / (2 * pi)) 0 = false

theorem rated_fin {w : ℝ} (h0 : 0 ≤ w) (h1 : w ≤ Real.pi) : Rated (fin w) := by
  have hp := Real.pi_pos
  have e : (fin w : XR) / (2 * pi) = fin (w / (2 * Real.pi)) := by
    rw [lit_ofNat, pi_eq, fin_mul, fin_div _ (by positivity)]
  constructor
  · rw [e, lit_sci, flt_fin, decide_eq_false_iff_not, not_lt, div_le_iff₀ (by positivity)]
    norm_num; linarith
  · rw [e, lit_zero, flt_fin, decide_eq_false_iff_not, not_lt]
    positivity

theorem rated_nan : Rated nan := ⟨rfl, rfl⟩

theorem rated_atan (x : XR) : Rated (2 * FArith.atan (FArith.sqrt x)) := by
  have hp := Real.pi_pos
  have key : ∀ y : XR, Rated (2 * XR.atan (XR.sqrt y)) := by
    intro y
    cases y with
    | nan => exact rated_nan
    | ninf => exact rated_nan
    | pinf =>
      have : (2 * XR.atan (XR.sqrt pinf) : XR) = fin Real.pi := by
        rw [lit_ofNat]
        simp only [XR.sqrt, XR.atan]
        rw [fin_mul]
        congr 1; ring
      rw [this]; exact rated_fin hp.le le_rfl
    | fin x =>
      by_cases hx : x < 0
      · have : XR.sqrt (fin x) = nan := by simp [XR.sqrt, hx]
        rw [this]; exact rated_nan
      · have : (2 * XR.atan (XR.sqrt (fin x)) : XR) = fin (2 * Real.arctan (Real.sqrt x)) := by
          rw [lit_ofNat]
          simp only [XR.sqrt, if_neg hx, XR.atan]
          rw [fin_mul]
        rw [this]
        have h1 := Real.arctan_lt_pi_div_two (Real.sqrt x)
        have h2 : 0 ≤ Real.arctan (Real.sqrt x) := Real.arctan_nonneg.2 (Real.sqrt_nonneg x)
        exact rated_fin (by linarith) (by linarith)
  exact key x

/-- A prototype without poles normalised at 0 or `π` goes through every transform. -/
theorem Design.trans_empty (d : Design XR) {fc : ℝ} (hf : d.freq = fin fc) (h0 : 0 ≤ fc) (h1 : fc < 1 / 2)
    {a l : Layout XR} (ha : a.numPoles = 0) {w : ℝ} (hw : a.normalW = fin w) (hw0 : 0 ≤ w) (hw1 : w ≤ Real.pi) :
    ∃ l', d.trans a l = (.ok (), l') ∧ l'.numPoles = 0 ∧ Rated l'.normalW := by
  have hck : ∀ s : Layout XR, checkFreq (fin fc) s = (.ok (), s) := fun s => checkFreq_ok h0 h1 s
  have hp := Real.pi_pos
  match d, hf with
  | .bwLowPass _, rfl | .bwLowShelf _ _, rfl | .c1LowPass _ _, rfl | .c1LowShelf _ _ _, rfl | .c2LowPass _ _, rfl
  | .c2LowShelf _ _ _, rfl =>
    refine ⟨_, lowPassTransform_empty h0 h1 ha, rfl, ?_⟩
    simp only [hw]; exact rated_fin hw0 hw1
  | .bwHighPass _, rfl | .bwHighShelf _ _, rfl | .c1HighPass _ _, rfl | .c1HighShelf _ _ _, rfl
  | .c2HighPass _ _, rfl | .c2HighShelf _ _ _, rfl =>
    simp only [Design.trans, highPassTransform, bind_def, hck, Layout.reset, modify_def, mapLayout, ha]
    refine ⟨_, rfl, rfl, ?_⟩
    simp only [hw, pi_eq, fin_sub]; exact rated_fin (by linarith) (by linarith)
  | .bwBandPass _ _, rfl | .c1BandPass _ _ _, rfl | .c2BandPass _ _ _, rfl =>
    simp only [Design.trans, bandPassTransform, bind_def, hck, Layout.reset, modify_def, bpLayout, ha]
    exact ⟨_, rfl, rfl, rated_atan _⟩
  | .bwBandStop _ _, rfl | .c1BandStop _ _ _, rfl | .c2BandStop _ _ _, rfl =>
    simp only [Design.trans, bandStopTransform, bind_def, hck, Layout.reset, modify_def, bsLayout, ha]
    cases flt (fin fc) (0.25 : XR) with
    | true =>
      refine ⟨_, rfl, rfl, ?_⟩
      simp only [pi_eq]; exact rated_fin hp.le le_rfl
    | false =>
      refine ⟨_, rfl, rfl, ?_⟩
      simp only [lit_zero]; exact rated_fin le_rfl hp.le
  | .bwBandShelf _ _ _, rfl | .c1BandShelf _ _ _ _, rfl | .c2BandShelf _ _ _ _, rfl =>
    simp only [Design.trans, bandShelfTransform, bandPassTransform, bind_def, hck, Layout.reset, modify_def, bpLayout,
      ha]
    cases flt (fin fc) (0.25 : XR) with
    | true =>
      refine ⟨_, rfl, rfl, ?_⟩
      simp only [if_true, pi_eq]; exact rated_fin hp.le le_rfl
    | false =>
      refine ⟨_, rfl, rfl, ?_⟩
      simp only [Bool.false_eq_true, if_false, lit_zero]; exact rated_fin le_rfl hp.le

theorem Spec.SameConfig.trans {f g h : PoleFilter S XR} (a : SameConfig f g) (b : SameConfig g h) : SameConfig f h :=
  ⟨a.numStages.trans b.numStages, fun i => (a.stage i).trans (b.stage i), fun nf => (a.response nf).trans (b.response nf),
    a.poleZeros.trans b.poleZeros, a.stages.trans b.stages⟩

theorem default_identX : (Biquad.default : Biquad XR) = identX := by
  simp [Biquad.default, identX]

/-- an object without stages whose sections pass samples through is configured like a new one -/
theorem sameConfig_init (hc : f.base.cascade = Cascade.mk 0 (PoleFilter.numStages c n)
      (List.replicate (PoleFilter.numStages c n) identX)) (hd : f.base.digital.numPoles = 0) :
    SameConfig f (PoleFilter.init S c n) := by
  have e : f.base.cascade = (PoleFilter.init S c n : PoleFilter S XR).base.cascade := by
    rw [hc]
    simp only [PoleFilter.init, PoleFilter.initBase, CascadeStages.initStages, default_identX]
  refine ⟨?_, fun i => ?_, fun nf => ?_, ?_, ?_⟩
  · unfold PoleFilter.getNumStages; rw [e]
  · unfold PoleFilter.getStage; rw [e]
  · unfold PoleFilter.response; rw [e]
  · unfold PoleFilter.getPoleZeros PFB.getPoleZeros
    have e0 : (PoleFilter.init S c n : PoleFilter S XR).base.digital.numPoles = 0 := rfl
    rw [hd, e0]; rfl
  · rw [e]

/-- Second half of `setup`, for a prototype without poles. -/
theorem PFB.rest_empty (d : Design XR) {fc : ℝ} (hf : d.freq = fin fc) (h0 : 0 ≤ fc) (h1 : fc < 1 / 2)
    {p : PFB XR} (hp : p.Ok d.cls n) (ha : p.analog.lay.numPoles = 0) {w : ℝ} (hw : p.analog.lay.normalW = fin w)
    (hw0 : 0 ≤ w) (hw1 : w ≤ Real.pi) :
    ∃ p', PFB.rest d p = (.ok (), p') ∧ p'.digital.numPoles = 0 ∧ p'.cascade =
      Cascade.mk 0 (PoleFilter.numStages d.cls n) (List.replicate (PoleFilter.numStages d.cls n) identX) := by
  obtain ⟨l', e1, e2, e3⟩ := d.trans_empty hf h0 h1 (l := p.digital) ha hw hw0 hw1
  rw [PFB.rest_apply, e1]
  simp only
  rw [setLayout_empty hp.cascade e2 e3.1 e3.2]
  exact ⟨_, rfl, e2, rfl⟩

theorem Cls.lay0_normalW (c : Cls) :
    ∃ w : ℝ, (c.lay0 n : Layout XR).normalW = fin w ∧ 0 ≤ w ∧ w ≤ Real.pi := by
  have hp := Real.pi_pos
  have e0 : ∃ w : ℝ, (0 : XR) = fin w ∧ 0 ≤ w ∧ w ≤ Real.pi := ⟨0, lit_zero, le_rfl, hp.le⟩
  have e1 : ∃ w : ℝ, (pi : XR) = fin w ∧ 0 ≤ w ∧ w ≤ Real.pi := ⟨_, pi_eq, hp.le, le_rfl⟩
  cases c <;> first | exact e0 | exact e1

theorem Call.normDesign_freq (call : Call XR) : call.normDesign.freq = call.normFreq := by
  cases call with
  | setupN d => rfl
  | setupNReq o d => rfl
  | setup fs d => cases d <;> rfl
  | setupReq o fs d => cases d <;> rfl

/-- **C49**, orders zero and even negative: the call is accepted whatever the ripple, gain and band width, and the object
is then configured like a new one: no stages, no poles, every sample passed through (C08). -/
theorem C49_even (hn1 : 1 ≤ n) (hn : n < 2 ^ 30) (h : Reach S T c n f) (hc : call.design.cls = c)
    (h0 : call.order n ≤ 0) (hl : -2 ^ 30 ≤ call.order n) (he : Even (call.order n)) {fc : ℝ}
    (hf : call.normFreq = fin fc) (hf0 : 0 ≤ fc) (hf1 : fc < 1 / 2) :
    ∃ f', PoleFilter.setup n call f = (.ok (), f') ∧ f'.states = f.states ∧
      SameConfig f' (PoleFilter.init S c n) := by
  subst hc
  have he' : call.order n % 2 = 0 := Int.even_iff.1 he
  have hl' : -1073741824 ≤ call.order n := by norm_num at hl; exact hl
  have hcls := call.normDesign_cls
  have hb := call.normDesign.build_even h0 hl' he' (call.design.cls.lay0 n)
  have hw : ∃ w : ℝ, (call.normDesign.build (call.order n) (call.design.cls.lay0 n)).2.normalW = fin w ∧ 0 ≤ w ∧
      w ≤ Real.pi := by
    cases hc1 : call.normDesign.cls.c1lp with
    | true => exact ⟨0, (hb.2.2.2.2 hc1).trans lit_zero, le_rfl, Real.pi_pos.le⟩
    | false =>
      rw [(hb.2.2.2.1 hc1).1]
      exact Cls.lay0_normalW _
  obtain ⟨w, hw, hw0, hw1⟩ := hw
  have hfr := (call.normDesign_freq).trans hf
  -- on a new object
  have hnew : ∃ p', call.run n (PoleFilter.initBase call.design.cls n) = (.ok (), p') ∧ p'.digital.numPoles = 0 ∧
      p'.cascade = Cascade.mk 0 (PoleFilter.numStages call.design.cls n)
        (List.replicate (PoleFilter.numStages call.design.cls n) identX) := by
    rw [Call.run_eq, if_neg (by omega), ← hcls] at *
    generalize call.normDesign = d at *
    generalize call.order n = o at *
    obtain ⟨a, ea, ha⟩ : ∃ a, d.proto o (PoleFilter.initBase d.cls n : PFB XR).analog = (.ok (), a) ∧
        a.lay = (d.build o (d.cls.lay0 n)).2 := by
      cases hs : d.stale o (PoleFilter.initBase d.cls n : PFB XR).analog with
      | false =>
        refine ⟨_, d.proto_hit hs, ?_⟩
        rw [d.fresh_hit (by omega) hs]; rfl
      | true =>
        refine ⟨_, d.proto_miss hs |>.trans (Prod.ext hb.1 rfl), rfl⟩
    have hok := PFB.ok_init (R := XR) d.cls n
    rw [PFB.baseSetup_proto, ea]
    exact PFB.rest_empty d hfr hf0 hf1 (p := { (PoleFilter.initBase d.cls n : PFB XR) with analog := a })
      ⟨hok.cascade, hok.digital, by simp only [ha]; exact ⟨by rw [hb.2.1]; omega, by rw [hb.2.2.1]; exact (Cls.lay0_atMost _ n).2⟩⟩
      (by simp only [ha]; exact hb.2.1) (by simp only [ha]; exact hw) hw0 hw1
  obtain ⟨p', e1, e2, e3⟩ := hnew
  have := Call.run_fresh hn1 hn h rfl (by omega) fun _ => hb.1
  rw [e1] at this
  refine ⟨_, Prod.ext this.1 rfl, rfl, ((this.2 this.1).sameConfig (g := ⟨p', (PoleFilter.init S call.design.cls n).states⟩)).trans
    (sameConfig_init e3 e2)⟩

/-- The hypotheses are met by an absurd call: a Chebyshev band pass of order -4 with NaN ripple and negative
band width turns the object into a wire. -/
example (h : Reach S T .c1BandPass 4 f) :
    ∃ f', PoleFilter.setup 4 (.setupNReq (-4) (.c1BandPass (fin (1 / 4)) (fin (-1)) nan)) f = (.ok (), f') ∧
      f'.states = f.states ∧ SameConfig f' (PoleFilter.init S .c1BandPass 4) :=
  C49_even (by norm_num) (by norm_num) h rfl (by decide) (by decide) (by decide) rfl (by norm_num) (by norm_num)

/-! ## Odd negative orders, Butterworth -/

section odd
variable {R : Type} [FArith R]

/-- low pass, high pass, band pass and band stop of the Butterworth family -/
def Spec.IsButterworthPass : Cls → Prop
  | .bwLowPass | .bwHighPass | .bwBandPass | .bwBandStop => True
  | _ => False

theorem Butterworth.build_odd {o : ℤ} (h0 : o < 0) (hl : -1073741824 ≤ o) (ho : o % 2 = 1) :
    (Butterworth.lowPassBuild o : Exec (Layout R) Unit) = Butterworth.lowPassBuild 1 := by
  have h1 : (o.tdiv 2).toNat = 0 := by
    obtain ⟨k, hk⟩ : ∃ k : ℕ, o = -k := ⟨o.natAbs, by omega⟩
    rw [hk, Int.neg_tdiv]
    have : 0 ≤ (k : ℤ).tdiv 2 := Int.tdiv_nonneg (by omega) (by omega)
    omega
  have h2 : (o % 2 == 1) = true := by rw [ho]; rfl
  have h3 : (intChecked (2 * o) : Exec (Layout R) ℤ) = Exec.pure (2 * o) := by
    unfold intChecked; rw [if_pos (by constructor <;> omega)]
  funext l
  unfold Butterworth.lowPassBuild
  simp only [bind_def, h1, h2, h3, Layout.reset, modify_def]
  rfl

theorem Design.build_bwPass {d : Design R} (h : IsButterworthPass d.cls) (o : ℤ) :
    d.build o = Butterworth.lowPassBuild o := by
  cases d <;> first | rfl | exact h.elim

theorem Design.stale_bwPass {d : Design R} (h : IsButterworthPass d.cls) (o : ℤ) (a : Proto R) :
    d.stale o a = (a.numPoles != o) := by
  cases d <;> first | rfl | exact h.elim

/-- the order the cache is keyed with differs from -1 after a successful call with another order -/
theorem PFB.key_after {d : Design R} (h : IsButterworthPass d.cls) {o : ℤ} {p p' : PFB R}
    (hr : d.baseSetup o p = (.ok (), p')) : p'.analog.numPoles = o := by
  rw [PFB.baseSetup_proto] at hr
  cases hs : d.stale o p.analog with
  | false =>
    rw [d.proto_hit hs] at hr
    have := PFB.rest_analog d p
    simp only at hr
    rw [hr] at this
    rw [d.stale_bwPass h] at hs
    rw [this]
    simpa using hs
  | true =>
    rw [d.proto_miss hs] at hr
    revert hr
    rcases d.build o p.analog.lay with ⟨r, l⟩
    cases r
    · intro hr
      simp only at hr
      have := PFB.rest_analog d { p with analog := { d.setKey o p.analog with lay := l } }
      rw [hr] at this
      rw [this]
      cases d <;> rfl
    · intro hr; simp at hr
    · intro hr; simp at hr

/-- Two designs with the same transform and the same prototype, at different orders, give the same result. -/
theorem PFB.baseSetup_same [SignedZeros R] {d d' : Design R} {c : Cls} (hd : d.cls = c) (hd' : d'.cls = c)
    (htr : d.trans = d'.trans) {p q : PFB R} (hn1 : 1 ≤ n)
    (hp : p.Ok c n) (hpc : Proto.Coh c n p.analog) (hq : q.Ok c n) (hqc : Proto.Coh c n q.analog)
    {o o' : ℤ} (hon : o ≤ n) (hon' : o' ≤ n) (hbp : builtPoles o = builtPoles o') (eb : d.build o = d'.build o')
    (hk : d.stale o p.analog = false → o ≠ -1) (hk' : d'.stale o' q.analog = false → o' ≠ -1)
    (hb : (d'.build o' (c.lay0 n)).1 = .ok ()) :
    (d.baseSetup o p).1 = (d'.baseSetup o' q).1 ∧
      ((d.baseSetup o p).1 = .ok () → PFB.Agree (d.baseSetup o p).2 (d'.baseSetup o' q).2) := by
  have hproto : ∃ a, d.proto o p.analog = (.ok (), a) ∧
      Layout.Same (builtPoles o') ((n + 1) / 2) ((n + 1) / 2) a.lay (d'.build o' (c.lay0 n)).2 := by
    cases hs : d.stale o p.analog with
    | false =>
      refine ⟨_, d.proto_hit hs, ?_⟩
      have := hpc.coh d o hd (hk hs) hon hs (by rw [eb]; exact hb)
      rwa [hbp, eb] at this
    | true =>
      have := d.build_same (n' := n) (o := o) hn1 hon hn1 hon p.analog.lay (c.lay0 n)
        ⟨hp.analog.2, (Cls.lay0_atMost _ n).2⟩ (fun h => (hpc.nrm (hd ▸ h)).1) (fun h => (hpc.nrm (hd ▸ h)).2)
      rw [hbp, eb] at this
      have h1 := this.1.trans hb
      exact ⟨_, by rw [d.proto_miss hs, eb, h1], this.2 h1⟩
  have hproto' : ∃ a, d'.proto o' q.analog = (.ok (), a) ∧
      Layout.Same (builtPoles o') ((n + 1) / 2) ((n + 1) / 2) a.lay (d'.build o' (c.lay0 n)).2 := by
    cases hs : d'.stale o' q.analog with
    | false => exact ⟨_, d'.proto_hit hs, hqc.coh d' o' hd' (hk' hs) hon' hs hb⟩
    | true =>
      have := d'.build_same (n' := n) (o := o') hn1 hon' hn1 hon' q.analog.lay (c.lay0 n)
        ⟨hq.analog.2, (Cls.lay0_atMost _ n).2⟩ (fun h => (hqc.nrm (hd' ▸ h)).1) (fun h => (hqc.nrm (hd' ▸ h)).2)
      have h1 := this.1.trans hb
      exact ⟨_, by rw [d'.proto_miss hs, h1], this.2 h1⟩
  obtain ⟨a, h1, h2⟩ := hproto
  obtain ⟨a', h3, h4⟩ := hproto'
  have hle := builtPoles_le hon' hn1
  have hrest : PFB.rest d = PFB.rest d' := by
    funext p; rw [PFB.rest_apply, PFB.rest_apply, htr]
  rw [PFB.baseSetup_proto, PFB.baseSetup_proto, h1, h3]
  simp only
  rw [hrest]
  subst hd'
  exact PFB.rest_same (d := d') hn1 (p := { p with analog := a }) (p' := { q with analog := a' })
    ⟨hp.cascade, hp.digital, ⟨h2.veq.left.1 ▸ hle, h2.veq.left.2⟩⟩
    ⟨hq.cascade, hq.digital, ⟨h4.veq.left.1 ▸ hle, h4.veq.left.2⟩⟩ (h2.trans h4.symm)

theorem builtPoles_neg_odd {o : ℤ} (h0 : o < 0) (ho : o % 2 = 1) : builtPoles o = builtPoles 1 := by
  unfold builtPoles; rw [if_pos h0, ho]; rfl

end odd

/-- What `call` asks for, with order 1. -/
noncomputable def Spec.orderOne (call : Call XR) : Call XR := .setupNReq 1 call.normDesign

theorem setup_odd {g : PoleFilter S XR} (hn1 : 1 ≤ n) (hn : n < 2 ^ 30) (h : Reach S T c n f) (hg : Reach S T c n g)
    (hc : call.design.cls = c) (hb : IsButterworthPass c) (h0 : call.order n < 0) (hl : -2 ^ 30 ≤ call.order n)
    (ho : Odd (call.order n)) (hk : call.order n ≠ -1 ∨ f.base.analog.numPoles ≠ -1) :
    (PoleFilter.setup n call f).1 = (PoleFilter.setup n (orderOne call) g).1 ∧
      ((PoleFilter.setup n call f).1 = .ok () →
        SameConfig (PoleFilter.setup n call f).2 (PoleFilter.setup n (orderOne call) g).2) := by
  have hcls : call.normDesign.cls = c := call.normDesign_cls.trans hc
  have e1 : (orderOne call).order n = 1 := rfl
  have e2 : (orderOne call).normDesign = call.normDesign := rfl
  rw [PoleFilter.setup_apply, PoleFilter.setup_apply, Call.run_eq, Call.run_eq, if_neg (by omega), e1, e2,
    if_neg (by omega)]
  have hok := h.ok hn1 hn
  have hcoh := h.coh hn1 hn
  have hok' := hg.ok hn1 hn
  have hcoh' := hg.coh hn1 hn
  subst hcls
  have hgood : GoodProto call.normDesign := by
    generalize call.normDesign = d at *
    cases d <;> trivial
  have ho' := Int.odd_iff.1 ho
  have := PFB.baseSetup_same (o := call.order n) (o' := 1) rfl rfl rfl hn1 hok hcoh hok' hcoh' (by omega)
    (by omega)
    (builtPoles_neg_odd h0 ho')
    (by rw [Design.build_bwPass hb, Design.build_bwPass hb, Butterworth.build_odd h0 (by norm_num at hl; exact hl) ho'])
    (by
      intro hs
      rcases hk with h | h
      · exact h
      · intro h1
        rw [Design.stale_bwPass hb, h1] at hs
        exact h (by simpa using hs))
    (fun _ => by decide) (hgood.build (o := 1) (by norm_num) (by omega) hn)
  exact ⟨this.1, fun h1 => PFB.Agree.sameConfig (this.2 h1)⟩

/-- **C49**, odd negative orders of Butterworth low, high, band pass and band stop: except for -1 they end as, and
configure the object as, order 1 does. -/
theorem C49_odd {g : PoleFilter S XR} (hn1 : 1 ≤ n) (hn : n < 2 ^ 30) (h : Reach S T c n f) (hg : Reach S T c n g)
    (hc : call.design.cls = c) (hb : IsButterworthPass c) (h0 : call.order n < -1) (hl : -2 ^ 30 ≤ call.order n)
    (ho : Odd (call.order n)) :
    (PoleFilter.setup n call f).1 = (PoleFilter.setup n (orderOne call) g).1 ∧
      ((PoleFilter.setup n call f).1 = .ok () →
        SameConfig (PoleFilter.setup n call f).2 (PoleFilter.setup n (orderOne call) g).2) :=
  setup_odd hn1 hn h hg hc hb (by omega) hl ho (.inl (by omega))

/-- **C49**, order -1, on an object that was last set up (successfully) with another order: as order 1. -/
theorem C49_minus_one_used {g : PoleFilter S XR} (hn1 : 1 ≤ n) (hn : n < 2 ^ 30) (h : Reach S T c n f)
    (hg : Reach S T c n g) (hc : call.design.cls = c) (hb : IsButterworthPass c) (ho : call.order n = -1)
    {before : Call XR} (hc' : before.design.cls = c) (hbo : before.order n ≠ -1)
    {f1 : PoleFilter S XR} (hs : PoleFilter.setup n before f = (.ok (), f1)) :
    (PoleFilter.setup n call f1).1 = (PoleFilter.setup n (orderOne call) g).1 ∧
      ((PoleFilter.setup n call f1).1 = .ok () →
        SameConfig (PoleFilter.setup n call f1).2 (PoleFilter.setup n (orderOne call) g).2) := by
  have hcls : before.normDesign.cls = c := before.normDesign_cls.trans hc'
  have h1 : Reach S T c n f1 := .call f f1 (.setup before) (.ok ()) h hc' hs (by simp)
  refine setup_odd hn1 hn h1 hg hc hb (by omega) (by omega) (by rw [ho]; decide) (.inr ?_)
  have hrun : (before.run n f.base).1 = .ok () := congrArg Prod.fst hs
  have hf1 : f1.base = (before.run n f.base).2 := (congrArg (fun q => q.2.base) hs).symm
  rw [Call.run_eq] at hrun hf1
  by_cases hgt : before.order n > n
  · rw [if_pos hgt] at hrun; simp at hrun
  rw [if_neg hgt] at hrun hf1
  rw [hf1, PFB.key_after (d := before.normDesign) (by rw [hcls]; exact hb) (Prod.ext hrun rfl)]
  exact hbo

/-- **C49**, order -1 on a new object: accepted and ignored, the object stays as it was. -/
theorem C49_minus_one_new (hc : call.design.cls = c) (hb : IsButterworthPass c) (ho : call.order n = -1) {fc : ℝ}
    (hf : call.normFreq = fin fc) (hf0 : 0 ≤ fc) (hf1 : fc < 1 / 2) :
    ∃ f', PoleFilter.setup n call (PoleFilter.init S c n) = (.ok (), f') ∧
      SameConfig f' (PoleFilter.init S c n) := by
  subst hc
  have hcls := call.normDesign_cls
  have hfr := (call.normDesign_freq).trans hf
  obtain ⟨w, hw, hw0, hw1⟩ := Cls.lay0_normalW (n := n) call.design.cls
  have hnew : ∃ p', call.run n (PoleFilter.initBase call.design.cls n) = (.ok (), p') ∧ p'.digital.numPoles = 0 ∧
      p'.cascade = Cascade.mk 0 (PoleFilter.numStages call.design.cls n)
        (List.replicate (PoleFilter.numStages call.design.cls n) identX) := by
    rw [← hcls] at hb
    rw [Call.run_eq, if_neg (by omega), ← hcls] at *
    generalize call.normDesign = d at *
    rw [ho, PFB.baseSetup_proto, d.proto_hit]
    · exact PFB.rest_empty d hfr hf0 hf1 (PFB.ok_init (R := XR) d.cls n) rfl hw hw0 hw1
    · rw [d.stale_bwPass hb]
      cases d <;> first | rfl | exact hb.elim
  obtain ⟨p', e1, e2, e3⟩ := hnew
  rw [PoleFilter.setup_apply]
  refine ⟨_, Prod.ext (congrArg (fun q => q.1) e1) rfl, sameConfig_init ?_ ?_⟩
  · exact (congrArg (fun q => q.2.cascade) e1).trans e3
  · exact (congrArg (fun q => q.2.digital.numPoles) e1).trans e2

/-- So the same call, `setupN(-1, 0.25)` on a Butterworth low pass, leaves a new object without any stage but gives one
that was set up before a first order low pass. -/
theorem C49_history (S : Type → Type) [StateType S XR] :
    ∃ call : Call XR, ∃ f g : PoleFilter S XR, Reach S XR .bwLowPass 2 f ∧ Reach S XR .bwLowPass 2 g ∧
      (PoleFilter.setup 2 call f).1 = .ok () ∧ (PoleFilter.setup 2 call g).1 = .ok () ∧
      (PoleFilter.setup 2 call f).2.getNumStages = 0 ∧ (PoleFilter.setup 2 call g).2.getNumStages = 1 := by
  obtain ⟨f', e1, e2⟩ := C49_minus_one_new (S := S) (n := 2) (call := .setupNReq (-1) (.bwLowPass (fin (1 / 4))))
    rfl trivial rfl (fc := 1 / 4) rfl (by norm_num) (by norm_num)
  obtain ⟨g, e3, -, -⟩ := C30_lowpass (S := S) (T := XR) (call := .setupN (.bwLowPass (fin (1 / 4)))) (n := 2) (o := 2)
    (fc := 1 / 4) ⟨rfl, rfl, by norm_num, le_rfl, by norm_num⟩ (by norm_num) (by norm_num) _ .new
  obtain ⟨g', e4, -, e5⟩ := C30_lowpass (S := S) (T := XR) (call := .setupNReq 1 (.bwLowPass (fin (1 / 4)))) (n := 2)
    (o := 1) (fc := 1 / 4) ⟨rfl, rfl, by norm_num, by norm_num, by norm_num⟩ (by norm_num) (by norm_num) _ .new
  have e6 := C49_minus_one_used (S := S) (T := XR) (f := PoleFilter.init S .bwLowPass 2)
    (g := PoleFilter.init S .bwLowPass 2) (by norm_num) (by norm_num) .new .new
    (call := .setupNReq (-1) (.bwLowPass (fin (1 / 4)))) rfl trivial rfl
    (before := .setupN (.bwLowPass (fin (1 / 4)))) rfl (by decide) e3
  have e7 : PoleFilter.setup 2 (orderOne (.setupNReq (-1) (.bwLowPass (fin (1 / 4)))))
    (PoleFilter.init S .bwLowPass 2) = (.ok (), g') := e4
  rw [e7] at e6
  have e8 : Reach S XR .bwLowPass 2 g :=
    .call _ g (.setup (.setupN (.bwLowPass (fin (1 / 4))))) (.ok ()) .new rfl e3 (by simp)
  refine ⟨.setupNReq (-1) (.bwLowPass (fin (1 / 4))), PoleFilter.init S .bwLowPass 2, g, .new, e8,
    congrArg (fun q => q.1) e1, e6.1, ?_, ?_⟩
  · exact (congrArg (fun q => q.2.getNumStages) e1).trans e2.numStages
  · exact (e6.2 e6.1).numStages.trans e5.1.stages

/-! ## Odd negative orders, Butterworth shelves -/

/-- The design with another gain (Butterworth shelves). -/
def Spec.withGain (g : XR) : Design XR → Design XR
  | .bwLowShelf fc _ => .bwLowShelf fc g
  | .bwHighShelf fc _ => .bwHighShelf fc g
  | .bwBandShelf fc fw _ => .bwBandShelf fc fw g
  | d => d

theorem Butterworth.shelf_odd {o : ℤ} (h0 : o < 0) (hl : -1073741824 ≤ o) (ho : o % 2 = 1) (G : ℝ) :
    (Butterworth.lowShelfBuild o (fin G) : Exec (Layout XR) Unit) = Butterworth.lowShelfBuild 1 (fin (G / o)) := by
  have h1 : (o.tdiv 2).toNat = 0 := by
    obtain ⟨k, hk⟩ : ∃ k : ℕ, o = -k := ⟨o.natAbs, by omega⟩
    rw [hk, Int.neg_tdiv]
    have : 0 ≤ (k : ℤ).tdiv 2 := Int.tdiv_nonneg (by omega) (by omega)
    omega
  have h2 : (o % 2 == 1) = true := by rw [ho]; rfl
  have h3 : (intChecked (o * 2) : Exec (Layout XR) ℤ) = Exec.pure (o * 2) := by
    unfold intChecked; rw [if_pos (by constructor <;> omega)]
  have ho' : (o : ℝ) ≠ 0 := by exact_mod_cast h0.ne
  have hpow : ∀ (g : ℝ) (k : ℤ), (k : ℝ) ≠ 0 → (FArith.pow (FArith.pow 10 (fin g / 20)) (1 / Proto.ofI k) : XR) =
      fin ((10 : ℝ) ^ (g / 20 * (1 / k))) := by
    intro g k hk
    rw [lit_ofNat, lit_ofNat, fin_div _ (by norm_num), pow_fin _ (by norm_num), lit_one]
    show FArith.pow _ (fin 1 / FArith.ofInt k) = _
    rw [ofInt_eq, fin_div _ hk, pow_fin _ (by positivity), ← Real.rpow_mul (by norm_num)]
  have e : (FArith.pow (FArith.pow 10 (fin G / 20)) (1 / Proto.ofI (o * 2)) : XR) =
      FArith.pow (FArith.pow 10 (fin (G / o) / 20)) (1 / Proto.ofI (1 * 2)) := by
    rw [hpow _ _ (by push_cast; exact mul_ne_zero ho' two_ne_zero), hpow _ _ (by norm_num)]
    congr 2
    push_cast
    field_simp
  funext l
  unfold Butterworth.lowShelfBuild
  simp only [bind_def, h1, h2, h3, Layout.reset, modify_def]
  show Layout.add (Cx.ofR (-1 / FArith.pow (FArith.pow 10 (fin G / 20)) (1 / Proto.ofI (o * 2)))) (Cx.ofR
    (-FArith.pow (FArith.pow 10 (fin G / 20)) (1 / Proto.ofI (o * 2)))) _ = _
  rw [e]
  rfl

/-- **C49**, odd negative orders of Butterworth shelves: order `o` with gain `G` dB ends as, and configures the object
as, order 1 with gain `G / o` dB: the gain changes sign. -/
theorem C49_odd_shelf {g : PoleFilter S XR} (hn1 : 1 ≤ n) (hn : n < 2 ^ 30) (h : Reach S T c n f)
    (hg : Reach S T c n g) (hc : call.design.cls = c) {G : ℝ}
    (hd : (∃ fc, call.normDesign = .bwLowShelf fc (fin G)) ∨ (∃ fc, call.normDesign = .bwHighShelf fc (fin G)) ∨
      (∃ fc fw, call.normDesign = .bwBandShelf fc fw (fin G)))
    (h0 : call.order n < -1) (hl : -2 ^ 30 ≤ call.order n) (ho : Odd (call.order n)) :
    (PoleFilter.setup n call f).1 =
        (PoleFilter.setup n (.setupNReq 1 (withGain (fin (G / call.order n)) call.normDesign)) g).1 ∧
      ((PoleFilter.setup n call f).1 = .ok () → SameConfig (PoleFilter.setup n call f).2
        (PoleFilter.setup n (.setupNReq 1 (withGain (fin (G / call.order n)) call.normDesign)) g).2) := by
  have hcls : call.normDesign.cls = c := call.normDesign_cls.trans hc
  generalize hcall : (Call.setupNReq 1 (withGain (fin (G / call.order n)) call.normDesign) : Call XR) = call'
  have e1 : call'.order n = 1 := by rw [← hcall]; rfl
  have e2 : call'.normDesign = withGain (fin (G / call.order n)) call.normDesign := by rw [← hcall]; rfl
  rw [PoleFilter.setup_apply, PoleFilter.setup_apply, Call.run_eq, Call.run_eq, if_neg (by omega), e1, e2,
    if_neg (by omega)]
  have hok := h.ok hn1 hn
  have hcoh := h.coh hn1 hn
  have hok' := hg.ok hn1 hn
  have hcoh' := hg.coh hn1 hn
  have ho' := Int.odd_iff.1 ho
  have hl' : -1073741824 ≤ call.order n := by norm_num at hl; exact hl
  generalize call.order n = o at *
  generalize call.normDesign = d at *
  have key : ∀ d' : Design XR, d'.cls = c → d.trans = d'.trans → d.build o = d'.build 1 → GoodProto d' →
      (d.baseSetup o f.base).1 = (d'.baseSetup 1 g.base).1 ∧
      ((d.baseSetup o f.base).1 = .ok () → PFB.Agree (d.baseSetup o f.base).2 (d'.baseSetup 1 g.base).2) :=
    fun d' hd' htr hbu hgood => PFB.baseSetup_same (o := o) (o' := 1) hcls hd' htr hn1 hok hcoh hok' hcoh' (by omega)
      (by omega) (builtPoles_neg_odd (by omega) ho') hbu (fun _ => by omega) (fun _ => by decide)
      (by rw [← hd']; exact hgood.build (o := 1) (by norm_num) (by omega) hn)
  have hsh := Butterworth.shelf_odd (o := o) (by omega) hl' ho' G
  have : (d.baseSetup o f.base).1 = ((withGain (fin (G / o)) d).baseSetup 1 g.base).1 ∧
      ((d.baseSetup o f.base).1 = .ok () →
        PFB.Agree (d.baseSetup o f.base).2 ((withGain (fin (G / o)) d).baseSetup 1 g.base).2) := by
    rcases hd with ⟨fc, rfl⟩ | ⟨fc, rfl⟩ | ⟨fc, fw, rfl⟩
    all_goals exact key _ hcls rfl hsh ⟨_, rfl⟩
  exact ⟨this.1, fun h1 => PFB.Agree.sameConfig (this.2 h1)⟩

end Iir
