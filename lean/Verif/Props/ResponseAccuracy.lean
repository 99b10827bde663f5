import Verif.Props.PoleAccuracy
import Verif.Lemmas.BwResponse
import Verif.Props.Transfer
import Verif.Lemmas.RbjResponse
import Verif.Props.Accuracy

/-! # C80: `response` in floating point arithmetic

C76 and C77 compare what `filter` returns with the output of the ideal filter.  Here it is what `response` returns, for a
Butterworth low or high pass that has been designed in the same arithmetic. -/

set_option linter.unusedSectionVars false

namespace Iir
open FArith Cx Exec Spec Proto

/-! ## The ideal filter -/

section
variable {s φ : ℝ} {o m : ℕ}

theorem bw_value (z : ℂ) :
    idealScale s (bwK s φ o) m * ∏ i ∈ Finset.range (m + 1), (numAt (bwK s φ o i) z⁻¹ / denAt (bwK s φ o i) z⁻¹) =
      (((idealChain (idealScale s (bwK s φ o) m) (bwK s φ o) m 0).map Coeffs.norm).map (secH · z)).prod := by
  have a0 : ∀ i, (bwK s φ o i).a0 = 1 := fun i => by unfold bwK; split_ifs <;> rfl
  rw [idealChain_secH (fun i _ => a0 i), Finset.prod_mul_distrib, ← Complex.ofReal_prod]
  congr 1
  · rw [Finset.prod_div_distrib]; rfl
  · exact Finset.prod_congr rfl fun i _ => (secH_norm_one (a0 i) z).symm

/-- where the filter stops -/
theorem bw_value_zero (hs : s = 1 ∨ s = -1) {z : ℂ} (hz : 1 + s * z⁻¹ = 0) :
    idealScale s (bwK s φ o) m * ∏ i ∈ Finset.range (m + 1), (numAt (bwK s φ o i) z⁻¹ / denAt (bwK s φ o i) z⁻¹) = 0 := by
  have hs2 : (s : ℂ) * s = 1 := by rcases hs with rfl | rfl <;> norm_num
  have : numAt (bwK s φ o 0) z⁻¹ = 0 := by
    unfold numAt bwK
    split_ifs
    · simp only [pairK]; push_cast; linear_combination (1 + s * z⁻¹) * hz - z⁻¹ ^ 2 * hs2
    · simp only [oneK]; push_cast; linear_combination hz
  rw [Finset.prod_eq_zero (Finset.mem_range.2 (Nat.succ_pos m)) (by rw [this, _root_.zero_div]), MulZeroClass.mul_zero]

end

variable {R : Type} [FArith R] {u η Ω : ℝ} {r : Rounds R u η Ω}

section
variable (hl : r.Library)
include hl

/-- the response of the ideal filter, in terms of its sections -/
theorem NearBw.value {d : Design R} {d0 : Design XR} {φ : ℝ} (h : r.NearBw d d0 φ) (S : Type → Type) [StateType S XR]
    [DelayLine XR S] (T : Type) [Sample T XR] {n o : ℕ} {call : Call XR} (ha : Asks call n o d0) {m : ℕ}
    (hm : (o + 1) / 2 = m + 1) {fr : ℝ} (f0 : 0 ≤ fr) (f1 : fr ≤ 1 / 2) :
    AfterSetup S T n call fun f => Response f fr (idealScale (bwSign d) (bwK (bwSign d) φ o) m *
      ∏ i ∈ Finset.range (m + 1), (numAt (bwK (bwSign d) φ o i) (circle fr)⁻¹ / denAt (bwK (bwSign d) φ o i) (circle fr)⁻¹)) := by
  obtain ⟨p1, p2⟩ := NearBw.phi hl h
  have p0 : 0 < φ := lt_of_lt_of_le (by norm_num) p1
  have key : ∀ {fc : R} {fc0 : ℝ}, r.Freq fc → |r.val fc - fc0| ≤ 1 / 2 ^ 50 → 0 < fc0 ∧ fc0 < 1 / 2 := fun a b => by
    obtain ⟨-, c1, c2⟩ := a
    obtain ⟨b1, b2⟩ := abs_le.1 b
    norm_num at *
    constructor <;> linarith
  have c0 : circle 0 = 1 := by simp [Spec.circle]
  have c2 : circle (1 / 2) = -1 := by
    rw [Spec.circle, ← Complex.exp_pi_mul_I]; congr 1; push_cast; ring
  cases h with
  | low hf h =>
    rename_i fc fc0
    obtain ⟨k0, k1⟩ := key hf h
    have ht := tanpi_pos k0 k1
    have ht' : (Real.tan (Real.pi * fc0) : ℂ) ≠ 0 := by exact_mod_cast ht.ne'
    refine (C66_response ha ⟨k0, k1⟩).mono fun f hf => ?_
    have e : bwSign (Design.bwLowPass fc) = 1 := rfl
    rw [e]
    rcases eq_or_lt_of_le f1 with rfl | f1
    · rw [bw_value_zero (.inl rfl) (by rw [c2]; norm_num)]
      exact hf.nyquist
    · have e := hf.value fr f0 f1
      rw [bw_value]
      rcases eq_or_lt_of_le f0 with rfl | f0
      · rw [bwChain_secH (ζ := Complex.I * lowRatio fc0 0) (.inl rfl) hm p0 (by rw [c0]; norm_num) (by
          rw [c0, lowRatio]; simp)]
        exact e
      · obtain ⟨c1, c2⟩ := circle_tan f0 f1
        rw [bwChain_secH (ζ := Complex.I * lowRatio fc0 fr) (.inl rfl) hm p0 (by
          rw [Complex.ofReal_one, one_mul]; exact c2) (by
          rw [Complex.ofReal_one, one_mul, c1, lowRatio]
          rw [Complex.ofReal_div, mul_assoc Complex.I (_ / _), div_mul_cancel₀ _ ht'])]
        exact e
  | high hf h =>
    rename_i fc fc0
    obtain ⟨k0, k1⟩ := key hf h
    have ht := tanpi_pos k0 k1
    have ht' : (Real.tan (Real.pi * fc0) : ℂ) ≠ 0 := by exact_mod_cast ht.ne'
    refine (C66_response ha ⟨k0, k1⟩).mono fun f hf => ?_
    have e : bwSign (Design.bwHighPass fc) = -1 := rfl
    rw [e]
    rcases eq_or_lt_of_le f0 with rfl | f0
    · rw [bw_value_zero (.inr rfl) (by rw [c0]; norm_num)]
      exact hf.dc
    · rw [bw_value]
      rcases eq_or_lt_of_le f1 with rfl | f1
      · rw [bwChain_secH (ζ := 0) (.inr rfl) hm p0 (by rw [c2]; norm_num) (by rw [c2]; norm_num)]
        exact hf.nyquist
      · have e := hf.value fr f0 f1
        obtain ⟨c1, c2⟩ := circle_tan f0 f1
        have hr := tanpi_pos f0 f1
        have hr' : (Real.tan (Real.pi * fr) : ℂ) ≠ 0 := by exact_mod_cast hr.ne'
        have es : ((-1 : ℝ) : ℂ) * (circle fr)⁻¹ = -(circle fr)⁻¹ := by push_cast; ring
        rw [bwChain_secH (ζ := 1 / (Complex.I * lowRatio fc0 fr)) (.inr rfl) hm p0 (by
          rw [es, ← sub_eq_add_neg, c1]
          exact mul_ne_zero (mul_ne_zero Complex.I_ne_zero hr') c2) (by
          rw [es, ← sub_eq_add_neg, sub_neg_eq_add, c1, lowRatio]
          push_cast at hr' ht' ⊢
          have hI := Complex.I_ne_zero
          field_simp)]
        exact e

end

/-! ## The computed response -/

/-- **C80**: a Butterworth low or high pass of order at most 16 is set up with a practical cutoff frequency, whatever was
done with the object before.  At every normalised frequency between 0 and 1/2, `response` then returns a finite number, and
it differs by at most `2⁻²⁸ A Q` from what the ideal filter returns, where `A` is what the sections amplify at most and `Q`
is how sharp the poles are. -/
theorem C80_accurate [SignedZeros R] (hl : r.Library) {S : Type → Type} [StateType S R] [DelayLine R S] {T : Type} [Sample T R]
    {c : Cls} {n o : ℕ} (hn : n < 2 ^ 30) (ho : 1 ≤ o) (h16 : o ≤ 16) (hon : o ≤ n) {f : PoleFilter S R} (h : Reach S T c n f)
    {call : Call R} (hc : call.design.cls = c) (hord : call.order n = o) {d0 : Design XR} {φ : ℝ}
    (hd : r.NearBw call.normDesign d0 φ) (S0 : Type → Type) [StateType S0 XR] [DelayLine XR S0] (T0 : Type) [Sample T0 XR]
    {n0 : ℕ} {call0 : Call XR} (h0 : Asks call0 n0 o d0) :
    ∃ f', PoleFilter.setup n call f = (.ok (), f') ∧ ∀ fr, r.Fin fr → 0 ≤ r.val fr → r.val fr ≤ 1 / 2 →
      ∃ v, f'.response fr = .ok v ∧ r.CFin v ∧ AfterSetup S0 T0 n0 call0 fun f0 =>
        ∃ H, Response f0 (r.val fr) H ∧ ‖r.cval v - H‖ ≤ bwAmplifies φ o * bwSharp φ o / 2 ^ 28 := by
  obtain ⟨m, hm⟩ : ∃ m, (o + 1) / 2 = m + 1 := ⟨(o + 1) / 2 - 1, by omega⟩
  obtain ⟨p1, p2⟩ := NearBw.phi hl hd
  have hs := bwSign_or call.normDesign
  obtain ⟨h1, bI, k, B, -, h2, h3, h4, ⟨h5, h6⟩, h7⟩ := NearBw.stored hl S ho h16 hon hc hord hd hm
  obtain ⟨h8, h9⟩ := C12_history_partial (by omega) hn h hc (by omega) h1
  refine ⟨(PoleFilter.setup n call f).2, Prod.ext h8 rfl, fun fr g1 g2 g3 => ?_⟩
  have hK : ∀ i < m + 1, Ideal (bwSign call.normDesign) (bwK (bwSign call.normDesign) φ o i) (bwG φ o i) :=
    fun i hi => bw_ideal hs h16 (by omega) p1 p2
  have hw : ‖(circle (r.val fr))⁻¹‖ = 1 := by rw [norm_inv, norm_circle, inv_one]
  obtain ⟨v, e1, e2, e3⟩ := chain_response hl (by omega) hK h4 h5 h6 h7 h2 h3 g1 g2 g3
    fun i hi => bw_denAt hs h16 (by omega) p1 p2 hw
  refine ⟨v, by rw [h9.response]; exact e1, e2, (NearBw.value hl hd S0 T0 h0 hm g2 g3).mono fun f0 hf0 => ⟨_, hf0, e3.trans ?_⟩⟩
  have eA := bw_amplifies (o := o) hs h16 p1 p2
  have eQ := bw_sharp (o := o) h16 p1 p2
  rw [hm] at eA eQ
  have hA : 0 ≤ bwAmplifies φ o := Finset.prod_nonneg fun k hk => by
    have := bwDigital_norm (φ := φ) (o := o) (i := k) h16 (Finset.mem_range.1 hk) p1 p2
    have h13 : (0 : ℝ) ≤ 1 / 2 ^ 13 := by positivity
    exact div_nonneg (norm_nonneg _) (by linarith)
  rw [eA, div_mul_eq_mul_div, mul_comm]
  exact div_le_div_of_nonneg_right (mul_le_mul_of_nonneg_left eQ hA) (by positivity)

/-- **C80** for a call, against the same call in exact arithmetic. -/
theorem C80_call [SignedZeros R] (hl : r.Library) {S : Type → Type} [StateType S R] [DelayLine R S] {T : Type} [Sample T R]
    {n o : ℕ} (hn : n < 2 ^ 30) (ho : 1 ≤ o) (h16 : o ≤ 16) (hon : o ≤ n) {call : Call R} {f : PoleFilter S R}
    (h : Reach S T call.design.cls n f) (hord : call.order n = o) (hf : r.FinCall call) {φ : ℝ}
    (hd : IdealBw (mapCall (fun v => XR.fin (r.val v)) call).normDesign φ) (S0 : Type → Type) [StateType S0 XR]
    [DelayLine XR S0] (T0 : Type) [Sample T0 XR] :
    ∃ f', PoleFilter.setup n call f = (.ok (), f') ∧ ∀ fr, r.Fin fr → 0 ≤ r.val fr → r.val fr ≤ 1 / 2 →
      ∃ v, f'.response fr = .ok v ∧ r.CFin v ∧ AfterSetup S0 T0 n (mapCall (fun v => XR.fin (r.val v)) call) fun f0 =>
        ∃ H, Response f0 (r.val fr) H ∧ ‖r.cval v - H‖ ≤ bwAmplifies φ o * bwSharp φ o / 2 ^ 28 :=
  C80_accurate hl hn ho h16 hon h rfl hord (near_of_ideal r hl.toAccurate hf hd) S0 T0
    ⟨(mapCall_order _ _ _).trans hord, rfl, ho, hon, hn⟩

/-- **C80** for IEEE doubles. -/
theorem C80_double {S : Type → Type} [StateType S Dbl] [DelayLine Dbl S] {T : Type} [Sample T Dbl]
    {n o : ℕ} (hn : n < 2 ^ 30) (ho : 1 ≤ o) (h16 : o ≤ 16) (hon : o ≤ n) {call : Call Dbl} {f : PoleFilter S Dbl}
    (h : Reach S T call.design.cls n f) (hord : call.order n = o) (hf : doubleRounds.FinCall call) {φ : ℝ}
    (hd : IdealBw (mapCall (fun v => XR.fin v.val) call).normDesign φ) (S0 : Type → Type) [StateType S0 XR]
    [DelayLine XR S0] (T0 : Type) [Sample T0 XR] :
    ∃ f', PoleFilter.setup n call f = (.ok (), f') ∧ ∀ fr : Dbl, fr.Finite → 0 ≤ fr.val → fr.val ≤ 1 / 2 →
      ∃ v, f'.response fr = .ok v ∧ (v.re.Finite ∧ v.im.Finite) ∧ AfterSetup S0 T0 n (mapCall (fun v => XR.fin v.val) call) fun f0 =>
        ∃ H, Response f0 fr.val H ∧ ‖(⟨v.re.val, v.im.val⟩ : ℂ) - H‖ ≤ bwAmplifies φ o * bwSharp φ o / 2 ^ 28 :=
  C80_call (r := doubleRounds) doubleRounds_library hn ho h16 hon h hord hf hd S0 T0

/-- **C80**, magnitude of a low pass: `|response (f)|` is `1 / √(1 + (tan πf / tan πfc)^(2o))` up to the same error. -/
theorem C80_double_low {S : Type → Type} [StateType S Dbl] [DelayLine Dbl S] {T : Type} [Sample T Dbl]
    {n o : ℕ} (hn : n < 2 ^ 30) (ho : 1 ≤ o) (h16 : o ≤ 16) (hon : o ≤ n) {call : Call Dbl} {f : PoleFilter S Dbl}
    (h : Reach S T call.design.cls n f) (hord : call.order n = o) (hf : doubleRounds.FinCall call) {fc : ℝ}
    (hd : (mapCall (fun v => XR.fin v.val) call).normDesign = .bwLowPass (.fin fc)) (h1 : 1 / 2 ^ 9 ≤ fc)
    (h2 : fc ≤ 1 / 2 - 1 / 2 ^ 9) :
    ∃ f', PoleFilter.setup n call f = (.ok (), f') ∧ ∀ fr : Dbl, fr.Finite → 0 ≤ fr.val → fr.val < 1 / 2 →
      ∃ v, f'.response fr = .ok v ∧ (v.re.Finite ∧ v.im.Finite) ∧
        |‖(⟨v.re.val, v.im.val⟩ : ℂ)‖ - 1 / √(1 + (Real.tan (Real.pi * fr.val) / Real.tan (Real.pi * fc)) ^ (2 * o))| ≤
          bwAmplifies (Real.tan (Real.pi * fc)) o * bwSharp (Real.tan (Real.pi * fc)) o / 2 ^ 28 := by
  obtain ⟨f', e1, e2⟩ := C80_double hn ho h16 hon h hord hf (hd ▸ IdealBw.low h1 h2) DirectFormII XR
  refine ⟨f', e1, fun fr g1 g2 g3 => ?_⟩
  obtain ⟨v, e3, e4, e5⟩ := e2 fr g1 g2 g3.le
  refine ⟨v, e3, e4, ?_⟩
  have k1 : 0 < fc := lt_of_lt_of_le (by positivity) h1
  have k2 : fc < 1 / 2 := lt_of_le_of_lt h2 (by norm_num)
  have asks : Asks (mapCall (fun v => XR.fin v.val) call) n o (.bwLowPass (.fin fc)) :=
    ⟨(mapCall_order _ _ _).trans hord, hd, ho, hon, hn⟩
  obtain ⟨g, -, -, ⟨H, a1, a2⟩, a3, -⟩ := (e5.and (C30_lowpass asks k1 k2)) _ .new
  obtain ⟨H', b1, b2⟩ := a3.gain fr.val g2 g3
  obtain rfl : H = H' := by
    have := a1.symm.trans b1
    simp only [Res.ok.injEq, Cx.mk.injEq, XR.fin.injEq] at this
    exact Complex.ext this.1 this.2
  have : 1 / √(1 + (Real.tan (Real.pi * fr.val) / Real.tan (Real.pi * fc)) ^ (2 * o)) = ‖H‖ := by
    rw [← Real.sqrt_sq (norm_nonneg H), b2, Real.sqrt_div zero_le_one, Real.sqrt_one]; rfl
  rw [this]
  exact (abs_norm_sub_norm_le _ _).trans a2

/-! ## A case -/

/-- the error is at most `27 / 2 ^ 28` for a low pass of order two, 12000 Hz at a sampling rate of 48000 Hz -/
example (fr : Dbl) (h0 : fr.Finite) (h1 : 0 ≤ fr.val) (h2 : fr.val ≤ 1 / 2) :
    ∃ f', PoleFilter.setup 2 exQuarter (PoleFilter.init DirectFormII .bwLowPass 2) = (.ok (), f') ∧
      ∃ v, f'.response fr = .ok v ∧ (v.re.Finite ∧ v.im.Finite) ∧
        AfterSetup DirectFormII XR 2 (mapCall (fun v => XR.fin v.val) exQuarter) fun f0 =>
          ∃ H, Response f0 fr.val H ∧ ‖(⟨v.re.val, v.im.val⟩ : ℂ) - H‖ ≤ 27 / 2 ^ 28 := by
  obtain ⟨g1, -⟩ := Dbl.lit2_val (m := 12000) (e := 0) (by norm_num) (by norm_num) (by norm_num)
  obtain ⟨g2, -⟩ := Dbl.lit2_val (m := 48000) (e := 0) (by norm_num) (by norm_num) (by norm_num)
  obtain ⟨f', h3, h4⟩ := C80_double (S := DirectFormII) (T := Dbl) (n := 2) (o := 2) (call := exQuarter) (by norm_num)
    (by norm_num) (by norm_num) le_rfl .new rfl ⟨g2, g1⟩ exQuarter_ideal DirectFormII XR
  obtain ⟨v, h5, h6, h7⟩ := h4 fr h0 h1 h2
  refine ⟨f', h3, v, h5, h6, h7.mono fun f0 ⟨H, a, b⟩ => ⟨H, a, b.trans ?_⟩⟩
  have hA : 0 ≤ bwAmplifies 1 2 := Finset.prod_nonneg fun k hk => by
    have := bwDigital_norm (φ := 1) (o := 2) (i := k) (by norm_num) (Finset.mem_range.1 hk) (by norm_num) (by norm_num)
    have h13 : (0 : ℝ) ≤ 1 / 2 ^ 13 := by positivity
    exact div_nonneg (norm_nonneg _) (by linarith)
  have := exQuarter_bound
  rw [div_le_div_iff_of_pos_right (by positivity)] at this ⊢
  linarith

/-! ## RBJ filters -/

/-- **C80** for the RBJ filters of C76: `response` of the section differs by at most `σ⁴ 2⁻²⁹` from that of the ideal
section, where `σ` is the sharpness. -/
theorem C80_rbj (hl : r.Library) {d : RBJ.Design R} (hf : r.FinArgs d) {d0 : RBJ.Design ℝ}
    (hn : NearRBJ (1 / 2 ^ 50) (r.valRBJ d) d0) {σ : ℝ} (hs : SharpRBJ σ d0) (hσ : σ ≤ 2 ^ 10) (f : RBJ.Filter R) :
    ∃ f', RBJ.Filter.setupN d f = (.ok (), f') ∧ ∀ fr, r.Fin fr → 0 ≤ r.val fr → r.val fr ≤ 1 / 2 →
      ∃ v, f'.biquad.response fr = .ok v ∧ r.CFin v ∧ AfterRBJ (finRBJ d0) fun b =>
        ∃ H, SectionResponse b (r.val fr) H ∧ ‖r.cval v - H‖ ≤ σ ^ 4 / 2 ^ 29 := by
  obtain ⟨k, hk⟩ := near_ideal hl.toAccurate hf hn hs hσ
  exact NearIdeal.response hl hk hσ f

/-- **C80** for the RBJ filters, with a sampling rate. -/
theorem C80_rbj_sampleRate (hl : r.Library) {fs : R} {d : RBJ.Design R} (hfs : r.Fin fs) (h0 : r.val fs ≠ 0)
    (hf : r.FinArgs d) {σ : ℝ} (hs : SharpRBJ σ (overRate (r.val fs) (r.valRBJ d))) (hσ : σ ≤ 2 ^ 10) (f : RBJ.Filter R) :
    ∃ f', RBJ.Filter.setup fs d f = (.ok (), f') ∧ ∀ fr, r.Fin fr → 0 ≤ r.val fr → r.val fr ≤ 1 / 2 →
      ∃ v, f'.biquad.response fr = .ok v ∧ r.CFin v ∧ AfterRBJ (finRBJ (overRate (r.val fs) (r.valRBJ d))) fun b =>
        ∃ H, SectionResponse b (r.val fr) H ∧ ‖r.cval v - H‖ ≤ σ ^ 4 / 2 ^ 29 := by
  have both := near_rate hl.toAccurate hfs h0 hf hs
  exact C80_rbj hl (d := d.overFs fs) both.1 both.2 hs hσ f

/-- **C80** for the RBJ filters in IEEE doubles. -/
theorem C80_rbj_double {fs : Dbl} {d : RBJ.Design Dbl} (hfs : fs.Finite) (h0 : fs.val ≠ 0)
    (hf : doubleRounds.FinArgs d) {σ : ℝ} (hs : SharpRBJ σ (overRate fs.val (doubleRounds.valRBJ d))) (hσ : σ ≤ 2 ^ 10)
    (f : RBJ.Filter Dbl) :
    ∃ f', RBJ.Filter.setup fs d f = (.ok (), f') ∧ ∀ fr : Dbl, fr.Finite → 0 ≤ fr.val → fr.val ≤ 1 / 2 →
      ∃ v, f'.biquad.response fr = .ok v ∧ (v.re.Finite ∧ v.im.Finite) ∧
        AfterRBJ (finRBJ (overRate fs.val (doubleRounds.valRBJ d))) fun b =>
          ∃ H, SectionResponse b fr.val H ∧ ‖(⟨v.re.val, v.im.val⟩ : ℂ) - H‖ ≤ σ ^ 4 / 2 ^ 29 :=
  C80_rbj_sampleRate (r := doubleRounds) doubleRounds_library hfs h0 hf hs hσ f

/-- a low pass at 6000 Hz with a sampling rate of 48000 Hz and quality 1 has sharpness at most 5 -/
example (fr : Dbl) (h0 : fr.Finite) (h1 : 0 ≤ fr.val) (h2 : fr.val ≤ 1 / 2) :
    ∃ f', RBJ.Filter.setup (.lit2 48000 0) (.lowPass (.lit2 6000 0) (.lit2 1 0)) RBJ.Filter.init = (.ok (), f') ∧
      ∃ v, f'.biquad.response fr = .ok v ∧ (v.re.Finite ∧ v.im.Finite) := by
  obtain ⟨g1, g2⟩ := Dbl.lit2_val (m := 6000) (e := 0) (by norm_num) (by norm_num) (by norm_num)
  obtain ⟨g3, g4⟩ := Dbl.lit2_val (m := 1) (e := 0) (by norm_num) (by norm_num) (by norm_num)
  obtain ⟨g5, g6⟩ := Dbl.lit2_val (m := 48000) (e := 0) (by norm_num) (by norm_num) (by norm_num)
  obtain ⟨f', h3, h4⟩ := C80_rbj_double (fs := .lit2 48000 0) (d := .lowPass (.lit2 6000 0) (.lit2 1 0)) (σ := 5) g5
    (by rw [g6]; norm_num) ⟨g1, g3⟩ (by
      show 0 < Dbl.val _ / Dbl.val _ ∧ Dbl.val _ / Dbl.val _ < 1 / 2 ∧ 1 / 2 ≤ Dbl.val _ ∧ 2 * Dbl.val _ + 1 ≤
        5 * Real.sin (2 * Real.pi * (Dbl.val _ / Dbl.val _))
      rw [g2, g4, g6]
      have e : 2 * Real.pi * (((6000 : ℤ) : ℝ) * 2 ^ (0 : ℤ) / (((48000 : ℤ) : ℝ) * 2 ^ (0 : ℤ))) = Real.pi / 4 := by
        norm_num; ring
      rw [e, Real.sin_pi_div_four]
      have : (1.4 : ℝ) ≤ Real.sqrt 2 := Real.le_sqrt_of_sq_le (by norm_num)
      norm_num
      linarith) (by norm_num) RBJ.Filter.init
  obtain ⟨v, h5, h6, -⟩ := h4 fr h0 h1 h2
  exact ⟨f', h3, v, h5, h6⟩

end Iir
