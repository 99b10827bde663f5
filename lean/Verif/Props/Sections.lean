import Verif.Lemmas.SetLayout
import Verif.Lemmas.Response
import Verif.Props.TimeDomain

/-! # C20–C26, C46, C48: sections, their poles and zeros, their responses -/

set_option linter.unusedSectionVars false

namespace Iir
open FArith XR Spec Exec Cx

/-! ## C20 -/

section any
variable {R : Type} [FArith R]

/-- One of the coefficients is NaN. -/
def Spec.AnyNaN (a0 a1 a2 b0 b1 b2 : R) : Prop :=
  FArith.isNan a0 ∨ FArith.isNan a1 ∨ FArith.isNan a2 ∨ FArith.isNan b0 ∨ FArith.isNan b1 ∨ FArith.isNan b2

/-- **C20**: `setCoefficients` throws and changes nothing if a coefficient is NaN (any arithmetic). -/
theorem C20_nan_throws {a0 a1 a2 b0 b1 b2 : R} (h : AnyNaN a0 a1 a2 b0 b1 b2) (s : Biquad R) :
    Biquad.setCoefficients a0 a1 a2 b0 b1 b2 s = (.throw .coeffNaN, s) := by
  rw [Biquad.stores_setCoefficients, Biquad.coeffsR, if_pos (by simpa [AnyNaN, or_assoc] using h)]

/-- **C20**: and succeeds otherwise (any arithmetic). -/
theorem C20_no_nan_succeeds {a0 a1 a2 b0 b1 b2 : R} (h : ¬ AnyNaN a0 a1 a2 b0 b1 b2) (s : Biquad R) :
    (Biquad.setCoefficients a0 a1 a2 b0 b1 b2 s).1 = .ok () := by
  rw [Biquad.stores_setCoefficients, Biquad.coeffsR, if_neg (by simpa [AnyNaN, or_assoc] using h)]

end any

theorem XR.div_mul_cancel (x : XR) {a : ℝ} (ha : a ≠ 0) : x / fin a * fin a = x := by
  cases x with
  | fin x => rw [fin_div _ ha, fin_mul]; congr 1; field_simp
  | nan => rfl
  | pinf =>
    show XR.mul (if a < 0 then ninf else pinf) (fin a) = pinf
    split_ifs with h
    · simp [XR.mul, signInf, h]
    · have : 0 < a := lt_of_le_of_ne (not_lt.1 h) (Ne.symm ha)
      simp [XR.mul, signInf, this]
  | ninf =>
    show XR.mul (if a < 0 then pinf else ninf) (fin a) = ninf
    split_ifs with h
    · simp [XR.mul, signInf, h, h.not_gt]
    · have : 0 < a := lt_of_le_of_ne (not_lt.1 h) (Ne.symm ha)
      simp [XR.mul, signInf, this, this.not_gt]

/-- **C20**: with `a0` finite and nonzero and no NaN the getters return what was set. -/
theorem C20_getters {a0 : ℝ} (h0 : a0 ≠ 0) {a1 a2 b0 b1 b2 : XR} (h : ¬ AnyNaN (fin a0) a1 a2 b0 b1 b2)
    (s : Biquad XR) :
    let s' := (Biquad.setCoefficients (fin a0) a1 a2 b0 b1 b2 s).2
    s'.getA0 = fin a0 ∧ s'.getA1 = a1 ∧ s'.getA2 = a2 ∧ s'.getB0 = b0 ∧ s'.getB1 = b1 ∧ s'.getB2 = b2 := by
  rw [Biquad.stores_setCoefficients, Biquad.coeffsR, if_neg (by simpa [AnyNaN, or_assoc] using h)]
  simp [Biquad.getA0, Biquad.getA1, Biquad.getA2, Biquad.getB0, Biquad.getB1, Biquad.getB2,
    XR.div_mul_cancel _ h0]

theorem not_anyNaN_fin (a0 a1 a2 b0 b1 b2 : ℝ) :
    ¬ AnyNaN (fin a0) (fin a1) (fin a2) (fin b0) (fin b1) (fin b2) := by
  simp [AnyNaN]

/-- **C20**: finite coefficients, `a0 ≠ 0`. -/
theorem C20_hasCoeffs (k : Coeffs) (h : k.a0 ≠ 0) (s : Biquad XR) :
    ∃ s', Biquad.setCoefficients (fin k.a0) (fin k.a1) (fin k.a2) (fin k.b0) (fin k.b1) (fin k.b2) s
      = (.ok (), s') ∧ HasCoeffs s' k := by
  refine ⟨_, Prod.ext (C20_no_nan_succeeds (not_anyNaN_fin _ _ _ _ _ _) s) rfl, ?_⟩
  obtain ⟨h0, h1, h2, h3, h4, h5⟩ := C20_getters h (not_anyNaN_fin _ _ _ _ _ _) s
  exact ⟨h0, h1, h2, h3, h4, h5, h⟩

/-- a case: one NaN among five numbers; none -/
example : AnyNaN (fin 1) (fin 2) (fin 3) XR.nan (fin 4) (fin 5) := by simp [AnyNaN]
example : ¬ AnyNaN (fin 1) XR.pinf (fin 3) (fin 2) (fin 4) (fin 5) := by
  simp [AnyNaN, FArith.isNan]; rfl

/-! ## C21 -/

/-- A coefficient of the section is NaN. -/
def Spec.HasNaN (b : Biquad XR) : Prop := b.a0 = nan ∨ b.a1 = nan ∨ b.a2 = nan ∨ b.b0 = nan ∨ b.b1 = nan ∨ b.b2 = nan

/-- **C21** is false: an RBJ low pass at a quarter of the sampling rate with `q = 0` is accepted and
stores NaN. -/
theorem C21_false_rbj (f : RBJ.Filter XR) :
    ∃ f', RBJ.Filter.setupN (.lowPass (fin (1 / 4)) (fin 0)) f = (.ok (), f') ∧ HasNaN f'.biquad := by
  have hs : Real.sin (2 * Real.pi * (1 / 4)) = 1 := by
    rw [show 2 * Real.pi * (1 / 4) = Real.pi / 2 by ring, Real.sin_pi_div_two]
  have hc : Real.cos (2 * Real.pi * (1 / 4)) = 0 := by
    rw [show 2 * Real.pi * (1 / 4) = Real.pi / 2 by ring, Real.cos_pi_div_two]
  have hAL : (fin 1 / (2 * fin 0) : XR) = pinf := by
    simp [fin_div', signInf]
  have h1 : (1 + pinf : XR) = pinf := rfl
  have h2 : (1 - pinf : XR) = ninf := rfl
  have key : ∃ b, RBJ.lowPass (fin (1 / 4)) (fin 0) f.biquad = (.ok (), b) ∧ b.a2 = nan := by
    unfold RBJ.lowPass
    simp only [lit_ofNat, pi_eq, fin_mul, cos_fin, sin_fin, hs, hc]
    rw [lit_ofNat] at hAL
    rw [← fin_mul, hAL, h1, h2, Biquad.stores_setCoefficients, Biquad.coeffsR, if_neg]
    · exact ⟨_, rfl, rfl⟩
    · have e1 : FArith.isNan pinf = false := by rw [isNan_eq]; rfl
      have e2 : FArith.isNan ninf = false := by rw [isNan_eq]; rfl
      simp [fin_div, e1, e2]
  obtain ⟨b, hb, hn⟩ := key
  refine ⟨{ f with biquad := b }, ?_, .inr (.inr (.inl hn))⟩
  show (_, { f with biquad := (RBJ.lowPass (fin (1 / 4)) (fin 0) f.biquad).2 }) = _
  rw [hb]
  show ((RBJ.lowPass (fin (1 / 4)) (fin 0) f.biquad).1, _) = _
  rw [hb]

/-- **C21** is false: `SOSCascade` accepts a row of zeros and stores NaN. -/
theorem C21_false_sos : ∃ f : Custom.SOS DirectFormII XR,
    Custom.SOS.ofCoefficients [⟨fin 0, fin 0, fin 0, fin 0, fin 0, fin 0⟩] = .ok f ∧
      ∃ b ∈ f.stages, HasNaN b := by
  refine ⟨{ stages := [⟨fin 0, nan, nan, nan, nan, nan⟩], states := CascadeStages.initStates DirectFormII 1 }, ?_, _,
    List.mem_singleton.2 rfl, .inr (.inl rfl)⟩
  simp only [Custom.SOS.ofCoefficients, Custom.SOS.setup, Exec.zoom, Custom.SOS.init, CascadeStages.setup,
    CascadeStages.initStages, CascadeStages.initStates, List.length_singleton, List.replicate,
    Biquad.stores_setCoefficients _ _ _ _ _ _ _, Biquad.coeffsR]
  simp [fin_div', signInf]

/-- **C21**, what holds: finite coefficients with `a0 ≠ 0` never store NaN.  (Missing: infinite
coefficients, and `a0 = 0`, where it is false.) -/
theorem C21_no_nan_partial (a0 a1 a2 b0 b1 b2 : ℝ) (h0 : a0 ≠ 0) (s : Biquad XR) :
    ¬ HasNaN (Biquad.setCoefficients (fin a0) (fin a1) (fin a2) (fin b0) (fin b1) (fin b2) s).2 := by
  rw [Biquad.stores_setCoefficients, Biquad.coeffsR, if_neg (by simp)]
  simp [HasNaN, fin_div _ h0]

/-! ## C22 -/

theorem transfer_onePole (p z s : ℝ) (w : ℂ) :
    ({ a0 := 1, a1 := -p, a2 := 0, b0 := s, b1 := -z * s, b2 := 0 } : Coeffs).transfer w =
      s * (1 - z * w⁻¹) / (1 - p * w⁻¹) := by
  simp only [Coeffs.transfer]; push_cast; congr 1 <;> ring

/-- **C22**: `setOnePole` with a real pole and zero gives `(1 - zero/z)/(1 - pole/z)`. -/
theorem C22_one_pole (p z : ℝ) (s : Biquad XR) :
    ∃ s' k, Biquad.setOnePole (ofC p) (ofC z) s = (.ok (), s') ∧ HasCoeffs s' k ∧
      ∀ w : ℂ, k.transfer w = (1 - z * w⁻¹) / (1 - p * w⁻¹) := by
  refine ⟨_, { a0 := 1, a1 := -p, a2 := 0, b0 := 1, b1 := -z * 1, b2 := 0 },
    by rw [Biquad.stores_setOnePole, Biquad.onePoleR]
       simp [Biquad.coeffsR]
       rfl, ?_, fun w => ?_⟩
  · constructor <;> simp [Biquad.getA0, Biquad.getA1, Biquad.getA2, Biquad.getB0, Biquad.getB1,
      Biquad.getB2, fin_div]
  · rw [transfer_onePole]; simp

/-- **C22**: a pole or zero with an imaginary part is rejected, the section unchanged. -/
theorem C22_rejected (p z : ℂ) (h : p.im ≠ 0 ∨ z.im ≠ 0) (s : Biquad XR) :
    ∃ e, Biquad.setOnePole (ofC p) (ofC z) s = (.throw e, s) := by
  rw [Biquad.stores_setOnePole, Biquad.onePoleR]
  by_cases hp : p.im = 0
  · have hz : z.im ≠ 0 := by tauto
    exact ⟨.imagZero, by simp [hp, hz]⟩
  · exact ⟨.imagPole, by simp [hp]⟩

/-- **C22**: `Custom::OnePole::setup (scale, pole, zero)`. -/
theorem C22_custom_one_pole (g p z : ℝ) (s : Biquad XR) :
    ∃ s' k, Custom.onePole (fin g) (fin p) (fin z) s = (.ok (), s') ∧ HasCoeffs s' k ∧
      ∀ w : ℂ, k.transfer w = g * (1 - z * w⁻¹) / (1 - p * w⁻¹) := by
  refine ⟨_, { a0 := 1, a1 := -p, a2 := 0, b0 := g, b1 := -z * g, b2 := 0 },
    by rw [Custom.onePole, bind_def, Biquad.stores_setOnePole, Biquad.onePoleR]
       simp [Biquad.coeffsR, Biquad.applyScale]
       rfl, ?_, transfer_onePole p z g⟩
  · constructor <;> simp [Biquad.getA0, Biquad.getA1, Biquad.getA2, Biquad.getB0, Biquad.getB1,
      Biquad.getB2, fin_div]

/-! ## C23 -/

/-- Conjugates of each other, or both real. -/
def Spec.Matched (a b : ℂ) : Prop := (a.im = 0 ∧ b.im = 0) ∨ b = starRingEnd ℂ a

theorem pairCoeffs_matched {a b : ℂ} (h : Matched a b) (e : Err) :
    Biquad.pairCoeffs e (ofC a) (ofC b) = .ok (fin (-(a + b).re), fin (a * b).re) ∧
      (a + b).im = 0 ∧ (a * b).im = 0 := by
  unfold Biquad.pairCoeffs
  rcases h with ⟨h1, h2⟩ | h
  · simp [h1, h2]
  · subst h
    by_cases h1 : a.im = 0
    · simp [h1]
    · simp [h1, Complex.normSq_apply]
      constructor <;> ring

theorem pairCoeffs_unmatched {a b : ℂ} (h : ¬ Matched a b) (e : Err) :
    Biquad.pairCoeffs e (ofC a) (ofC b) = .throw e := by
  unfold Biquad.pairCoeffs
  simp only [Matched, not_or, not_and] at h
  by_cases h1 : a.im = 0
  · simp [h1, h.1 h1]
  · simp [h1, h.2]

/-- quadratic with roots `a`, `b` -/
theorem quad_roots {a b : ℂ} (h1 : (a + b).im = 0) (h2 : (a * b).im = 0) (q : ℂ) :
    1 + (-(a + b).re : ℝ) * q + ((a * b).re : ℝ) * q ^ 2 = (1 - a * q) * (1 - b * q) := by
  have e1 : (((a + b).re : ℝ) : ℂ) = a + b := Complex.ext rfl (by rw [h1]; rfl)
  have e2 : (((a * b).re : ℝ) : ℂ) = a * b := Complex.ext rfl (by rw [h2]; rfl)
  rw [Complex.ofReal_neg, e1, e2]; ring

/-- What `setTwoPole` stores for matched pairs. -/
noncomputable def twoPoleCoeffs (g : ℝ) (p1 z1 p2 z2 : ℂ) : Coeffs :=
  { a0 := 1, a1 := -(p1 + p2).re, a2 := (p1 * p2).re, b0 := g, b1 := -(z1 + z2).re * g, b2 := (z1 * z2).re * g }

theorem transfer_twoPole {g : ℝ} {p1 z1 p2 z2 : ℂ} (hp : Matched p1 p2) (hz : Matched z1 z2) (w : ℂ) :
    (twoPoleCoeffs g p1 z1 p2 z2).transfer w =
      g * ((1 - z1 * w⁻¹) * (1 - z2 * w⁻¹)) / ((1 - p1 * w⁻¹) * (1 - p2 * w⁻¹)) := by
  obtain ⟨_, h1, h2⟩ := pairCoeffs_matched hp .twoPolePoles
  obtain ⟨_, h3, h4⟩ := pairCoeffs_matched hz .twoPoleZeros
  rw [← quad_roots h1 h2, ← quad_roots h3 h4]
  simp only [Coeffs.transfer, twoPoleCoeffs]
  push_cast; congr 1; ring

theorem twoPoleR_matched {p1 z1 p2 z2 : ℂ} (hp : Matched p1 p2) (hz : Matched z1 z2) :
    Biquad.twoPoleR (ofC p1) (ofC z1) (ofC p2) (ofC z2) = .ok (twoPoleCoeffs 1 p1 z1 p2 z2).norm.toX := by
  rw [Biquad.twoPoleR, (pairCoeffs_matched hp _).1, (pairCoeffs_matched hz _).1]
  simp [Bind.bind, Res.bind, Biquad.coeffsR, fin_div, Coeffs.norm, twoPoleCoeffs, Biquad.toX]

/-- **C23**: `setTwoPole` with matched poles and matched zeros. -/
theorem C23_two_pole {p1 z1 p2 z2 : ℂ} (hp : Matched p1 p2) (hz : Matched z1 z2) (s : Biquad XR) :
    ∃ s' k, Biquad.setTwoPole (ofC p1) (ofC z1) (ofC p2) (ofC z2) s = (.ok (), s') ∧ HasCoeffs s' k ∧
      ∀ w : ℂ, k.transfer w =
        ((1 - z1 * w⁻¹) * (1 - z2 * w⁻¹)) / ((1 - p1 * w⁻¹) * (1 - p2 * w⁻¹)) := by
  refine ⟨_, twoPoleCoeffs 1 p1 z1 p2 z2, by rw [Biquad.stores_setTwoPole, twoPoleR_matched hp hz], ?_,
    fun w => ?_⟩
  · exact hasCoeffs_iff.2 ⟨rfl, by simp [twoPoleCoeffs]⟩
  · rw [transfer_twoPole hp hz]; simp

/-- **C23**: everything else is rejected and the section is unchanged. -/
theorem C23_rejected {p1 z1 p2 z2 : ℂ} (h : ¬ Matched p1 p2 ∨ ¬ Matched z1 z2) (s : Biquad XR) :
    ∃ e, Biquad.setTwoPole (ofC p1) (ofC z1) (ofC p2) (ofC z2) s = (.throw e, s) := by
  rw [Biquad.stores_setTwoPole, Biquad.twoPoleR]
  by_cases hp : Matched p1 p2
  · have hz : ¬ Matched z1 z2 := by tauto
    rw [(pairCoeffs_matched hp _).1, pairCoeffs_unmatched hz]
    exact ⟨_, rfl⟩
  · rw [pairCoeffs_unmatched hp]
    exact ⟨_, rfl⟩

/-- **C23**: `Custom::TwoPole::setup (scale, poleRho, poleTheta, zeroRho, zeroTheta)` puts the poles at
`poleRho e^{±i poleTheta}` and the zeros at `zeroRho e^{±i zeroTheta}`. -/
theorem C23_custom_two_pole (g pr pt zr zt : ℝ) (s : Biquad XR) :
    let p : ℂ := pr * Complex.exp (pt * Complex.I)
    let z : ℂ := zr * Complex.exp (zt * Complex.I)
    ∃ s' k, Custom.twoPole (fin g) (fin pr) (fin pt) (fin zr) (fin zt) s = (.ok (), s') ∧ HasCoeffs s' k ∧
      ∀ w : ℂ, k.transfer w = g * ((1 - z * w⁻¹) * (1 - starRingEnd ℂ z * w⁻¹)) /
        ((1 - p * w⁻¹) * (1 - starRingEnd ℂ p * w⁻¹)) := by
  intro p z
  have hp : Matched p (starRingEnd ℂ p) := .inr rfl
  have hz : Matched z (starRingEnd ℂ z) := .inr rfl
  refine ⟨(twoPoleCoeffs g p z (starRingEnd ℂ p) (starRingEnd ℂ z)).norm.toX,
    twoPoleCoeffs g p z (starRingEnd ℂ p) (starRingEnd ℂ z), ?_, ?_, transfer_twoPole hp hz⟩
  · rw [Custom.twoPole]
    simp only [bind_def, polarC, polar_fin, lift_ok]
    rw [show ofC (pr * Complex.exp (pt * Complex.I)) = ofC p from rfl,
      show ofC (zr * Complex.exp (zt * Complex.I)) = ofC z from rfl, conj_ofC, conj_ofC,
      Biquad.stores_setTwoPole, twoPoleR_matched hp hz]
    simp [Biquad.applyScale, Biquad.toX, Coeffs.norm, twoPoleCoeffs]
  · exact hasCoeffs_iff.2 ⟨rfl, by simp [twoPoleCoeffs]⟩

/-- matched pairs: a conjugate pair, and two real numbers; unmatched: `i` and `1` -/
example : Matched ⟨1, 2⟩ ⟨1, -2⟩ := .inr rfl
example : Matched ⟨1, 0⟩ ⟨3, 0⟩ := .inl ⟨rfl, rfl⟩
example : ¬ Matched Complex.I 1 := by
  simp [Matched, Complex.ext_iff]

/-! ## C25 -/

/-- **C25**: `Biquad::response (f)` is the transfer function at `e^{2πif}`. -/
theorem C25_response {b : Biquad XR} {k : Coeffs} (hb : HasCoeffs b k) (f : ℝ)
    (hd : (k.a0 : ℂ) + k.a1 * (circle f)⁻¹ + k.a2 * (circle f)⁻¹ ^ 2 ≠ 0) :
    b.response (fin f) = .ok (ofC (k.transfer (circle f))) := by
  obtain ⟨rfl, hne⟩ := hasCoeffs_iff.1 hb
  rw [response_toX (b := k.norm) hne, Cx.cdiv_ofC, ← secH_eq, Coeffs.secH_norm hne]
  rw [Coeffs.denQ_norm hne]
  exact div_ne_zero hd (by exact_mod_cast hne)

/-- a case: the example section at frequency 1/4 has response `(1 - i)/(2 + i)` -/
example : exCoeffs.norm.toX.response (fin (1 / 4)) = .ok (ofC ((1 - Complex.I) / (2 + Complex.I))) := by
  have hc : (circle (1 / 4))⁻¹ = -Complex.I := by
    rw [circle, ← Complex.exp_neg,
      show -(2 * (Real.pi : ℂ) * ((1 / 4 : ℝ) : ℂ) * Complex.I) = -(Real.pi / 2 * Complex.I) by push_cast; ring,
      Complex.exp_neg, Complex.exp_pi_div_two_mul_I, Complex.inv_I]
  rw [C25_response exCoeffs_has]
  · simp only [Coeffs.transfer, hc, exCoeffs]
    push_cast; congr 2
    congr 1 <;> ring
  · rw [hc]; simp [exCoeffs, Complex.ext_iff]

/-! ## C26 -/

/-- Transfer function of a chain. -/
noncomputable def Spec.chainTransfer (ks : List Coeffs) (z : ℂ) : ℂ := (ks.map (Coeffs.transfer · z)).prod

/-- No section of the chain has a pole at the point `z`. -/
def Spec.NoPoleAt (ks : List Coeffs) (z : ℂ) : Prop :=
  ∀ k ∈ ks, (k.a0 : ℂ) + k.a1 * z⁻¹ + k.a2 * z⁻¹ ^ 2 ≠ 0

theorem secH_norms {ks : List Coeffs} (h : ∀ k ∈ ks, k.a0 ≠ 0) (z : ℂ) :
    ((ks.map Coeffs.norm).map (secH · z)).prod = chainTransfer ks z := by
  rw [List.map_map, chainTransfer]
  congr 1
  exact List.map_congr_left fun k hk => Coeffs.secH_norm (h k hk) z

/-- **C26**: the response of a cascade is the product of the responses of its `getNumStages ()`
sections, for `0 ≤ f ≤ 1/2`. -/
theorem C26_product {c : Cascade XR} {ks : List Coeffs} (hks : HasSections c.stages ks)
    (hn : c.numStages ≤ c.stages.length) {f : ℝ} (h0 : 0 ≤ f) (h1 : f ≤ 1 / 2)
    (hp : NoPoleAt (ks.take c.numStages) (circle f)) :
    c.response (fin f) = .ok (ofC (chainTransfer (ks.take c.numStages) (circle f))) := by
  obtain ⟨hb, hne⟩ := hasSections_iff.1 hks
  have hne' : ∀ b ∈ ks.map Coeffs.norm, b.a0 ≠ 0 := by
    intro b hb
    obtain ⟨k, hk, rfl⟩ := List.mem_map.1 hb
    exact hne k hk
  rw [Cascade.response_toX hne' hb (by rw [List.length_map, ← hks.length]; exact hn) h0 h1,
    ← List.map_take, Cx.cdiv_ofC, ← list_prod_div, secH_norms fun k hk => hne k (List.mem_of_mem_take hk)]
  apply list_prod_ne_zero
  intro b hb
  obtain ⟨k, hk, rfl⟩ := List.mem_map.1 hb
  rw [Coeffs.denQ_norm (hne k (List.mem_of_mem_take hk))]
  exact div_ne_zero (hp k hk) (by exact_mod_cast hne k (List.mem_of_mem_take hk))

/-- **C26**: for reachable filters `getNumStages ()` never exceeds the number of sections. -/
theorem C26_reachable {S : Type → Type} [StateType S XR] {T : Type} [Sample T XR] {c : Cls} {n : Nat}
    (hn1 : 1 ≤ n) (hn : n < 2 ^ 30) {f : PoleFilter S XR} (h : Reach S T c n f) {ks : List Coeffs}
    (hks : HasSections f.base.cascade.stages ks) {fr : ℝ} (h0 : 0 ≤ fr) (h1 : fr ≤ 1 / 2)
    (hp : NoPoleAt (ks.take f.getNumStages) (circle fr)) :
    f.response (fin fr) = .ok (ofC (chainTransfer (ks.take f.getNumStages) (circle fr))) :=
  C26_product hks (by
    have := (h.ok hn1 hn).cascade
    rw [this.length]; exact this.num) h0 h1 hp

/-- **C26**: outside `0..1/2` it throws (any cascade). -/
theorem C26_out_of_range (c : Cascade XR) {f : ℝ} (h : f < 0 ∨ 1 / 2 < f) :
    ∃ e, c.response (fin f) = .throw e := by
  rw [Cascade.response]
  by_cases h1 : 1 / 2 < f
  · exact ⟨.maxF, if_pos (by simp; norm_num; linarith)⟩
  · have h2 : f < 0 := by tauto
    exact ⟨.minF, by rw [if_neg (by simp; norm_num; linarith), if_pos (by simpa using h2)]⟩

/-- **C26**: the infinities are rejected, too (NaN is not). -/
theorem C26_infinite (c : Cascade XR) : c.response pinf = .throw .maxF ∧ c.response ninf = .throw .minF := by
  constructor
  · exact if_pos rfl
  · exact (if_neg (by simp; rfl)).trans (if_pos (by simp; rfl))

/-- scale the numerator -/
def Spec.Coeffs.scale (g : ℝ) (k : Coeffs) : Coeffs := { k with b0 := k.b0 * g, b1 := k.b1 * g, b2 := k.b2 * g }

theorem Spec.Coeffs.transfer_scale (g : ℝ) (k : Coeffs) (z : ℂ) : (k.scale g).transfer z = g * k.transfer z := by
  simp only [Coeffs.transfer, Coeffs.scale]; push_cast; rw [← mul_div_assoc]; congr 1; ring

theorem scaled_hasCoeffs {b : Biquad XR} {k : Coeffs} (h : HasCoeffs b k) (g : ℝ) :
    HasCoeffs (Biquad.scaled (fin g) b) (k.scale g) := by
  obtain ⟨rfl, hne⟩ := hasCoeffs_iff.1 h
  refine hasCoeffs_iff.2 ⟨?_, hne⟩
  simp [Biquad.scaled, Biquad.toX, Coeffs.norm, Coeffs.scale, div_mul_eq_mul_div]

/-- **C26**: `applyScale (g)` multiplies the response by `g` if there is at least one stage. -/
theorem C26_applyScale {c : Cascade XR} {ks : List Coeffs} (hks : HasSections c.stages ks)
    (hn : c.numStages ≤ c.stages.length) (h1 : 1 ≤ c.numStages) (g : ℝ) :
    ∃ c' ks', Cascade.applyScale (fin g) c = (.ok (), c') ∧ HasSections c'.stages ks' ∧
      c'.numStages = c.numStages ∧ c'.stages.length = c.stages.length ∧
      (∀ z, NoPoleAt (ks'.take c'.numStages) z ↔ NoPoleAt (ks.take c.numStages) z) ∧
      ∀ z, chainTransfer (ks'.take c'.numStages) z = g * chainTransfer (ks.take c.numStages) z := by
  rcases c with ⟨m, M, bs⟩
  simp only at hn h1
  obtain ⟨m, rfl⟩ : ∃ m', m = m' + 1 := ⟨m - 1, by omega⟩
  cases hks with
  | nil => simp at hn
  | @cons b k bs ks hb hbs =>
    refine ⟨{ numStages := m + 1, maxStages := M, stages := Biquad.scaled (fin g) b :: bs },
      k.scale g :: ks, ?_, .cons (scaled_hasCoeffs hb g) hbs, rfl, by simp, fun z => ?_, fun z => ?_⟩
    · simp [Cascade.applyScale, bind_def, Cascade.onStage, Biquad.applyScale, Biquad.scaled]
    · simp [NoPoleAt, Coeffs.scale]
    · simp [chainTransfer, Coeffs.transfer_scale, mul_assoc]

/-- **C26**: on a cascade without stages (a filter that was never set up) `applyScale` has no effect:
there the response stays 1. -/
theorem C26_applyScale_empty {R : Type} [FArith R] (c : Cascade R) (h : c.numStages = 0) (g : R) :
    Cascade.applyScale g c = (.ok (), c) := by
  simp [Cascade.applyScale, bind_def, h]

/-! ## C46 -/

/-- The coefficients a row `{b0, b1, b2, a0, a1, a2}` stands for. -/
def Spec.rowCoeffs (r : CascadeStages.SosRow ℝ) : Coeffs :=
  { b0 := r.c0, b1 := r.c1, b2 := r.c2, a0 := r.c3, a1 := r.c4, a2 := r.c5 }

/-- A row of doubles. -/
def Spec.finRow (r : CascadeStages.SosRow ℝ) : CascadeStages.SosRow XR :=
  ⟨fin r.c0, fin r.c1, fin r.c2, fin r.c3, fin r.c4, fin r.c5⟩

theorem sos_setup_ok (rows : List (CascadeStages.SosRow ℝ)) (h : ∀ r ∈ rows, r.c3 ≠ 0)
    (bs : List (Biquad XR)) (hl : rows.length = bs.length) :
    ∃ bs', CascadeStages.setup (rows.map finRow) bs = (.ok (), bs') ∧ HasSections bs' (rows.map rowCoeffs) := by
  induction rows generalizing bs with
  | nil =>
    cases bs with
    | nil => exact ⟨[], rfl, .nil⟩
    | cons => simp at hl
  | cons r rows ih =>
    cases bs with
    | nil => simp at hl
    | cons b bs =>
      obtain ⟨bs', h1, h2⟩ := ih (fun r hr => h r (List.mem_cons_of_mem _ hr)) bs (by simpa using hl)
      obtain ⟨b', h3, h4⟩ := C20_hasCoeffs (rowCoeffs r) (h r List.mem_cons_self) b
      refine ⟨b' :: bs', ?_, .cons h4 h2⟩
      have h3' : Biquad.setCoefficients (finRow r).c3 (finRow r).c4 (finRow r).c5 (finRow r).c0 (finRow r).c1
        (finRow r).c2 b = (.ok (), b') := h3
      simp [CascadeStages.setup, h3', h1]

/-- **C46**: `SOSCascade (sos)` with finite rows whose fourth entry is not 0 has the sections
`(s0+s1/z+s2/z²)/(s3+s4/z+s5/z²)`, and filters with the chain of their difference equations. -/
theorem C46_import {S : Type → Type} [StateType S XR] [DelayLine XR S]
    (rows : List (CascadeStages.SosRow ℝ)) (h : ∀ r ∈ rows, r.c3 ≠ 0) :
    ∃ f : Custom.SOS S XR, Custom.SOS.ofCoefficients (rows.map finRow) = .ok f ∧
      HasSections f.stages (rows.map rowCoeffs) ∧
      ∀ x y, Produces (Custom.SOS.filter (T := XR)) f x y ↔ DiffChain (rows.map rowCoeffs) x y := by
  obtain ⟨bs', h1, h2⟩ := sos_setup_ok rows h (CascadeStages.initStages rows.length)
    (by simp [CascadeStages.initStages])
  refine ⟨{ stages := bs', states := CascadeStages.initStates S rows.length }, ?_, h2, fun x y => ?_⟩
  · simp [Custom.SOS.ofCoefficients, Custom.SOS.setup, Exec.zoom, Custom.SOS.init, h1]
  · have hs := Sims.init (S := S) ((rows.map rowCoeffs).map Coeffs.norm)
    rw [List.length_map, List.length_map] at hs
    have hp := Custom.SOS.produces
      (f := { stages := bs', states := CascadeStages.initStates S rows.length })
      (hasSections_iff.1 h2).1 hs x
    have hc := chain_diffChain (rows.map rowCoeffs) x
    rw [List.length_map] at hc
    constructor
    · intro h; rw [h.unique hp]; exact hc
    · intro h; rw [h.unique hc]; exact hp

/-- **C46**: a row with NaN throws; the rows before it are installed, its own section and the later
ones are as before (any arithmetic). -/
theorem C46_nan_row {R : Type} [FArith R] (good : List (CascadeStages.SosRow R)) (bad : CascadeStages.SosRow R)
    (rest : List (CascadeStages.SosRow R))
    (hg : ∀ r ∈ good, ¬ AnyNaN r.c3 r.c4 r.c5 r.c0 r.c1 r.c2)
    (hb : AnyNaN bad.c3 bad.c4 bad.c5 bad.c0 bad.c1 bad.c2)
    (bs1 bs2 : List (Biquad R)) (h1 : bs1.length = good.length) (h2 : bs2.length = rest.length + 1) :
    CascadeStages.setup (good ++ bad :: rest) (bs1 ++ bs2) =
      (.throw .coeffNaN, (CascadeStages.setup good bs1).2 ++ bs2) := by
  induction good generalizing bs1 with
  | nil =>
    cases bs1 with
    | cons => simp at h1
    | nil =>
      cases bs2 with
      | nil => simp at h2
      | cons b bs2 => simp [CascadeStages.setup, C20_nan_throws hb]
  | cons r good ih =>
    cases bs1 with
    | nil => simp at h1
    | cons b bs1 =>
      have hr := hg r List.mem_cons_self
      have := ih (fun r hr => hg r (List.mem_cons_of_mem _ hr)) bs1 (by simpa using h1)
      have hok := C20_no_nan_succeeds hr b
      rcases he : Biquad.setCoefficients r.c3 r.c4 r.c5 r.c0 r.c1 r.c2 b with ⟨res, b'⟩
      rw [he] at hok
      simp only at hok
      subst hok
      simp [CascadeStages.setup, he, this]

/-- a case: two rows, from scipy `butter (4, 0.5, output='sos')` with rounded values -/
example : ∃ f : Custom.SOS DirectFormII XR, Custom.SOS.ofCoefficients
    (([⟨0.09398, 0.18796, 0.09398, 1, 0, 0.03956⟩, ⟨1, 2, 1, 1, 0, 0.44646⟩] : List (CascadeStages.SosRow ℝ)).map
      finRow) = .ok f := by
  obtain ⟨f, h, _⟩ := C46_import (S := DirectFormII)
    [⟨0.09398, 0.18796, 0.09398, 1, 0, 0.03956⟩, ⟨1, 2, 1, 1, 0, 0.44646⟩] (by simp)
  exact ⟨f, h⟩

end Iir
