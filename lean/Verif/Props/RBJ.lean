import Verif.Spec.Designs
import Verif.Props.Sections
import Verif.Math.Jury
import Verif.Math.Trig
import Mathlib.Analysis.SpecialFunctions.Trigonometric.DerivHyp

/-! # C38–C42: RBJ filters -/

set_option linter.unusedSectionVars false

namespace Iir
open FArith XR Spec Exec Cx

/-! ## Statements -/

/-- The gain at normalised frequency `fr`, the magnitude of `response (fr)`, is `g`. -/
def Spec.Gain (b : Biquad XR) (fr g : ℝ) : Prop :=
  ∃ H : ℂ, b.response (fin fr) = .ok (ofC H) ∧ ‖H‖ = g

/-- Whatever the filter was before, `setupN` with these arguments succeeds, leaves the delay line
alone and gives a section with property `P`. -/
def Spec.AfterRBJ (d : RBJ.Design XR) (P : Biquad XR → Prop) : Prop :=
  ∀ f : RBJ.Filter XR, ∃ f', RBJ.Filter.setupN d f = (.ok (), f') ∧ f'.state = f.state ∧ P f'.biquad

/-! ## Tools -/

theorem afterRBJ_of {d : RBJ.Design XR} {P : Biquad XR → Prop} (k : Coeffs) (hk : k.a0 ≠ 0)
    (h : ∀ b, d.setupN b =
      Biquad.setCoefficients (fin k.a0) (fin k.a1) (fin k.a2) (fin k.b0) (fin k.b1) (fin k.b2) b)
    (hP : ∀ b, HasCoeffs b k → P b) : AfterRBJ d P := by
  intro f
  obtain ⟨b, hb, hc⟩ := C20_hasCoeffs k hk f.biquad
  refine ⟨{ f with biquad := b }, ?_, rfl, hP b hc⟩
  show ((d.setupN f.biquad).1, { f with biquad := (d.setupN f.biquad).2 }) = _
  rw [h, hb]

theorem gain_of {b : Biquad XR} {k : Coeffs} (hb : HasCoeffs b k) {f g : ℝ} (hg : 0 ≤ g)
    (hd : quadSq k.a0 k.a1 k.a2 f ≠ 0)
    (h : quadSq k.b0 k.b1 k.b2 f = g ^ 2 * quadSq k.a0 k.a1 k.a2 f) : Gain b f g := by
  refine ⟨_, C25_response hb f ((quadSq_ne_zero_iff _ _ _ _).2 hd), ?_⟩
  have h1 := k.transfer_normSq f
  rw [h, mul_div_assoc, div_self hd, mul_one] at h1
  exact (sq_eq_sq₀ (norm_nonneg _) hg).1 h1

theorem Spec.Gain.unique {b : Biquad XR} {f g g' : ℝ} (h : Gain b f g) (h' : Gain b f g') : g = g' := by
  obtain ⟨H, h1, rfl⟩ := h
  obtain ⟨H', h2, rfl⟩ := h'
  rw [h1] at h2
  simp only [Res.ok.injEq, ofC_inj] at h2
  rw [h2]

/-- sine and cosine of `2 π f0` for `0 < f0 < 1/2` -/
theorem trig_facts {f0 : ℝ} (h0 : 0 < f0) (h1 : f0 < 1 / 2) :
    0 < Real.sin (2 * Real.pi * f0) ∧ Real.cos (2 * Real.pi * f0) < 1 ∧
      -1 < Real.cos (2 * Real.pi * f0) := by
  have hpi := Real.pi_pos
  have hs : 0 < Real.sin (2 * Real.pi * f0) :=
    Real.sin_pos_of_pos_of_lt_pi (by positivity) (by nlinarith)
  have := Real.sin_sq_add_cos_sq (2 * Real.pi * f0)
  refine ⟨hs, ?_, ?_⟩ <;> nlinarith

section core

/-- The denominator shared by seven of the RBJ filters. -/
theorem quadSq_core (al c0 f : ℝ) : quadSq (1 + al) (-2 * c0) (1 - al) f =
    4 * ((Real.cos (2 * Real.pi * f) - c0) ^ 2 + (al * Real.sin (2 * Real.pi * f)) ^ 2) := by
  rw [quadSq]; ring

theorem quadSq_core_ne {al f0 : ℝ} (hal : al ≠ 0) (h0 : 0 < f0) (h1 : f0 < 1 / 2) (f : ℝ) :
    quadSq (1 + al) (-2 * Real.cos (2 * Real.pi * f0)) (1 - al) f ≠ 0 := by
  obtain ⟨hs, hc1, hc2⟩ := trig_facts h0 h1
  rw [quadSq_core]
  have h3 := Real.sin_sq_add_cos_sq (2 * Real.pi * f)
  have h4 := Real.sin_sq_add_cos_sq (2 * Real.pi * f0)
  intro h
  have e1 : (Real.cos (2 * Real.pi * f) - Real.cos (2 * Real.pi * f0)) ^ 2 = 0 := by
    nlinarith [sq_nonneg (Real.cos (2 * Real.pi * f) - Real.cos (2 * Real.pi * f0)),
      sq_nonneg (al * Real.sin (2 * Real.pi * f))]
  have e2 : (al * Real.sin (2 * Real.pi * f)) ^ 2 = 0 := by nlinarith
  have e3 : Real.sin (2 * Real.pi * f) = 0 :=
    (mul_eq_zero.1 (pow_eq_zero_iff (two_ne_zero)|>.1 e2)).resolve_left hal
  have e4 : Real.cos (2 * Real.pi * f) = Real.cos (2 * Real.pi * f0) := by
    have := pow_eq_zero_iff (two_ne_zero)|>.1 e1; linarith
  rw [e3, e4] at h3
  nlinarith

theorem stable_core {al f0 b0 b1 b2 : ℝ} (hal : 0 < al) (h0 : 0 < f0) (h1 : f0 < 1 / 2) :
    (⟨1 + al, -2 * Real.cos (2 * Real.pi * f0), 1 - al, b0, b1, b2⟩ : Coeffs).Stable := by
  obtain ⟨hs, hc1, hc2⟩ := trig_facts h0 h1
  apply Coeffs.stable_of_jury <;> simp only <;> linarith

end core

/-! ## C38 -/

section lp
variable {f0 q : ℝ}

theorem lowPass_setup (hq : 0 < q) (b : Biquad XR) :
    (RBJ.Design.lowPass (fin f0) (fin q)).setupN b =
      let c := Real.cos (2 * Real.pi * f0)
      let al := Real.sin (2 * Real.pi * f0) / (2 * q)
      Biquad.setCoefficients (fin (1 + al)) (fin (-2 * c)) (fin (1 - al)) (fin ((1 - c) / 2)) (fin (1 - c))
        (fin ((1 - c) / 2)) b := by
  have h2 : 2 * q ≠ 0 := by positivity
  simp [RBJ.Design.setupN, RBJ.lowPass, fin_div _ h2, fin_div _ (two_ne_zero (α := ℝ))]

theorem highPass_setup (hq : 0 < q) (b : Biquad XR) :
    (RBJ.Design.highPass (fin f0) (fin q)).setupN b =
      let c := Real.cos (2 * Real.pi * f0)
      let al := Real.sin (2 * Real.pi * f0) / (2 * q)
      Biquad.setCoefficients (fin (1 + al)) (fin (-2 * c)) (fin (1 - al)) (fin ((1 + c) / 2)) (fin (-(1 + c)))
        (fin ((1 + c) / 2)) b := by
  have h2 : 2 * q ≠ 0 := by positivity
  simp [RBJ.Design.setupN, RBJ.highPass, fin_div _ h2, fin_div _ (two_ne_zero (α := ℝ))]

end lp

/-- **C38**: RBJ low pass with cutoff `f0` and quality `q`: gain 1 at DC, 0 at Nyquist, `q` at `f0`. -/
theorem C38_lowPass {f0 q : ℝ} (h0 : 0 < f0) (h1 : f0 < 1 / 2) (hq : 0 < q) :
    AfterRBJ (.lowPass (fin f0) (fin q)) fun b =>
      Gain b 0 1 ∧ Gain b (1 / 2) 0 ∧ Gain b f0 q := by
  obtain ⟨hs, hc1, hc2⟩ := trig_facts h0 h1
  have hal : 0 < Real.sin (2 * Real.pi * f0) / (2 * q) := by positivity
  have hne := quadSq_core_ne hal.ne' h0 h1
  refine afterRBJ_of ⟨_, _, _, _, _, _⟩ (by simp only; linarith) (lowPass_setup hq) fun b hb => ⟨?_, ?_, ?_⟩
  · refine gain_of hb zero_le_one (hne 0) ?_
    simp only [quadSq_zero]; ring
  · refine gain_of hb le_rfl (hne _) ?_
    simp only [quadSq_half]; ring
  · refine gain_of hb hq.le (hne _) ?_
    simp only [quadSq]
    have h4 := Real.sin_sq_add_cos_sq (2 * Real.pi * f0)
    field_simp
    linear_combination 4 * ((Real.sin (2 * Real.pi * f0)) ^ 2 + 1 - (Real.cos (2 * Real.pi * f0)) ^ 2) * (-h4)

/-- **C38**: RBJ high pass with cutoff `f0` and quality `q`: gain 0 at DC, 1 at Nyquist, `q` at `f0`. -/
theorem C38_highPass {f0 q : ℝ} (h0 : 0 < f0) (h1 : f0 < 1 / 2) (hq : 0 < q) :
    AfterRBJ (.highPass (fin f0) (fin q)) fun b =>
      Gain b 0 0 ∧ Gain b (1 / 2) 1 ∧ Gain b f0 q := by
  obtain ⟨hs, hc1, hc2⟩ := trig_facts h0 h1
  have hal : 0 < Real.sin (2 * Real.pi * f0) / (2 * q) := by positivity
  have hne := quadSq_core_ne hal.ne' h0 h1
  refine afterRBJ_of ⟨_, _, _, _, _, _⟩ (by simp only; linarith) (highPass_setup hq) fun b hb => ⟨?_, ?_, ?_⟩
  · refine gain_of hb le_rfl (hne 0) ?_
    simp only [quadSq_zero]; ring
  · refine gain_of hb zero_le_one (hne _) ?_
    simp only [quadSq_half]; ring
  · refine gain_of hb hq.le (hne _) ?_
    simp only [quadSq]
    have h4 := Real.sin_sq_add_cos_sq (2 * Real.pi * f0)
    field_simp
    linear_combination 4 * ((Real.sin (2 * Real.pi * f0)) ^ 2 + 1 - (Real.cos (2 * Real.pi * f0)) ^ 2) * (-h4)

/-- **C38**, all frequencies: with `Ω = tan (π f) / tan (π f0)` the gain of the low pass is that of the
analog prototype, `1 / √((1 - Ω²)² + (Ω/q)²)`. -/
theorem C38_lowPass_response {f0 q : ℝ} (h0 : 0 < f0) (h1 : f0 < 1 / 2) (hq : 0 < q) :
    AfterRBJ (.lowPass (fin f0) (fin q)) fun b => ∀ f, 0 ≤ f → f < 1 / 2 →
      let W := Real.tan (Real.pi * f) / Real.tan (Real.pi * f0)
      Gain b f (1 / √((1 - W ^ 2) ^ 2 + (W / q) ^ 2)) := by
  obtain ⟨hs, hc1, hc2⟩ := trig_facts h0 h1
  have hal : 0 < Real.sin (2 * Real.pi * f0) / (2 * q) := by positivity
  have hne := quadSq_core_ne hal.ne' h0 h1
  refine afterRBJ_of ⟨_, _, _, _, _, _⟩ (by simp only; linarith) (lowPass_setup hq) fun b hb f hf0 hf1 => ?_
  refine gain_of hb (by positivity) (hne f) ?_
  have ht0 := tan_pi_pos h0 h1
  simp only [quadSq]
  simp only [mul_assoc, cos_double_tan (cos_pi_pos h0.le h1).ne', cos_double_tan (cos_pi_pos hf0 hf1).ne',
    sin_double_tan (cos_pi_pos h0.le h1).ne', sin_double_tan (cos_pi_pos hf0 hf1).ne']
  set t := Real.tan (Real.pi * f)
  set t0 := Real.tan (Real.pi * f0)
  have hpos : 0 < (1 - (t / t0) ^ 2) ^ 2 + (t / t0 / q) ^ 2 := by
    rcases eq_or_ne t 0 with h | h
    · rw [h]; simp
    · have : 0 < (t / t0 / q) ^ 2 := by positivity
      positivity
  rw [div_pow, Real.sq_sqrt hpos.le, one_pow, eq_comm, div_mul_eq_mul_div, one_mul, div_eq_iff hpos.ne']
  field_simp
  ring

/-- **C38**, all frequencies: the gain of the high pass is `1 / √((1 - Ω²)² + (Ω/q)²)` with
`Ω = tan (π f0) / tan (π f)`. -/
theorem C38_highPass_response {f0 q : ℝ} (h0 : 0 < f0) (h1 : f0 < 1 / 2) (hq : 0 < q) :
    AfterRBJ (.highPass (fin f0) (fin q)) fun b => ∀ f, 0 < f → f < 1 / 2 →
      let W := Real.tan (Real.pi * f0) / Real.tan (Real.pi * f)
      Gain b f (1 / √((1 - W ^ 2) ^ 2 + (W / q) ^ 2)) := by
  obtain ⟨hs, hc1, hc2⟩ := trig_facts h0 h1
  have hal : 0 < Real.sin (2 * Real.pi * f0) / (2 * q) := by positivity
  have hne := quadSq_core_ne hal.ne' h0 h1
  refine afterRBJ_of ⟨_, _, _, _, _, _⟩ (by simp only; linarith) (highPass_setup hq) fun b hb f hf0 hf1 => ?_
  refine gain_of hb (by positivity) (hne f) ?_
  have ht0 := tan_pi_pos h0 h1
  have ht := tan_pi_pos hf0 hf1
  simp only [quadSq]
  simp only [mul_assoc, cos_double_tan (cos_pi_pos h0.le h1).ne', cos_double_tan (cos_pi_pos hf0.le hf1).ne',
    sin_double_tan (cos_pi_pos h0.le h1).ne', sin_double_tan (cos_pi_pos hf0.le hf1).ne']
  set t := Real.tan (Real.pi * f)
  set t0 := Real.tan (Real.pi * f0)
  have hpos : 0 < (1 - (t0 / t) ^ 2) ^ 2 + (t0 / t / q) ^ 2 := by positivity
  rw [div_pow, Real.sq_sqrt hpos.le, one_pow, eq_comm, div_mul_eq_mul_div, one_mul, div_eq_iff hpos.ne']
  field_simp
  ring

/-- a case: the default quality `1/√2` gives the gain `1/√2` (-3 dB) at the cutoff 0.1 -/
example : AfterRBJ (.lowPass (fin 0.1) RBJ.oneSqrt2) fun b => Gain b 0.1 (1 / √2) := by
  have h : (RBJ.oneSqrt2 : XR) = fin (1 / √2) := by
    simp [RBJ.oneSqrt2, sqrt_fin (zero_le_two (α := ℝ)), fin_div]
  rw [h]
  intro f
  obtain ⟨f', h1, h2, _, _, h3⟩ := C38_lowPass (f0 := 0.1) (q := 1 / √2) (by norm_num) (by norm_num)
    (by positivity) f
  exact ⟨f', h1, h2, h3⟩

/-! ## C39 -/

section bp
variable {f0 w : ℝ}

theorem bandPass1_setup (hq : 0 < w) (b : Biquad XR) :
    (RBJ.Design.bandPass1 (fin f0) (fin w)).setupN b =
      let c := Real.cos (2 * Real.pi * f0)
      let al := Real.sin (2 * Real.pi * f0) / (2 * w)
      Biquad.setCoefficients (fin (1 + al)) (fin (-2 * c)) (fin (1 - al)) (fin (w * al)) (fin 0)
        (fin (-w * al)) b := by
  have h2 : 2 * w ≠ 0 := by positivity
  simp [RBJ.Design.setupN, RBJ.bandPass1, fin_div _ h2]

theorem bandPass2_setup (hq : 0 < w) (b : Biquad XR) :
    (RBJ.Design.bandPass2 (fin f0) (fin w)).setupN b =
      let c := Real.cos (2 * Real.pi * f0)
      let al := Real.sin (2 * Real.pi * f0) / (2 * w)
      Biquad.setCoefficients (fin (1 + al)) (fin (-2 * c)) (fin (1 - al)) (fin al) (fin 0)
        (fin (-al)) b := by
  have h2 : 2 * w ≠ 0 := by positivity
  simp [RBJ.Design.setupN, RBJ.bandPass2, fin_div _ h2]

theorem bandStop_setup (hq : 0 < w) (b : Biquad XR) :
    (RBJ.Design.bandStop (fin f0) (fin w)).setupN b =
      let c := Real.cos (2 * Real.pi * f0)
      let al := Real.sin (2 * Real.pi * f0) / (2 * w)
      Biquad.setCoefficients (fin (1 + al)) (fin (-2 * c)) (fin (1 - al)) (fin 1) (fin (-2 * c))
        (fin 1) b := by
  have h2 : 2 * w ≠ 0 := by positivity
  simp [RBJ.Design.setupN, RBJ.bandStop, fin_div _ h2]

theorem allPass_setup (hq : 0 < w) (b : Biquad XR) :
    (RBJ.Design.allPass (fin f0) (fin w)).setupN b =
      let c := Real.cos (2 * Real.pi * f0)
      let al := Real.sin (2 * Real.pi * f0) / (2 * w)
      Biquad.setCoefficients (fin (1 + al)) (fin (-2 * c)) (fin (1 - al)) (fin (1 - al)) (fin (-2 * c))
        (fin (1 + al)) b := by
  have h2 : 2 * w ≠ 0 := by positivity
  simp [RBJ.Design.setupN, RBJ.allPass, fin_div _ h2]

theorem iirNotch_setup (hq : 0 < w) (b : Biquad XR) :
    (RBJ.Design.iirNotch (fin f0) (fin w)).setupN b =
      let c := Real.cos (2 * Real.pi * f0)
      let r := Real.exp (-(2 * Real.pi * f0 / 2) / w)
      Biquad.setCoefficients (fin 1) (fin (-2 * r * c)) (fin (r * r)) (fin 1) (fin (-2 * c))
        (fin 1) b := by
  simp [RBJ.Design.setupN, RBJ.iirNotch, fin_div _ hq.ne', fin_div _ (two_ne_zero (α := ℝ))]

end bp

/-- **C39**: BandPass1: gain `bandWidth` (its second argument) at the centre, 0 at DC and Nyquist. -/
theorem C39_bandPass1 {f0 w : ℝ} (h0 : 0 < f0) (h1 : f0 < 1 / 2) (hw : 0 < w) :
    AfterRBJ (.bandPass1 (fin f0) (fin w)) fun b =>
      Gain b 0 0 ∧ Gain b (1 / 2) 0 ∧ Gain b f0 w := by
  obtain ⟨hs, hc1, hc2⟩ := trig_facts h0 h1
  have hal : 0 < Real.sin (2 * Real.pi * f0) / (2 * w) := by positivity
  have hne := quadSq_core_ne hal.ne' h0 h1
  refine afterRBJ_of ⟨_, _, _, _, _, _⟩ (by simp only; linarith) (bandPass1_setup hw) fun b hb => ⟨?_, ?_, ?_⟩
  · refine gain_of hb le_rfl (hne 0) ?_
    simp only [quadSq_zero]; ring
  · refine gain_of hb le_rfl (hne _) ?_
    simp only [quadSq_half]; ring
  · refine gain_of hb hw.le (hne _) ?_
    simp only [quadSq]; ring

/-- **C39**: BandPass2: gain 1 at the centre and 0 at DC and Nyquist; nowhere more than 1. -/
theorem C39_bandPass2 {f0 w : ℝ} (h0 : 0 < f0) (h1 : f0 < 1 / 2) (hw : 0 < w) :
    AfterRBJ (.bandPass2 (fin f0) (fin w)) fun b =>
      Gain b 0 0 ∧ Gain b (1 / 2) 0 ∧ Gain b f0 1 ∧ ∀ f, ∃ g, Gain b f g ∧ g ≤ 1 := by
  obtain ⟨hs, hc1, hc2⟩ := trig_facts h0 h1
  have hal : 0 < Real.sin (2 * Real.pi * f0) / (2 * w) := by positivity
  have hne := quadSq_core_ne hal.ne' h0 h1
  refine afterRBJ_of ⟨_, _, _, _, _, _⟩ (by simp only; linarith) (bandPass2_setup hw)
    fun b hb => ⟨?_, ?_, ?_, fun f => ?_⟩
  · refine gain_of hb le_rfl (hne 0) ?_
    simp only [quadSq_zero]; ring
  · refine gain_of hb le_rfl (hne _) ?_
    simp only [quadSq_half]; ring
  · refine gain_of hb zero_le_one (hne _) ?_
    simp only [quadSq]; ring
  · refine ⟨_, ⟨_, C25_response hb f ((quadSq_ne_zero_iff _ _ _ _).2 (hne f)), rfl⟩, ?_⟩
    rw [← sq_le_one_iff₀ (norm_nonneg _), Coeffs.transfer_normSq]
    simp only
    have hpos : 0 < quadSq (1 + Real.sin (2 * Real.pi * f0) / (2 * w)) (-2 * Real.cos (2 * Real.pi * f0))
        (1 - Real.sin (2 * Real.pi * f0) / (2 * w)) f :=
      lt_of_le_of_ne (by unfold quadSq; positivity) (hne f).symm
    rw [div_le_one hpos, quadSq_core, quadSq]
    nlinarith [sq_nonneg (Real.cos (2 * Real.pi * f) - Real.cos (2 * Real.pi * f0))]

/-- **C39**: BandStop: gain exactly 0 at the centre, 1 at DC and Nyquist, nowhere more than 1. -/
theorem C39_bandStop {f0 w : ℝ} (h0 : 0 < f0) (h1 : f0 < 1 / 2) (hw : 0 < w) :
    AfterRBJ (.bandStop (fin f0) (fin w)) fun b =>
      Gain b 0 1 ∧ Gain b (1 / 2) 1 ∧ Gain b f0 0 ∧ ∀ f, ∃ g, Gain b f g ∧ g ≤ 1 := by
  obtain ⟨hs, hc1, hc2⟩ := trig_facts h0 h1
  have hal : 0 < Real.sin (2 * Real.pi * f0) / (2 * w) := by positivity
  have hne := quadSq_core_ne hal.ne' h0 h1
  refine afterRBJ_of ⟨_, _, _, _, _, _⟩ (by simp only; linarith) (bandStop_setup hw)
    fun b hb => ⟨?_, ?_, ?_, fun f => ?_⟩
  · refine gain_of hb zero_le_one (hne 0) ?_
    simp only [quadSq_zero]; ring
  · refine gain_of hb zero_le_one (hne _) ?_
    simp only [quadSq_half]; ring
  · refine gain_of hb le_rfl (hne _) ?_
    simp only [quadSq]; ring
  · refine ⟨_, ⟨_, C25_response hb f ((quadSq_ne_zero_iff _ _ _ _).2 (hne f)), rfl⟩, ?_⟩
    rw [← sq_le_one_iff₀ (norm_nonneg _), Coeffs.transfer_normSq]
    simp only
    have hpos : 0 < quadSq (1 + Real.sin (2 * Real.pi * f0) / (2 * w)) (-2 * Real.cos (2 * Real.pi * f0))
        (1 - Real.sin (2 * Real.pi * f0) / (2 * w)) f :=
      lt_of_le_of_ne (by unfold quadSq; positivity) (hne f).symm
    rw [div_le_one hpos, quadSq_core, quadSq]
    nlinarith [sq_nonneg (Real.sin (2 * Real.pi * f0) / (2 * w) * Real.sin (2 * Real.pi * f))]

theorem notch_r {f0 q : ℝ} (h0 : 0 < f0) (hq : 0 < q) :
    0 < Real.exp (-(2 * Real.pi * f0 / 2) / q) ∧ Real.exp (-(2 * Real.pi * f0 / 2) / q) < 1 := by
  refine ⟨Real.exp_pos _, ?_⟩
  rw [Real.exp_lt_one_iff]
  have := Real.pi_pos
  rw [neg_div]
  exact neg_neg_of_pos (by positivity)

/-- **C39**: IIRNotch: gain exactly 0 at the centre; the gain at DC is
`(2 - 2 cos w0) / (1 - 2 r cos w0 + r²)` with `r = e^(-w0/(2 q))`. -/
theorem C39_iirNotch {f0 q : ℝ} (h0 : 0 < f0) (h1 : f0 < 1 / 2) (hq : 0 < q) :
    AfterRBJ (.iirNotch (fin f0) (fin q)) fun b =>
      Gain b f0 0 ∧
      let w0 := 2 * Real.pi * f0
      let r := Real.exp (-w0 / (2 * q))
      Gain b 0 ((2 - 2 * Real.cos w0) / (1 - 2 * r * Real.cos w0 + r ^ 2)) := by
  obtain ⟨hs, hc1, hc2⟩ := trig_facts h0 h1
  obtain ⟨hr0, hr1⟩ := notch_r h0 hq
  refine afterRBJ_of ⟨_, _, _, _, _, _⟩ (by simp) (iirNotch_setup hq) fun b hb => ⟨?_, ?_⟩
  · refine gain_of hb le_rfl ?_ ?_
    · simp only [quadSq]
      set r := Real.exp (-(2 * Real.pi * f0 / 2) / q)
      have : r * r < 1 := by nlinarith
      have : 0 < (1 - r * r) * Real.sin (2 * Real.pi * f0) := by
        apply mul_pos <;> linarith
      positivity
    · simp only [quadSq]; ring
  · have e : -(2 * Real.pi * f0) / (2 * q) = -(2 * Real.pi * f0 / 2) / q := by field_simp
    simp only [e]
    set r := Real.exp (-(2 * Real.pi * f0 / 2) / q)
    have hd : 0 < 1 - 2 * r * Real.cos (2 * Real.pi * f0) + r ^ 2 := by nlinarith
    refine gain_of hb (div_nonneg (by linarith) hd.le) ?_ ?_
    · simp only [quadSq_zero]
      have : 1 + -2 * r * Real.cos (2 * Real.pi * f0) + r * r ≠ 0 := by nlinarith
      positivity
    · simp only [quadSq_zero]
      rw [show 1 + -2 * r * Real.cos (2 * Real.pi * f0) + r * r
        = 1 - 2 * r * Real.cos (2 * Real.pi * f0) + r ^ 2 by ring, div_pow,
        div_mul_cancel₀ _ (pow_ne_zero 2 hd.ne')]
      ring

/-! ## C40 -/

section shelf
variable {f0 g S : ℝ}

/-- the radicand of the shelf slope -/
theorem shelf_rad {A S : ℝ} (hA : 0 < A) (hS0 : 0 < S) (hS1 : S ≤ 1) :
    0 < (A + 1 / A) * (1 / S - 1) + 2 := by
  have : 1 ≤ 1 / S := by rw [le_div_iff₀ hS0]; linarith
  have : 0 ≤ (A + 1 / A) * (1 / S - 1) := mul_nonneg (by positivity) (by linarith)
  linarith

theorem lowShelf_setup (hS0 : 0 < S) (hS1 : S ≤ 1) (b : Biquad XR) :
    (RBJ.Design.lowShelf (fin f0) (fin g) (fin S)).setupN b =
      let A := (10 : ℝ) ^ (g / 40)
      let c := Real.cos (2 * Real.pi * f0)
      let al := Real.sin (2 * Real.pi * f0) / 2 * √((A + 1 / A) * (1 / S - 1) + 2)
      let sq := 2 * √A * al
      Biquad.setCoefficients (fin (A + 1 + (A - 1) * c + sq)) (fin (-2 * (A - 1 + (A + 1) * c)))
        (fin (A + 1 + (A - 1) * c - sq)) (fin (A * (A + 1 - (A - 1) * c + sq)))
        (fin (2 * A * (A - 1 - (A + 1) * c))) (fin (A * (A + 1 - (A - 1) * c - sq))) b := by
  have hA : 0 < (10 : ℝ) ^ (g / 40) := by positivity
  have hr := shelf_rad hA hS0 hS1
  simp only [RBJ.Design.setupN, RBJ.lowShelf, lit_ofNat, lit_one, pi_eq, fin_mul, cos_fin, sin_fin,
    fin_div _ (show (40 : ℝ) ≠ 0 by norm_num), pow_fin _ (show (0 : ℝ) < 10 by norm_num),
    fin_div _ hS0.ne', fin_div _ hA.ne', fin_div _ (two_ne_zero (α := ℝ)), fin_add, fin_sub,
    sqrt_fin hr.le, sqrt_fin hA.le, fin_neg]

theorem highShelf_setup (hS0 : 0 < S) (hS1 : S ≤ 1) (b : Biquad XR) :
    (RBJ.Design.highShelf (fin f0) (fin g) (fin S)).setupN b =
      let A := (10 : ℝ) ^ (g / 40)
      let c := Real.cos (2 * Real.pi * f0)
      let al := Real.sin (2 * Real.pi * f0) / 2 * √((A + 1 / A) * (1 / S - 1) + 2)
      let sq := 2 * √A * al
      Biquad.setCoefficients (fin (A + 1 - (A - 1) * c + sq)) (fin (2 * (A - 1 - (A + 1) * c)))
        (fin (A + 1 - (A - 1) * c - sq)) (fin (A * (A + 1 + (A - 1) * c + sq)))
        (fin (-2 * A * (A - 1 + (A + 1) * c))) (fin (A * (A + 1 + (A - 1) * c - sq))) b := by
  have hA : 0 < (10 : ℝ) ^ (g / 40) := by positivity
  have hr := shelf_rad hA hS0 hS1
  simp only [RBJ.Design.setupN, RBJ.highShelf, lit_ofNat, lit_one, pi_eq, fin_mul, cos_fin, sin_fin,
    fin_div _ (show (40 : ℝ) ≠ 0 by norm_num), pow_fin _ (show (0 : ℝ) < 10 by norm_num),
    fin_div _ hS0.ne', fin_div _ hA.ne', fin_div _ (two_ne_zero (α := ℝ)), fin_add, fin_sub,
    sqrt_fin hr.le, sqrt_fin hA.le, fin_neg]

theorem bandShelf_setup (hs : 0 < Real.sin (2 * Real.pi * f0)) (w : ℝ) (b : Biquad XR) :
    (RBJ.Design.bandShelf (fin f0) (fin g) (fin w)).setupN b =
      let A := (10 : ℝ) ^ (g / 40)
      let c := Real.cos (2 * Real.pi * f0)
      let s := Real.sin (2 * Real.pi * f0)
      let al := s * Real.sinh (Real.log 2 / 2 * w * (2 * Real.pi * f0) / s)
      Biquad.setCoefficients (fin (1 + al / A)) (fin (-2 * c)) (fin (1 - al / A)) (fin (1 + al * A))
        (fin (-2 * c)) (fin (1 - al * A)) b := by
  have hA : 0 < (10 : ℝ) ^ (g / 40) := by positivity
  simp only [RBJ.Design.setupN, RBJ.bandShelf, lit_ofNat, lit_one, pi_eq, fin_mul, cos_fin, sin_fin, ln2_eq,
    fin_div _ (show (40 : ℝ) ≠ 0 by norm_num), pow_fin _ (show (0 : ℝ) < 10 by norm_num),
    fin_div _ (two_ne_zero (α := ℝ)), fin_div _ hs.ne', sinh_fin, isNan_fin, bind_def, throwIf_false,
    fin_div _ hA.ne', fin_add, fin_sub, fin_neg]

/-- `10^(g/40)` squared -/
theorem sq_pow40 (g : ℝ) : ((10 : ℝ) ^ (g / 40)) ^ 2 = (10 : ℝ) ^ (g / 20) := by
  rw [← Real.rpow_natCast, ← Real.rpow_mul (by norm_num)]
  congr 1; push_cast; ring

end shelf

/-- **C40**: RBJ LowShelf: gain `10^(gainDb/20)` at DC and 1 at Nyquist. -/
theorem C40_lowShelf {f0 g S : ℝ} (h0 : 0 < f0) (h1 : f0 < 1 / 2) (hS0 : 0 < S) (hS1 : S ≤ 1) :
    AfterRBJ (.lowShelf (fin f0) (fin g) (fin S)) fun b =>
      Gain b 0 (10 ^ (g / 20)) ∧ Gain b (1 / 2) 1 := by
  obtain ⟨hs, hc1, hc2⟩ := trig_facts h0 h1
  have hA : 0 < (10 : ℝ) ^ (g / 40) := by positivity
  have hA2 := sq_pow40 g
  refine afterRBJ_of ⟨_, _, _, _, _, _⟩ ?_ (lowShelf_setup hS0 hS1) fun b hb => ?_
  · simp only
    have : 0 < (10 : ℝ) ^ (g / 40) + 1 + ((10 : ℝ) ^ (g / 40) - 1) * Real.cos (2 * Real.pi * f0) := by nlinarith
    positivity
  set A := (10 : ℝ) ^ (g / 40)
  set c := Real.cos (2 * Real.pi * f0)
  constructor
  · refine gain_of hb (by positivity) ?_ ?_
    · simp only [quadSq_zero]
      refine (pow_pos ?_ 2).ne'
      nlinarith
    · simp only [quadSq_zero]
      rw [← hA2]; ring
  · refine gain_of hb zero_le_one ?_ ?_
    · simp only [quadSq_half]
      refine (pow_pos ?_ 2).ne'
      nlinarith
    · simp only [quadSq_half]; ring

/-- **C40**: RBJ HighShelf: gain 1 at DC and `10^(gainDb/20)` at Nyquist. -/
theorem C40_highShelf {f0 g S : ℝ} (h0 : 0 < f0) (h1 : f0 < 1 / 2) (hS0 : 0 < S) (hS1 : S ≤ 1) :
    AfterRBJ (.highShelf (fin f0) (fin g) (fin S)) fun b =>
      Gain b 0 1 ∧ Gain b (1 / 2) (10 ^ (g / 20)) := by
  obtain ⟨hs, hc1, hc2⟩ := trig_facts h0 h1
  have hA : 0 < (10 : ℝ) ^ (g / 40) := by positivity
  have hA2 := sq_pow40 g
  refine afterRBJ_of ⟨_, _, _, _, _, _⟩ ?_ (highShelf_setup hS0 hS1) fun b hb => ?_
  · simp only
    have : 0 < (10 : ℝ) ^ (g / 40) + 1 - ((10 : ℝ) ^ (g / 40) - 1) * Real.cos (2 * Real.pi * f0) := by nlinarith
    positivity
  set A := (10 : ℝ) ^ (g / 40)
  set c := Real.cos (2 * Real.pi * f0)
  constructor
  · refine gain_of hb zero_le_one ?_ ?_
    · simp only [quadSq_zero]
      refine (pow_pos ?_ 2).ne'
      nlinarith
    · simp only [quadSq_zero]; ring
  · refine gain_of hb (by positivity) ?_ ?_
    · simp only [quadSq_half]
      refine (pow_pos ?_ 2).ne'
      nlinarith
    · simp only [quadSq_half]
      rw [← hA2]; ring

theorem bandShelf_al {f0 w : ℝ} (h0 : 0 < f0) (h1 : f0 < 1 / 2) (hw : 0 < w) :
    0 < Real.sin (2 * Real.pi * f0) *
      Real.sinh (Real.log 2 / 2 * w * (2 * Real.pi * f0) / Real.sin (2 * Real.pi * f0)) := by
  obtain ⟨hs, _, _⟩ := trig_facts h0 h1
  have := Real.pi_pos
  have := Real.log_pos (one_lt_two (α := ℝ))
  refine mul_pos hs ((Real.sinh_pos_iff).2 ?_)
  positivity

/-- **C40**: RBJ BandShelf: gain `10^(gainDb/20)` at the centre and 1 at DC and Nyquist. -/
theorem C40_bandShelf {f0 g w : ℝ} (h0 : 0 < f0) (h1 : f0 < 1 / 2) (hw : 0 < w) :
    AfterRBJ (.bandShelf (fin f0) (fin g) (fin w)) fun b =>
      Gain b 0 1 ∧ Gain b (1 / 2) 1 ∧ Gain b f0 (10 ^ (g / 20)) := by
  obtain ⟨hs, hc1, hc2⟩ := trig_facts h0 h1
  have hA : 0 < (10 : ℝ) ^ (g / 40) := by positivity
  have hA2 := sq_pow40 g
  have hal := bandShelf_al h0 h1 hw
  refine afterRBJ_of ⟨_, _, _, _, _, _⟩ ?_ (bandShelf_setup hs w) fun b hb => ?_
  · simp only; positivity
  have hne := quadSq_core_ne (div_pos hal hA).ne' h0 h1
  refine ⟨?_, ?_, ?_⟩
  · refine gain_of hb zero_le_one (hne 0) ?_
    simp only [quadSq_zero]; ring
  · refine gain_of hb zero_le_one (hne _) ?_
    simp only [quadSq_half]; ring
  · refine gain_of hb (by positivity) (hne _) ?_
    simp only [quadSq]
    rw [← hA2]
    field_simp
    ring

/-! ## C41 -/

/-- **C41**: the RBJ all pass has gain 1 at every frequency. -/
theorem C41_allPass {f0 q : ℝ} (h0 : 0 < f0) (h1 : f0 < 1 / 2) (hq : 0 < q) :
    AfterRBJ (.allPass (fin f0) (fin q)) fun b => ∀ f, Gain b f 1 := by
  obtain ⟨hs, hc1, hc2⟩ := trig_facts h0 h1
  have hal : 0 < Real.sin (2 * Real.pi * f0) / (2 * q) := by positivity
  have hne := quadSq_core_ne hal.ne' h0 h1
  refine afterRBJ_of ⟨_, _, _, _, _, _⟩ (by simp only; linarith) (allPass_setup hq) fun b hb f => ?_
  refine gain_of hb zero_le_one (hne f) ?_
  simp only [quadSq]; ring

/-- **C41** without any bound on the phase frequency (the library does not check it): gain 1 wherever
the leading coefficient `1 + sin w0/(2q)` is not 0 and `f` is not a pole on the unit circle. -/
theorem C41_allPass_any {f0 q : ℝ} (hq : 0 < q) (ha : 1 + Real.sin (2 * Real.pi * f0) / (2 * q) ≠ 0) :
    AfterRBJ (.allPass (fin f0) (fin q)) fun b => ∀ f,
      (Real.sin (2 * Real.pi * f0) ≠ 0 ∨ Real.cos (2 * Real.pi * f) ≠ Real.cos (2 * Real.pi * f0)) →
      Gain b f 1 := by
  refine afterRBJ_of ⟨_, _, _, _, _, _⟩ ha (allPass_setup hq) fun b hb f hf => ?_
  refine gain_of hb zero_le_one ?_ ?_
  · simp only [quadSq_core]
    intro h
    have e1 : (Real.cos (2 * Real.pi * f) - Real.cos (2 * Real.pi * f0)) ^ 2 = 0 := by
      nlinarith [sq_nonneg (Real.cos (2 * Real.pi * f) - Real.cos (2 * Real.pi * f0)),
        sq_nonneg (Real.sin (2 * Real.pi * f0) / (2 * q) * Real.sin (2 * Real.pi * f))]
    have e4 : Real.cos (2 * Real.pi * f) = Real.cos (2 * Real.pi * f0) := by
      have := pow_eq_zero_iff (two_ne_zero)|>.1 e1; linarith
    rcases hf with hf | hf
    · have e2 : (Real.sin (2 * Real.pi * f0) / (2 * q) * Real.sin (2 * Real.pi * f)) ^ 2 = 0 := by nlinarith
      have e3 : Real.sin (2 * Real.pi * f) = 0 :=
        (mul_eq_zero.1 (pow_eq_zero_iff (two_ne_zero)|>.1 e2)).resolve_left
          (div_ne_zero hf (by positivity))
      have h3 := Real.sin_sq_add_cos_sq (2 * Real.pi * f)
      have h4 := Real.sin_sq_add_cos_sq (2 * Real.pi * f0)
      rw [e3, e4] at h3
      have : Real.sin (2 * Real.pi * f0) ^ 2 = 0 := by nlinarith
      exact hf (pow_eq_zero_iff (two_ne_zero)|>.1 this)
    · exact hf e4
  · simp only [quadSq]; ring

/-- a case outside the documented range: phase frequency 3/4 (a negative sine), `q = 1` -/
example : AfterRBJ (.allPass (fin (3 / 4)) (fin 1)) fun b => Gain b (1 / 5) 1 := by
  have hs : Real.sin (2 * Real.pi * (3 / 4)) = -1 := by
    rw [show 2 * Real.pi * (3 / 4) = Real.pi / 2 + Real.pi by ring, Real.sin_add_pi, Real.sin_pi_div_two]
  intro f
  obtain ⟨f', h1, h2, h3⟩ := C41_allPass_any (f0 := 3 / 4) (q := 1) one_pos (by rw [hs]; norm_num) f
  exact ⟨f', h1, h2, h3 _ (.inl (by rw [hs]; norm_num))⟩

/-! ## C42 -/

/-- Valid parameters of the RBJ filters: centre or cutoff frequency strictly between 0 and half the
sampling rate, positive quality/width, shelf slope in `(0, 1]`. -/
def Spec.ValidRBJ : RBJ.Design ℝ → Prop
  | .lowPass f0 q | .highPass f0 q | .bandPass1 f0 q | .bandPass2 f0 q | .bandStop f0 q | .iirNotch f0 q
  | .bandShelf f0 _ q | .allPass f0 q => 0 < f0 ∧ f0 < 1 / 2 ∧ 0 < q
  | .lowShelf f0 _ S | .highShelf f0 _ S => 0 < f0 ∧ f0 < 1 / 2 ∧ 0 < S ∧ S ≤ 1

/-- The arguments as doubles. -/
def Spec.finRBJ : RBJ.Design ℝ → RBJ.Design XR
  | .lowPass f0 q => .lowPass (fin f0) (fin q)
  | .highPass f0 q => .highPass (fin f0) (fin q)
  | .bandPass1 f0 q => .bandPass1 (fin f0) (fin q)
  | .bandPass2 f0 q => .bandPass2 (fin f0) (fin q)
  | .bandStop f0 q => .bandStop (fin f0) (fin q)
  | .iirNotch f0 q => .iirNotch (fin f0) (fin q)
  | .lowShelf f0 g S => .lowShelf (fin f0) (fin g) (fin S)
  | .highShelf f0 g S => .highShelf (fin f0) (fin g) (fin S)
  | .bandShelf f0 g w => .bandShelf (fin f0) (fin g) (fin w)
  | .allPass f0 q => .allPass (fin f0) (fin q)

/-- **C42**: every RBJ filter with valid parameters is stable. -/
theorem C42_stable (d : RBJ.Design ℝ) (h : ValidRBJ d) : AfterRBJ (finRBJ d) StableSection := by
  cases d with
  | lowPass f0 q =>
    obtain ⟨h0, h1, hq⟩ := h
    obtain ⟨hs, hc1, hc2⟩ := trig_facts h0 h1
    have hal : 0 < Real.sin (2 * Real.pi * f0) / (2 * q) := by positivity
    exact afterRBJ_of ⟨_, _, _, _, _, _⟩ (by simp only; linarith) (lowPass_setup hq)
      fun b hb => ⟨_, hb, stable_core hal h0 h1⟩
  | highPass f0 q =>
    obtain ⟨h0, h1, hq⟩ := h
    obtain ⟨hs, hc1, hc2⟩ := trig_facts h0 h1
    have hal : 0 < Real.sin (2 * Real.pi * f0) / (2 * q) := by positivity
    exact afterRBJ_of ⟨_, _, _, _, _, _⟩ (by simp only; linarith) (highPass_setup hq)
      fun b hb => ⟨_, hb, stable_core hal h0 h1⟩
  | bandPass1 f0 q =>
    obtain ⟨h0, h1, hq⟩ := h
    obtain ⟨hs, hc1, hc2⟩ := trig_facts h0 h1
    have hal : 0 < Real.sin (2 * Real.pi * f0) / (2 * q) := by positivity
    exact afterRBJ_of ⟨_, _, _, _, _, _⟩ (by simp only; linarith) (bandPass1_setup hq)
      fun b hb => ⟨_, hb, stable_core hal h0 h1⟩
  | bandPass2 f0 q =>
    obtain ⟨h0, h1, hq⟩ := h
    obtain ⟨hs, hc1, hc2⟩ := trig_facts h0 h1
    have hal : 0 < Real.sin (2 * Real.pi * f0) / (2 * q) := by positivity
    exact afterRBJ_of ⟨_, _, _, _, _, _⟩ (by simp only; linarith) (bandPass2_setup hq)
      fun b hb => ⟨_, hb, stable_core hal h0 h1⟩
  | bandStop f0 q =>
    obtain ⟨h0, h1, hq⟩ := h
    obtain ⟨hs, hc1, hc2⟩ := trig_facts h0 h1
    have hal : 0 < Real.sin (2 * Real.pi * f0) / (2 * q) := by positivity
    exact afterRBJ_of ⟨_, _, _, _, _, _⟩ (by simp only; linarith) (bandStop_setup hq)
      fun b hb => ⟨_, hb, stable_core hal h0 h1⟩
  | allPass f0 q =>
    obtain ⟨h0, h1, hq⟩ := h
    obtain ⟨hs, hc1, hc2⟩ := trig_facts h0 h1
    have hal : 0 < Real.sin (2 * Real.pi * f0) / (2 * q) := by positivity
    exact afterRBJ_of ⟨_, _, _, _, _, _⟩ (by simp only; linarith) (allPass_setup hq)
      fun b hb => ⟨_, hb, stable_core hal h0 h1⟩
  | iirNotch f0 q =>
    obtain ⟨h0, h1, hq⟩ := h
    obtain ⟨hs, hc1, hc2⟩ := trig_facts h0 h1
    obtain ⟨hr0, hr1⟩ := notch_r h0 hq
    refine afterRBJ_of ⟨_, _, _, _, _, _⟩ (by simp) (iirNotch_setup hq) fun b hb => ⟨_, hb, ?_⟩
    apply Coeffs.stable_of_jury <;> simp only <;> nlinarith
  | bandShelf f0 g w =>
    obtain ⟨h0, h1, hw⟩ := h
    obtain ⟨hs, hc1, hc2⟩ := trig_facts h0 h1
    have hal := bandShelf_al h0 h1 hw
    have hA : 0 < (10 : ℝ) ^ (g / 40) := by positivity
    exact afterRBJ_of ⟨_, _, _, _, _, _⟩ (by simp only; positivity) (bandShelf_setup hs w)
      fun b hb => ⟨_, hb, stable_core (div_pos hal hA) h0 h1⟩
  | lowShelf f0 g S =>
    obtain ⟨h0, h1, hS0, hS1⟩ := h
    obtain ⟨hs, hc1, hc2⟩ := trig_facts h0 h1
    have hA : 0 < (10 : ℝ) ^ (g / 40) := by positivity
    have hr := Real.sqrt_pos.2 (shelf_rad hA hS0 hS1)
    have h3 : 0 < 2 * √((10 : ℝ) ^ (g / 40)) * (Real.sin (2 * Real.pi * f0) / 2 *
      √(((10 : ℝ) ^ (g / 40) + 1 / (10 : ℝ) ^ (g / 40)) * (1 / S - 1) + 2)) := by positivity
    have h4 : 0 < (10 : ℝ) ^ (g / 40) + 1 + ((10 : ℝ) ^ (g / 40) - 1) * Real.cos (2 * Real.pi * f0) := by nlinarith
    refine afterRBJ_of ⟨_, _, _, _, _, _⟩ ?_ (lowShelf_setup hS0 hS1) fun b hb => ⟨_, hb, ?_⟩
    · simp only; linarith
    · apply Coeffs.stable_of_jury <;> simp only <;> nlinarith
  | highShelf f0 g S =>
    obtain ⟨h0, h1, hS0, hS1⟩ := h
    obtain ⟨hs, hc1, hc2⟩ := trig_facts h0 h1
    have hA : 0 < (10 : ℝ) ^ (g / 40) := by positivity
    have hr := Real.sqrt_pos.2 (shelf_rad hA hS0 hS1)
    have h3 : 0 < 2 * √((10 : ℝ) ^ (g / 40)) * (Real.sin (2 * Real.pi * f0) / 2 *
      √(((10 : ℝ) ^ (g / 40) + 1 / (10 : ℝ) ^ (g / 40)) * (1 / S - 1) + 2)) := by positivity
    have h4 : 0 < (10 : ℝ) ^ (g / 40) + 1 - ((10 : ℝ) ^ (g / 40) - 1) * Real.cos (2 * Real.pi * f0) := by nlinarith
    refine afterRBJ_of ⟨_, _, _, _, _, _⟩ ?_ (highShelf_setup hS0 hS1) fun b hb => ⟨_, hb, ?_⟩
    · simp only; linarith
    · apply Coeffs.stable_of_jury <;> simp only <;> nlinarith

/-- a case: a shelf with +6 dB and slope 1/2 is valid -/
example : ValidRBJ (.lowShelf 0.2 6 0.5) := by simp only [ValidRBJ]; norm_num

/-- With a sampling rate: `setup (fs, F, …)` is `setupN (F/fs, …)`, so all of the above holds with
`f0 = F / fs` (stated for one class; the others are the same). -/
theorem C38_with_sample_rate {fs F q : ℝ} (hfs : 0 < fs) (h0 : 0 < F) (h1 : F < fs / 2) (hq : 0 < q)
    (f : RBJ.Filter XR) :
    ∃ f', RBJ.Filter.setup (fin fs) (.lowPass (fin F) (fin q)) f = (.ok (), f') ∧
      Gain f'.biquad 0 1 ∧ Gain f'.biquad (1 / 2) 0 ∧ Gain f'.biquad (F / fs) q := by
  obtain ⟨f', h, _, h2⟩ := C38_lowPass (f0 := F / fs) (q := q) (by positivity)
    (by rw [div_lt_iff₀ hfs]; linarith) hq f
  refine ⟨f', ?_, h2⟩
  rw [← h]
  show Exec.zoom _ _ _ f = Exec.zoom _ _ _ f
  simp [RBJ.Design.setup, RBJ.Design.overFs, fin_div _ hfs.ne']

end Iir
