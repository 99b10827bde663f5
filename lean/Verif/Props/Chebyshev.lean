import Verif.Props.Butterworth

/-! # C35–C37: the frequency response of the Chebyshev filters

Exact arithmetic.  `Asks call n o d`: the call, on an object with template order `n`, asks for order
`o` and the design `d` (frequencies divided by the sampling rate). -/

set_option linter.unusedSectionVars false

namespace Iir
open Spec XR

variable {S : Type → Type} [StateType S XR] {T : Type} [Sample T XR] {n o : ℕ} {call : Call XR}
  {fc fw r gainDb : ℝ}

/-! ## The gain functions -/

theorem pow10_gt (hr : 0 < r) : 1 < (10 : ℝ) ^ (r / 10) := Real.one_lt_rpow (by norm_num) (by positivity)

theorem ofDb_neg_sq (r : ℝ) : ofDb (-r) ^ 2 = 1 / (10 : ℝ) ^ (r / 10) := by
  rw [ofDb_sq, neg_div, Real.rpow_neg (by norm_num), one_div]

theorem cheb1_pass (hr : 0 < r) {t : ℝ} (ht : |t| ≤ 1) : ofDb (-r) ^ 2 ≤ cheb1 o r t ∧ cheb1 o r t ≤ 1 := by
  have h := pow10_gt hr
  have h1 := chebT_sq_le (n := o) ht
  have h2 : 0 ≤ chebT o t ^ 2 := sq_nonneg _
  rw [ofDb_neg_sq, cheb1]
  constructor
  · exact one_div_le_one_div_of_le (by nlinarith) (by nlinarith)
  · rw [div_le_one (by nlinarith)]; nlinarith

theorem cheb1_edge {t : ℝ} (ht : |t| = 1) : cheb1 o r t = ofDb (-r) ^ 2 := by
  rw [ofDb_neg_sq, cheb1, chebT_one_sq ht]; congr 1; ring

theorem cheb1_abs (t : ℝ) : cheb1 o r |t| = cheb1 o r t := by
  rcases abs_choice t with h | h <;> rw [h]
  rw [cheb1, cheb1, chebT_neg_sq]

theorem cheb1_lt (hr : 0 < r) (ho : 1 ≤ o) {x y : ℝ} (h1 : 1 ≤ |x|) (h : |x| < |y|) : cheb1 o r y < cheb1 o r x := by
  have h2 := pow10_gt hr
  rw [← cheb1_abs x, ← cheb1_abs y]
  have h3 := chebT_sq_lt ho h1 h
  have h4 : 0 ≤ chebT o |x| ^ 2 := sq_nonneg _
  exact one_div_lt_one_div_of_lt (by nlinarith) (by nlinarith)

theorem cheb1_pos (hr : 0 < r) (t : ℝ) : 0 < cheb1 o r t := by
  have h := pow10_gt hr
  have : 0 ≤ chebT o t ^ 2 := sq_nonneg _
  exact one_div_pos.2 (by nlinarith)

theorem cheb2_stop (hr : 0 < r) {t : ℝ} (ht : |t| ≤ 1) : 0 ≤ cheb2 o r t ∧ cheb2 o r t ≤ ofDb (-r) ^ 2 := by
  have h := pow10_gt hr
  have h1 := chebT_sq_le (n := o) ht
  have h2 : 0 ≤ chebT o t ^ 2 := sq_nonneg _
  rw [ofDb_neg_sq, cheb2]
  constructor
  · exact div_nonneg h2 (by nlinarith)
  · rw [div_le_div_iff₀ (by nlinarith) (by linarith)]; nlinarith

theorem cheb2_edge {t : ℝ} (ht : |t| = 1) : cheb2 o r t = ofDb (-r) ^ 2 := by
  rw [ofDb_neg_sq, cheb2, chebT_one_sq ht]; congr 1; ring

theorem cheb2_abs (t : ℝ) : cheb2 o r |t| = cheb2 o r t := by
  rcases abs_choice t with h | h <;> rw [h]
  rw [cheb2, cheb2, chebT_neg_sq]

theorem cheb2_lt (hr : 0 < r) (ho : 1 ≤ o) {x y : ℝ} (h1 : 1 ≤ |x|) (h : |x| < |y|) : cheb2 o r x < cheb2 o r y := by
  have h2 := pow10_gt hr
  rw [← cheb2_abs x, ← cheb2_abs y]
  have h3 := chebT_sq_lt ho h1 h
  have h4 : 0 ≤ chebT o |x| ^ 2 := sq_nonneg _
  rw [cheb2, cheb2, div_lt_div_iff₀ (by nlinarith) (by nlinarith)]
  nlinarith

theorem cheb2_lt_one (hr : 0 < r) (t : ℝ) : cheb2 o r t < 1 := by
  have h2 := pow10_gt hr
  have h4 : 0 ≤ chebT o t ^ 2 := sq_nonneg _
  rw [cheb2, div_lt_one (by nlinarith)]; linarith

/-! ## C35: Chebyshev I -/

/-- Of `GainSq f`: within `rippleDb` of 1. -/
def Spec.InRipple (rippleDb v : ℝ) : Prop := ofDb (-rippleDb) ^ 2 ≤ v ∧ v ≤ 1

/-- **C35**, low pass: `|H(f)|² = 1 / (1 + eps² T_o(t)²)`, `t = tan πf / tan πfc`, `eps² = 10^(ripple/10) - 1`: up
to `fc` the gain is between `-ripple` and 0 dB, at `fc` it is `-ripple` dB, and beyond it falls strictly. -/
theorem C35_lowpass (h : Asks call n o (.c1LowPass (fin fc) (fin r))) (h0 : 0 < fc) (h1 : fc < 1 / 2) (hr : 0 < r) :
    AfterSetup S T n call fun f => LowShape (cheb1 o r) 0 ((o + 1) / 2) fc f ∧
      (∀ fr v, 0 ≤ fr → fr ≤ fc → GainSq f fr v → InRipple r v) ∧ GainSq f fc (ofDb (-r) ^ 2) ∧
      ∀ fr fr' v v', fc ≤ fr → fr < fr' → fr' ≤ 1 / 2 → GainSq f fr v → GainSq f fr' v' → v' < v := by
  have ho := h.pos
  refine (Spec.shape_low h (Design.proto_c1 _ hr h.pos h.le h.small rfl)
    (chebyshevI_shape ho hr) rfl rfl h0 h1).mono fun f hf => ?_
  simp only [if_true] at hf
  refine ⟨hf, fun fr v a b e => ?_, ?_, fun fr fr' v v' a b c e e' => ?_⟩
  · rw [e.unique (hf.gain fr a (b.trans_lt h1))]
    refine cheb1_pass hr ?_
    rw [abs_of_nonneg (lowRatio_nonneg h0 h1 a (b.trans_lt h1)), ← lowRatio_self h0 h1]
    rcases b.eq_or_lt with rfl | b
    · exact le_rfl
    · exact (lowRatio_lt h0 h1 a b h1).le
  · have := hf.gain fc h0.le h1
    rwa [cheb1_edge (by rw [lowRatio_self h0 h1, abs_one])] at this
  · have hfr : 0 < fr := h0.trans_le a
    rw [e.unique (hf.gain fr hfr.le (by linarith))]
    rcases c.eq_or_lt with rfl | c
    · rw [e'.unique hf.nyquist]; exact cheb1_pos hr _
    · rw [e'.unique (hf.gain fr' (by linarith) c)]
      have p1 := lowRatio_pos h0 h1 hfr (by linarith : fr < 1 / 2)
      have p2 := lowRatio_lt h0 h1 hfr.le b c
      refine cheb1_lt hr ho ?_ ?_
      · rw [abs_of_pos p1, ← lowRatio_self h0 h1]
        rcases a.eq_or_lt with rfl | a
        · exact le_rfl
        · exact (lowRatio_lt h0 h1 h0.le a (by linarith)).le
      · rw [abs_of_pos p1, abs_of_pos (p1.trans p2)]; exact p2

example : AfterSetup S T 5 (.setupN (.c1LowPass (fin (1 / 8)) (fin 3))) fun f => GainSq f (1 / 8) (ofDb (-3) ^ 2) :=
  (C35_lowpass (o := 5) (fc := 1 / 8) ⟨rfl, rfl, by norm_num, le_rfl, by norm_num⟩ (by norm_num) (by norm_num)
    (by norm_num)).mono fun _ h => h.2.2.1

theorem highRatio_half (fc : ℝ) : highRatio fc (1 / 2) = 0 := by
  rw [highRatio, show Real.pi * (1 / 2) = Real.pi / 2 by ring, Real.tan_pi_div_two, div_zero]

/-- `HighShape` also covers half the sampling rate. -/
theorem Spec.HighShape.gain' {Φ : ℝ → ℝ} {v : ℝ} {len : ℕ} {f : PoleFilter S XR} (hf : HighShape Φ v len fc f)
    {fr : ℝ} (a : 0 < fr) (b : fr ≤ 1 / 2) : GainSq f fr (Φ (highRatio fc fr)) := by
  rcases b.eq_or_lt with rfl | b
  · rw [highRatio_half]; exact hf.nyquist
  · exact hf.gain fr a b

theorem highRatio_le_one (h0 : 0 < fc) (h1 : fc < 1 / 2) {fr : ℝ} (a : fc ≤ fr) (b : fr ≤ 1 / 2) :
    0 ≤ highRatio fc fr ∧ highRatio fc fr ≤ 1 := by
  rcases b.eq_or_lt with rfl | b
  · rw [highRatio_half]; norm_num
  · refine ⟨(highRatio_pos h0 h1 (h0.trans_le a) b).le, ?_⟩
    rw [← highRatio_self h0 h1]
    rcases a.eq_or_lt with rfl | a
    · exact le_rfl
    · exact (highRatio_lt h0 h1 h0 a b).le

theorem one_le_highRatio (h0 : 0 < fc) (h1 : fc < 1 / 2) {fr : ℝ} (a : 0 < fr) (b : fr ≤ fc) :
    1 ≤ highRatio fc fr := by
  rw [← highRatio_self h0 h1]
  rcases b.eq_or_lt with rfl | b
  · exact le_rfl
  · exact (highRatio_lt h0 h1 a b h1).le

/-- **C35**, high pass: from `fc` on the gain is between `-ripple` and 0 dB, at `fc` it is `-ripple` dB, and below
it rises strictly. -/
theorem C35_highpass (h : Asks call n o (.c1HighPass (fin fc) (fin r))) (h0 : 0 < fc) (h1 : fc < 1 / 2) (hr : 0 < r) :
    AfterSetup S T n call fun f => HighShape (cheb1 o r) 0 ((o + 1) / 2) fc f ∧
      (∀ fr v, fc ≤ fr → fr ≤ 1 / 2 → GainSq f fr v → InRipple r v) ∧ GainSq f fc (ofDb (-r) ^ 2) ∧
      ∀ fr fr' v v', 0 ≤ fr → fr < fr' → fr' ≤ fc → GainSq f fr v → GainSq f fr' v' → v < v' := by
  have ho := h.pos
  refine (Spec.shape_high h (Design.proto_c1 _ hr h.pos h.le h.small rfl)
    (chebyshevI_shape ho hr) rfl rfl h0 h1).mono fun f hf => ?_
  simp only [if_true] at hf
  refine ⟨hf, fun fr v a b e => ?_, ?_, fun fr fr' v v' a b c e e' => ?_⟩
  · rw [e.unique (hf.gain' (h0.trans_le a) b)]
    have := highRatio_le_one h0 h1 a b
    exact cheb1_pass hr (abs_le.2 ⟨by linarith, this.2⟩)
  · have := hf.gain fc h0 h1
    rwa [cheb1_edge (by rw [highRatio_self h0 h1, abs_one])] at this
  · have hp' : 0 < fr' := a.trans_lt b
    have hlt : fr' < 1 / 2 := c.trans_lt h1
    rw [e'.unique (hf.gain fr' hp' hlt)]
    rcases a.eq_or_lt with rfl | a
    · rw [e.unique hf.dc]; exact cheb1_pos hr _
    · rw [e.unique (hf.gain fr a (b.trans hlt))]
      have h2 := one_le_highRatio h0 h1 hp' c
      have h3 := highRatio_lt h0 h1 a b hlt
      refine cheb1_lt hr ho ?_ ?_
      · rwa [abs_of_pos (by linarith)]
      · rwa [abs_of_pos (by linarith), abs_of_pos (by linarith)]

example : AfterSetup S T 5 (.setupN (.c1HighPass (fin (1 / 8)) (fin 3))) fun f => GainSq f (1 / 8) (ofDb (-3) ^ 2) :=
  (C35_highpass (o := 5) (fc := 1 / 8) ⟨rfl, rfl, by norm_num, le_rfl, by norm_num⟩ (by norm_num) (by norm_num)
    (by norm_num)).mono fun _ h => h.2.2.1

/-- Absolute value of the real pole of a Chebyshev I prototype of odd order. -/
noncomputable def Spec.cheb1Pole (o : ℕ) (r : ℝ) : ℝ :=
  Real.sinh (Real.arsinh (1 / Real.sqrt ((10 : ℝ) ^ (r / 10) - 1)) / o)

theorem c1_noReal {b : ℝ} (h : o % 2 = 1 → b ≠ cheb1Pole o r) : (chebyshevI o (chebV o (chebEps r))).NoReal b := by
  intro ho
  have ho' : o % 2 = 1 := ho
  refine ⟨fun e => ?_, by simp [chebyshevI]⟩
  have e' : starRingEnd ℂ (chebPole o (chebV o (chebEps r)) (o / 2)) = -(b : ℂ) := e
  rw [chebPole_mid ho', Complex.conj_ofReal] at e'
  exact h ho' (by
    have : -Real.sinh (chebV o (chebEps r)) = -b := by exact_mod_cast e'
    rw [cheb1Pole]; exact (neg_inj.1 this).symm)

/-- Beyond the edges of a band: the absolute prewarped frequency decreases up to `f1` and increases from `f2`. -/
theorem Band.outside {f1 f2 : ℝ} (h : Band f1 f2) :
    (∀ fr, 0 < fr → fr ≤ f1 → 1 ≤ |bandRatio f1 f2 fr|) ∧ (∀ fr, f2 ≤ fr → fr < 1 / 2 → 1 ≤ |bandRatio f1 f2 fr|) ∧
    (∀ fr fr', 0 < fr → fr < fr' → fr' ≤ f1 → |bandRatio f1 f2 fr'| < |bandRatio f1 f2 fr|) ∧
    (∀ fr fr', f2 ≤ fr → fr < fr' → fr' < 1 / 2 → |bandRatio f1 f2 fr| < |bandRatio f1 f2 fr'|) := by
  have hlo : ∀ fr, 0 < fr → fr ≤ f1 → bandRatio f1 f2 fr ≤ -1 := fun fr a b => by
    rcases b.eq_or_lt with rfl | b
    · exact h.ratio_lo.le
    · exact (h.ratio_below a b).le
  have hhi : ∀ fr, f2 ≤ fr → fr < 1 / 2 → 1 ≤ bandRatio f1 f2 fr := fun fr a b => by
    rcases a.eq_or_lt with rfl | a
    · exact h.ratio_hi.ge
    · exact (h.ratio_above a b).le
  refine ⟨fun fr a b => ?_, fun fr a b => ?_, fun fr fr' a b c => ?_, fun fr fr' a b c => ?_⟩
  · rw [le_abs]; right; linarith [hlo fr a b]
  · rw [le_abs]; left; exact hhi fr a b
  · have h1 := hlo fr' (a.trans b) c
    have h2 := h.ratio_lt a b (c.trans_lt (h.lt.trans h.half))
    rw [abs_of_neg (by linarith), abs_of_neg (by linarith)]; linarith
  · have h1 := hhi fr a (b.trans c)
    have h2 := h.ratio_lt (h.pos.trans (h.lt.trans_le a)) b c
    rw [abs_of_pos (by linarith), abs_of_pos (by linarith)]; linarith

/-- **C35**, band pass: between the edges the gain is within the ripple, at the edges it is `-ripple` dB, and it
falls strictly outside. -/
theorem C35_bandpass (h : Asks call n o (.c1BandPass (fin fc) (fin fw) (fin r))) (h0 : 0 ≤ fc) (h1 : fc < 1 / 2)
    (hr : 0 < r) (he : bandLo fc fw < bandHi fc fw)
    (hodd : o % 2 = 1 → Real.tan (Real.pi * (bandHi fc fw - bandLo fc fw)) * cheb1Pole o r ≠ 1) :
    AfterSetup S T n call fun f => BandShape (cheb1 o r) 0 o (bandLo fc fw) (bandHi fc fw) f ∧
      (∀ fr v, bandLo fc fw ≤ fr → fr ≤ bandHi fc fw → GainSq f fr v → InRipple r v) ∧
      GainSq f (bandLo fc fw) (ofDb (-r) ^ 2) ∧ GainSq f (bandHi fc fw) (ofDb (-r) ^ 2) ∧
      (∀ fr fr' v v', 0 ≤ fr → fr < fr' → fr' ≤ bandLo fc fw → GainSq f fr v → GainSq f fr' v' → v < v') ∧
      (∀ fr fr' v v', bandHi fc fw ≤ fr → fr < fr' → fr' ≤ 1 / 2 → GainSq f fr v → GainSq f fr' v' → v' < v) := by
  have ho := h.pos
  have hB := band_of he
  have hO := hB.outside
  have hB1 := hB.pos
  have hB2 := hB.lt
  have hB3 := hB.half
  refine (Spec.shape_bandPass h (Design.proto_c1 _ hr h.pos h.le h.small rfl)
    (chebyshevI_shape ho hr) rfl rfl h0 h1 he (c1_noReal fun hh h2 => hodd hh ?_)).mono fun f hf => ?_
  · rw [← h2, ← edgeHalf_eq, mul_one_div_cancel (tan_edgeHalf_pos (edge_lt he)).ne']
  simp only [if_true] at hf
  refine ⟨hf, fun fr v a b e => ?_, ?_, ?_, fun fr fr' v v' a b c e e' => ?_, fun fr fr' v v' a b c e e' => ?_⟩
  · rw [e.unique (hf.gain fr (by linarith) (by linarith))]
    exact cheb1_pass hr (hB.abs_ratio_le a b)
  · have := hf.gain _ hB1 (by linarith)
    rwa [cheb1_edge (by rw [hB.ratio_lo, abs_neg, abs_one])] at this
  · have := hf.gain _ (by linarith) hB3
    rwa [cheb1_edge (by rw [hB.ratio_hi, abs_one])] at this
  · rw [e'.unique (hf.gain fr' (by linarith) (by linarith))]
    rcases a.eq_or_lt with rfl | a
    · rw [e.unique hf.dc]; exact cheb1_pos hr _
    · rw [e.unique (hf.gain fr a (by linarith))]
      exact cheb1_lt hr ho (hO.1 fr' (by linarith) c) (hO.2.2.1 fr fr' a b c)
  · rw [e.unique (hf.gain fr (by linarith) (by linarith))]
    rcases c.eq_or_lt with rfl | c
    · rw [e'.unique hf.nyquist]; exact cheb1_pos hr _
    · rw [e'.unique (hf.gain fr' (by linarith) c)]
      exact cheb1_lt hr ho (hO.2.1 fr a (by linarith)) (hO.2.2.2 fr fr' a b c)

example : AfterSetup S T 4 (.setupN (.c1BandPass (fin (1 / 4)) (fin (1 / 8)) (fin 3))) fun f =>
    GainSq f (3 / 16) (ofDb (-3) ^ 2) := by
  have h := C35_bandpass (S := S) (T := T) (o := 4) (n := 4) (fc := 1 / 4) (fw := 1 / 8)
    (call := .setupN (.c1BandPass (fin (1 / 4)) (fin (1 / 8)) (fin 3))) ⟨rfl, rfl, by norm_num, le_rfl, by norm_num⟩
    (by norm_num) (by norm_num) (by norm_num)
    (by rw [band_ex.1, band_ex.2]; norm_num) (fun h => by norm_num at h)
  rw [band_ex.1, band_ex.2] at h
  exact h.mono fun f h => h.2.2.1

theorem cheb1_inv_lt (hr : 0 < r) (ho : 1 ≤ o) {x y : ℝ} (h : |x| < |y|) (hy : |y| ≤ 1) :
    (if x = 0 then 0 else cheb1 o r (1 / x)) < if y = 0 then 0 else cheb1 o r (1 / y) := by
  have hy0 : y ≠ 0 := by rintro rfl; rw [abs_zero] at h; exact absurd h (abs_nonneg x).not_gt
  rw [if_neg hy0]
  split_ifs with hx
  · exact cheb1_pos hr _
  · refine cheb1_lt hr ho ?_ ?_
    · rw [abs_div, abs_one, le_div_iff₀ (abs_pos.2 hy0), one_mul]; exact hy
    · rw [abs_div, abs_div, abs_one]
      exact one_div_lt_one_div_of_lt (abs_pos.2 hx) h

/-- **C35**, band stop: up to the lower edge and from the upper edge on the gain is within the ripple, at the edges it
is `-ripple` dB, between them it falls strictly to 0 at the centre of the (prewarped) band and rises again. -/
theorem C35_bandstop (h : Asks call n o (.c1BandStop (fin fc) (fin fw) (fin r))) (h0 : 0 ≤ fc) (h1 : fc < 1 / 2)
    (hr : 0 < r) (he : bandLo fc fw < bandHi fc fw)
    (hodd : o % 2 = 1 → Real.tan (Real.pi * (bandHi fc fw - bandLo fc fw)) ≠ cheb1Pole o r) :
    AfterSetup S T n call fun f =>
      BandShape (fun t => if t = 0 then 0 else cheb1 o r (1 / t)) (cheb1 o r 0) o (bandLo fc fw) (bandHi fc fw) f ∧
      (∀ fr v, 0 ≤ fr → fr ≤ bandLo fc fw → GainSq f fr v → InRipple r v) ∧
      (∀ fr v, bandHi fc fw ≤ fr → fr ≤ 1 / 2 → GainSq f fr v → InRipple r v) ∧
      GainSq f (bandLo fc fw) (ofDb (-r) ^ 2) ∧ GainSq f (bandHi fc fw) (ofDb (-r) ^ 2) ∧
      (∀ fr v, bandLo fc fw < fr → fr < bandHi fc fw → GainSq f fr v → v < ofDb (-r) ^ 2) ∧
      GainSq f (bandMid (bandLo fc fw) (bandHi fc fw)) 0 ∧
      (∀ fr fr' v v', bandLo fc fw ≤ fr → fr < fr' → fr' ≤ bandMid (bandLo fc fw) (bandHi fc fw) →
        GainSq f fr v → GainSq f fr' v' → v' < v) ∧
      (∀ fr fr' v v', bandMid (bandLo fc fw) (bandHi fc fw) ≤ fr → fr < fr' → fr' ≤ bandHi fc fw →
        GainSq f fr v → GainSq f fr' v' → v < v') := by
  have ho := h.pos
  have hB := band_of he
  have hO := hB.outside
  have hB1 := hB.pos
  have hB2 := hB.lt
  have hB3 := hB.half
  refine (Spec.shape_bandStop h (Design.proto_c1 _ hr h.pos h.le h.small rfl)
    (chebyshevI_shape ho hr) rfl rfl h0 h1 he (c1_noReal fun hh h2 => hodd hh ?_)).mono fun f hf => ?_
  · rw [← h2, ← edgeHalf_eq]
  have hinv : ∀ t : ℝ, 1 ≤ |t| → InRipple r (if t = 0 then 0 else cheb1 o r (1 / t)) := by
    intro t ht
    rw [if_neg (by rintro rfl; norm_num at ht)]
    refine cheb1_pass hr ?_
    rw [abs_div, abs_one]
    exact div_le_one_of_le₀ ht (abs_nonneg _)
  have hmono := hB.abs_ratio_mono
  have hbet := hB.mid_between
  refine ⟨hf, fun fr v a b e => ?_, fun fr v a b e => ?_, ?_, ?_, fun fr v a b e => ?_, ?_,
    fun fr fr' v v' a b c e e' => ?_, fun fr fr' v v' a b c e e' => ?_⟩
  rotate_left 6
  · rw [e'.unique (hf.gain fr' (by linarith) (by linarith)), e.unique (hf.gain fr (by linarith) (by linarith))]
    exact cheb1_inv_lt hr ho (hmono.1 fr fr' (by linarith) b c) (hB.abs_ratio_le a (by linarith))
  · rw [e'.unique (hf.gain fr' (by linarith) (by linarith)), e.unique (hf.gain fr (by linarith) (by linarith))]
    exact cheb1_inv_lt hr ho (hmono.2 fr fr' a b (by linarith)) (hB.abs_ratio_le (by linarith) c)
  · rcases a.eq_or_lt with rfl | a
    · rw [e.unique hf.dc]; exact cheb1_pass hr (by norm_num)
    · rw [e.unique (hf.gain fr a (by linarith))]
      exact hinv _ (hO.1 fr a b)
  · rcases b.eq_or_lt with rfl | b
    · rw [e.unique hf.nyquist]; exact cheb1_pass hr (by norm_num)
    · rw [e.unique (hf.gain fr (by linarith) b)]
      exact hinv _ (hO.2.1 fr a b)
  · have := hf.gain _ hB1 (by linarith)
    rw [hB.ratio_lo, if_neg (by norm_num), cheb1_edge (by norm_num)] at this
    exact this
  · have := hf.gain _ (by linarith) hB3
    rw [hB.ratio_hi, if_neg (by norm_num), cheb1_edge (by norm_num)] at this
    exact this
  · rw [e.unique (hf.gain fr (by linarith) (by linarith))]
    have h2 := hB.abs_ratio_lt a b
    split_ifs with hz
    · have := ofDb_pos (-r); positivity
    · rw [← cheb1_edge (o := o) (abs_one (α := ℝ))]
      refine cheb1_lt hr ho (by rw [abs_one]) ?_
      rw [abs_one, abs_div, abs_one, lt_div_iff₀ (abs_pos.2 hz), one_mul]; exact h2
  · have hm := hB.mid_mem
    have := hf.gain _ hm.1 hm.2
    rw [hB.ratio_mid, if_pos rfl] at this
    exact this

example : AfterSetup S T 4 (.setupN (.c1BandStop (fin (1 / 4)) (fin (1 / 8)) (fin 3))) fun f =>
    GainSq f (3 / 16) (ofDb (-3) ^ 2) := by
  have h := C35_bandstop (S := S) (T := T) (o := 4) (n := 4) (fc := 1 / 4) (fw := 1 / 8)
    (call := .setupN (.c1BandStop (fin (1 / 4)) (fin (1 / 8)) (fin 3))) ⟨rfl, rfl, by norm_num, le_rfl, by norm_num⟩
    (by norm_num) (by norm_num) (by norm_num)
    (by rw [band_ex.1, band_ex.2]; norm_num) (fun h => by norm_num at h)
  rw [band_ex.1, band_ex.2] at h
  exact h.mono fun f h => h.2.2.2.1

/-! ## C36: Chebyshev II -/

/-- Of `GainSq f`: at least `stopBandDb` decibels down. -/
def Spec.Rejected (stopBandDb v : ℝ) : Prop := v ≤ ofDb (-stopBandDb) ^ 2

theorem cheb2_inv_stop (hr : 0 < r) {t : ℝ} (ht : 1 ≤ |t|) : Rejected r (if t = 0 then 1 else cheb2 o r (1 / t)) := by
  rw [if_neg (by rintro rfl; norm_num at ht)]
  refine (cheb2_stop hr ?_).2
  rw [abs_div, abs_one]
  exact div_le_one_of_le₀ ht (abs_nonneg _)

theorem cheb2_inv_edge {t : ℝ} (ht : |t| = 1) : (if t = 0 then 1 else cheb2 o r (1 / t)) = ofDb (-r) ^ 2 := by
  rw [if_neg (by rintro rfl; norm_num at ht), cheb2_edge]
  rw [abs_div, abs_one, ht, div_one]

theorem cheb2_inv_lt (hr : 0 < r) (ho : 1 ≤ o) {x y : ℝ} (h : |x| < |y|) (hy : |y| ≤ 1) :
    (if y = 0 then 1 else cheb2 o r (1 / y)) < if x = 0 then 1 else cheb2 o r (1 / x) := by
  have hy0 : y ≠ 0 := by rintro rfl; rw [abs_zero] at h; exact absurd h (abs_nonneg x).not_gt
  rw [if_neg hy0]
  split_ifs with hx
  · exact cheb2_lt_one hr _
  · refine cheb2_lt hr ho ?_ ?_
    · rw [abs_div, abs_one, le_div_iff₀ (abs_pos.2 hy0), one_mul]; exact hy
    · rw [abs_div, abs_div, abs_one]
      exact one_div_lt_one_div_of_lt (abs_pos.2 hx) h

/-- **C36**, low pass: `|H(f)|² = T_o(1/t)² / (T_o(1/t)² + 10^(stopBandDb/10) - 1)`, `t = tan πf / tan πfc`: from `fc` on
the rejection is at least `stopBandDb`, exactly that at `fc`; the gain is 1 at frequency 0 and falls strictly up
to `fc`. -/
theorem C36_lowpass (h : Asks call n o (.c2LowPass (fin fc) (fin r))) (h0 : 0 < fc) (h1 : fc < 1 / 2) (hr : 0 < r) :
    AfterSetup S T n call fun f =>
      LowShape (fun t => if t = 0 then 1 else cheb2 o r (1 / t)) (cheb2 o r 0) ((o + 1) / 2) fc f ∧
      (∀ fr v, fc ≤ fr → fr ≤ 1 / 2 → GainSq f fr v → Rejected r v) ∧ GainSq f fc (ofDb (-r) ^ 2) ∧ GainSq f 0 1 ∧
      ∀ fr fr' v v', 0 ≤ fr → fr < fr' → fr' ≤ fc → GainSq f fr v → GainSq f fr' v' → v' < v := by
  have ho := h.pos
  refine (Spec.shape_low h (Design.proto_c2 _ hr h.pos h.le h.small rfl lay0_c2.1 lay0_c2.2)
    (chebyshevII_shape ho hr) rfl rfl h0 h1).mono fun f hf => ?_
  have hle : ∀ fr, fc ≤ fr → fr < 1 / 2 → 1 ≤ lowRatio fc fr := fun fr a b => by
    rw [← lowRatio_self h0 h1]
    rcases a.eq_or_lt with rfl | a
    · exact le_rfl
    · exact (lowRatio_lt h0 h1 h0.le a b).le
  refine ⟨hf, fun fr v a b e => ?_, ?_, ?_, fun fr fr' v v' a b c e e' => ?_⟩
  · rcases b.eq_or_lt with rfl | b
    · rw [e.unique hf.nyquist]; exact (cheb2_stop hr (by norm_num)).2
    · rw [e.unique (hf.gain fr (by linarith) b)]
      exact cheb2_inv_stop hr (by rw [le_abs]; left; exact hle fr a b)
  · have := hf.gain fc h0.le h1
    rwa [cheb2_inv_edge (by rw [lowRatio_self h0 h1, abs_one])] at this
  · have := hf.gain 0 le_rfl (by norm_num)
    rwa [lowRatio_zero, if_pos rfl] at this
  · rw [e.unique (hf.gain fr a (by linarith)), e'.unique (hf.gain fr' (by linarith) (by linarith))]
    have p1 := lowRatio_nonneg h0 h1 a (by linarith : fr < 1 / 2)
    have p2 := lowRatio_lt h0 h1 a b (by linarith)
    refine cheb2_inv_lt hr ho ?_ ?_
    · rwa [abs_of_nonneg p1, abs_of_nonneg (by linarith)]
    · rw [abs_of_nonneg (by linarith), ← lowRatio_self h0 h1]
      rcases c.eq_or_lt with rfl | c
      · exact le_rfl
      · exact (lowRatio_lt h0 h1 (by linarith) c h1).le

example : AfterSetup S T 5 (.setupN (.c2LowPass (fin (1 / 8)) (fin 40))) fun f => GainSq f (1 / 8) (ofDb (-40) ^ 2) :=
  (C36_lowpass (o := 5) (fc := 1 / 8) ⟨rfl, rfl, by norm_num, le_rfl, by norm_num⟩ (by norm_num) (by norm_num)
    (by norm_num)).mono fun _ h => h.2.2.1

/-- **C36**, high pass: up to `fc` the rejection is at least `stopBandDb`, exactly that at `fc`; the gain is 1 at half
the sampling rate and rises strictly from `fc` on. -/
theorem C36_highpass (h : Asks call n o (.c2HighPass (fin fc) (fin r))) (h0 : 0 < fc) (h1 : fc < 1 / 2) (hr : 0 < r) :
    AfterSetup S T n call fun f =>
      HighShape (fun t => if t = 0 then 1 else cheb2 o r (1 / t)) (cheb2 o r 0) ((o + 1) / 2) fc f ∧
      (∀ fr v, 0 ≤ fr → fr ≤ fc → GainSq f fr v → Rejected r v) ∧ GainSq f fc (ofDb (-r) ^ 2) ∧ GainSq f (1 / 2) 1 ∧
      ∀ fr fr' v v', fc ≤ fr → fr < fr' → fr' ≤ 1 / 2 → GainSq f fr v → GainSq f fr' v' → v < v' := by
  have ho := h.pos
  refine (Spec.shape_high h (Design.proto_c2 _ hr h.pos h.le h.small rfl lay0_c2.1 lay0_c2.2)
    (chebyshevII_shape ho hr) rfl rfl h0 h1).mono fun f hf => ?_
  refine ⟨hf, fun fr v a b e => ?_, ?_, ?_, fun fr fr' v v' a b c e e' => ?_⟩
  · rcases a.eq_or_lt with rfl | a
    · rw [e.unique hf.dc]; exact (cheb2_stop hr (by norm_num)).2
    · rw [e.unique (hf.gain fr a (by linarith))]
      exact cheb2_inv_stop hr (by rw [le_abs]; left; exact one_le_highRatio h0 h1 a b)
  · have := hf.gain fc h0 h1
    rwa [cheb2_inv_edge (by rw [highRatio_self h0 h1, abs_one])] at this
  · have := hf.nyquist
    rwa [if_pos rfl] at this
  · rw [e.unique (hf.gain' (h0.trans_le a) (by linarith)), e'.unique (hf.gain' (by linarith) c)]
    have p1 := highRatio_le_one h0 h1 a (by linarith : fr ≤ 1 / 2)
    have p2 := highRatio_le_one h0 h1 (by linarith : fc ≤ fr') c
    have p3 : highRatio fc fr' < highRatio fc fr := by
      rcases c.eq_or_lt with rfl | c
      · rw [highRatio_half]; exact highRatio_pos h0 h1 (by linarith) b
      · exact highRatio_lt h0 h1 (by linarith) b c
    refine cheb2_inv_lt hr ho ?_ ?_
    · rwa [abs_of_nonneg p2.1, abs_of_nonneg p1.1]
    · rw [abs_of_nonneg p1.1]; exact p1.2

example : AfterSetup S T 5 (.setupN (.c2HighPass (fin (1 / 8)) (fin 40))) fun f => GainSq f (1 / 8) (ofDb (-40) ^ 2) :=
  (C36_highpass (o := 5) (fc := 1 / 8) ⟨rfl, rfl, by norm_num, le_rfl, by norm_num⟩ (by norm_num) (by norm_num)
    (by norm_num)).mono fun _ h => h.2.2.1

/-- Inverse of the absolute value of the real pole of a Chebyshev II prototype of odd order. -/
noncomputable def Spec.cheb2Pole (o : ℕ) (r : ℝ) : ℝ :=
  Real.sinh (Real.arsinh (Real.sqrt ((10 : ℝ) ^ (r / 10) - 1)) / o)

theorem c2_noReal {b : ℝ} (h : o % 2 = 1 → b * cheb2Pole o r ≠ 1) (hr : 0 < r) :
    (chebyshevII o (chebV o (chebEpsII r))).NoReal b := by
  intro ho
  have ho' : o % 2 = 1 := ho
  have hmid : 2 * (o / 2) + 1 = o := by omega
  have hp : chebV o (chebEpsII r) = Real.arsinh (Real.sqrt ((10 : ℝ) ^ (r / 10) - 1)) / o := by
    rw [chebV, chebEpsII, one_div_one_div, chebEps]
  constructor
  · intro e
    have e' : (chebPole o (chebV o (chebEpsII r)) (o / 2))⁻¹ = -(b : ℂ) := e
    rw [chebPole_mid ho'] at e'
    have e2 : (-Real.sinh (chebV o (chebEpsII r)))⁻¹ = -b := by exact_mod_cast e'
    rw [inv_neg, neg_inj] at e2
    have hs : 0 < Real.sinh (chebV o (chebEpsII r)) := Real.sinh_pos_iff.2 (chebV_pos (by omega) (chebEpsII_pos hr))
    apply h ho'
    rw [cheb2Pole, ← hp, ← e2, inv_mul_cancel₀ hs.ne']
  · intro e
    have e' : (if 2 * (o / 2) + 1 = o then none else some (Complex.I * (1 / Real.cos (angle o (o / 2)) : ℝ))) =
      some (-(b : ℂ)) := e
    rw [if_pos hmid] at e'
    cases e'

/-- **C36**, band pass: up to the lower edge and from the upper edge on the rejection is at least `stopBandDb`, exactly
that at the edges; between them the gain rises strictly to 1 at the centre of the (prewarped) band and falls again. -/
theorem C36_bandpass (h : Asks call n o (.c2BandPass (fin fc) (fin fw) (fin r))) (h0 : 0 ≤ fc) (h1 : fc < 1 / 2)
    (hr : 0 < r) (he : bandLo fc fw < bandHi fc fw)
    (hodd : o % 2 = 1 → Real.tan (Real.pi * (bandHi fc fw - bandLo fc fw)) ≠ cheb2Pole o r) :
    AfterSetup S T n call fun f =>
      BandShape (fun t => if t = 0 then 1 else cheb2 o r (1 / t)) (cheb2 o r 0) o (bandLo fc fw) (bandHi fc fw) f ∧
      (∀ fr v, 0 ≤ fr → fr ≤ bandLo fc fw → GainSq f fr v → Rejected r v) ∧
      (∀ fr v, bandHi fc fw ≤ fr → fr ≤ 1 / 2 → GainSq f fr v → Rejected r v) ∧
      GainSq f (bandLo fc fw) (ofDb (-r) ^ 2) ∧ GainSq f (bandHi fc fw) (ofDb (-r) ^ 2) ∧
      (∀ fr v, bandLo fc fw < fr → fr < bandHi fc fw → GainSq f fr v → ofDb (-r) ^ 2 < v ∧ v ≤ 1) ∧
      GainSq f (bandMid (bandLo fc fw) (bandHi fc fw)) 1 ∧
      (∀ fr fr' v v', bandLo fc fw ≤ fr → fr < fr' → fr' ≤ bandMid (bandLo fc fw) (bandHi fc fw) →
        GainSq f fr v → GainSq f fr' v' → v < v') ∧
      (∀ fr fr' v v', bandMid (bandLo fc fw) (bandHi fc fw) ≤ fr → fr < fr' → fr' ≤ bandHi fc fw →
        GainSq f fr v → GainSq f fr' v' → v' < v) := by
  have ho := h.pos
  have hB := band_of he
  have hO := hB.outside
  have hB1 := hB.pos
  have hB2 := hB.lt
  have hB3 := hB.half
  refine (Spec.shape_bandPass h (Design.proto_c2 _ hr h.pos h.le h.small rfl lay0_c2.1 lay0_c2.2)
    (chebyshevII_shape ho hr) rfl rfl h0 h1 he (c2_noReal (fun hh h2 => hodd hh ?_) hr)).mono fun f hf => ?_
  · rw [← edgeHalf_eq]
    rwa [one_div, inv_mul_eq_one₀ (tan_edgeHalf_pos (edge_lt he)).ne'] at h2
  have hmono := hB.abs_ratio_mono
  have hbet := hB.mid_between
  refine ⟨hf, fun fr v a b e => ?_, fun fr v a b e => ?_, ?_, ?_, fun fr v a b e => ?_, ?_,
    fun fr fr' v v' a b c e e' => ?_, fun fr fr' v v' a b c e e' => ?_⟩
  rotate_left 6
  · rw [e'.unique (hf.gain fr' (by linarith) (by linarith)), e.unique (hf.gain fr (by linarith) (by linarith))]
    exact cheb2_inv_lt hr ho (hmono.1 fr fr' (by linarith) b c) (hB.abs_ratio_le a (by linarith))
  · rw [e'.unique (hf.gain fr' (by linarith) (by linarith)), e.unique (hf.gain fr (by linarith) (by linarith))]
    exact cheb2_inv_lt hr ho (hmono.2 fr fr' a b (by linarith)) (hB.abs_ratio_le (by linarith) c)
  · rcases a.eq_or_lt with rfl | a
    · rw [e.unique hf.dc]; exact (cheb2_stop hr (by norm_num)).2
    · rw [e.unique (hf.gain fr a (by linarith))]
      exact cheb2_inv_stop hr (hO.1 fr a b)
  · rcases b.eq_or_lt with rfl | b
    · rw [e.unique hf.nyquist]; exact (cheb2_stop hr (by norm_num)).2
    · rw [e.unique (hf.gain fr (by linarith) b)]
      exact cheb2_inv_stop hr (hO.2.1 fr a b)
  · have := hf.gain _ hB1 (by linarith)
    rwa [hB.ratio_lo, cheb2_inv_edge (by norm_num)] at this
  · have := hf.gain _ (by linarith) hB3
    rwa [hB.ratio_hi, cheb2_inv_edge (by norm_num)] at this
  · rw [e.unique (hf.gain fr (by linarith) (by linarith))]
    have h2 := hB.abs_ratio_lt a b
    constructor
    · rw [← cheb2_inv_edge (o := o) (abs_one (α := ℝ))]
      exact cheb2_inv_lt hr ho (by rwa [abs_one]) (by rw [abs_one])
    · split_ifs with hz
      · exact le_rfl
      · exact (cheb2_lt_one hr _).le
  · have hm := hB.mid_mem
    have := hf.gain _ hm.1 hm.2
    rwa [hB.ratio_mid, if_pos rfl] at this

example : AfterSetup S T 4 (.setupN (.c2BandPass (fin (1 / 4)) (fin (1 / 8)) (fin 40))) fun f =>
    GainSq f (3 / 16) (ofDb (-40) ^ 2) := by
  have h := C36_bandpass (S := S) (T := T) (o := 4) (n := 4) (fc := 1 / 4) (fw := 1 / 8)
    (call := .setupN (.c2BandPass (fin (1 / 4)) (fin (1 / 8)) (fin 40))) ⟨rfl, rfl, by norm_num, le_rfl, by norm_num⟩
    (by norm_num) (by norm_num) (by norm_num)
    (by rw [band_ex.1, band_ex.2]; norm_num) (fun h => by norm_num at h)
  rw [band_ex.1, band_ex.2] at h
  exact h.mono fun f h => h.2.2.2.1

/-- **C36**, band stop: between the edges the rejection is at least `stopBandDb`, exactly that at the edges; it is less
outside, and the gain is 1 at frequency 0 and at half the sampling rate. -/
theorem C36_bandstop (h : Asks call n o (.c2BandStop (fin fc) (fin fw) (fin r))) (h0 : 0 ≤ fc) (h1 : fc < 1 / 2)
    (hr : 0 < r) (he : bandLo fc fw < bandHi fc fw)
    (hodd : o % 2 = 1 → Real.tan (Real.pi * (bandHi fc fw - bandLo fc fw)) * cheb2Pole o r ≠ 1) :
    AfterSetup S T n call fun f => BandShape (cheb2 o r) 1 o (bandLo fc fw) (bandHi fc fw) f ∧
      (∀ fr v, bandLo fc fw ≤ fr → fr ≤ bandHi fc fw → GainSq f fr v → Rejected r v) ∧
      GainSq f (bandLo fc fw) (ofDb (-r) ^ 2) ∧ GainSq f (bandHi fc fw) (ofDb (-r) ^ 2) ∧
      (∀ fr fr' v v', 0 ≤ fr → fr < fr' → fr' ≤ bandLo fc fw → GainSq f fr v → GainSq f fr' v' → v' < v) ∧
      (∀ fr fr' v v', bandHi fc fw ≤ fr → fr < fr' → fr' ≤ 1 / 2 → GainSq f fr v → GainSq f fr' v' → v < v') := by
  have ho := h.pos
  have hB := band_of he
  have hO := hB.outside
  have hB1 := hB.pos
  have hB2 := hB.lt
  have hB3 := hB.half
  refine (Spec.shape_bandStop h (Design.proto_c2 _ hr h.pos h.le h.small rfl lay0_c2.1 lay0_c2.2)
    (chebyshevII_shape ho hr) rfl rfl h0 h1 he (c2_noReal (fun hh h2 => hodd hh ?_) hr)).mono fun f hf => ?_
  · rw [← edgeHalf_eq]; exact h2
  simp only [if_true] at hf
  refine ⟨hf, fun fr v a b e => ?_, ?_, ?_, fun fr fr' v v' a b c e e' => ?_, fun fr fr' v v' a b c e e' => ?_⟩
  · rw [e.unique (hf.gain fr (by linarith) (by linarith))]
    exact (cheb2_stop hr (hB.abs_ratio_le a b)).2
  · have := hf.gain _ hB1 (by linarith)
    rwa [cheb2_edge (by rw [hB.ratio_lo, abs_neg, abs_one])] at this
  · have := hf.gain _ (by linarith) hB3
    rwa [cheb2_edge (by rw [hB.ratio_hi, abs_one])] at this
  · rw [e'.unique (hf.gain fr' (by linarith) (by linarith))]
    rcases a.eq_or_lt with rfl | a
    · rw [e.unique hf.dc]; exact cheb2_lt_one hr _
    · rw [e.unique (hf.gain fr a (by linarith))]
      exact cheb2_lt hr ho (hO.1 fr' (by linarith) c) (hO.2.2.1 fr fr' a b c)
  · rw [e.unique (hf.gain fr (by linarith) (by linarith))]
    rcases c.eq_or_lt with rfl | c
    · rw [e'.unique hf.nyquist]; exact cheb2_lt_one hr _
    · rw [e'.unique (hf.gain fr' (by linarith) c)]
      exact cheb2_lt hr ho (hO.2.1 fr a (by linarith)) (hO.2.2.2 fr fr' a b c)

example : AfterSetup S T 4 (.setupN (.c2BandStop (fin (1 / 4)) (fin (1 / 8)) (fin 40))) fun f =>
    GainSq f (3 / 16) (ofDb (-40) ^ 2) := by
  have h := C36_bandstop (S := S) (T := T) (o := 4) (n := 4) (fc := 1 / 4) (fw := 1 / 8)
    (call := .setupN (.c2BandStop (fin (1 / 4)) (fin (1 / 8)) (fin 40))) ⟨rfl, rfl, by norm_num, le_rfl, by norm_num⟩
    (by norm_num) (by norm_num) (by norm_num)
    (by rw [band_ex.1, band_ex.2]; norm_num) (fun h => by norm_num at h)
  rw [band_ex.1, band_ex.2] at h
  exact h.mono fun f h => h.2.2.1

/-! ## C37: Chebyshev shelves -/

section Shelf
variable {G : ℝ}

theorem shelfG_eq (G : ℝ) : shelfG G = ofDb (-G) := rfl

theorem shelfGb_eq : shelfGb G r = ofDb (-shelfEdgeDb G r) := by
  rw [shelfGb, ofDb, shelfEdgeDb]
  congr 2
  by_cases h : 0 < G
  · rw [if_pos (by linarith), if_pos h]; ring
  · rw [if_neg (by linarith), if_neg h]; ring

theorem shelfEpsSq_eq (hr : 0 < r) (hG : r < |G|) : shelfEpsSq G r = shelfEps G r ^ 2 := by
  rw [shelfEps, Real.sq_sqrt (shelfEps_arg_pos hr hG).le, shelfGb_eq, shelfG_eq, shelfEpsSq]

theorem shelfPhi_eq (hr : 0 < r) (hG : r < |G|) : shelfPhi o G r = chebShelf o G r := by
  funext t
  rw [shelfPhi, chebShelf, shelfEpsSq_eq hr hG, shelfG_eq]

theorem shelfEpsSq_pos (hr : 0 < r) (hG : r < |G|) : 0 < shelfEpsSq G r := by
  rw [shelfEpsSq_eq hr hG]; have := shelfEps_pos hr hG; positivity

theorem ofDb_inv_sq (x : ℝ) : 1 / ofDb (-x) ^ 2 = ofDb x ^ 2 := by
  rw [ofDb_neg_sq, one_div_one_div, ofDb_sq]

theorem chebShelf_edge (hr : 0 < r) (hG : r < |G|) {t : ℝ} (ht : |t| = 1) :
    chebShelf o G r t = ofDb (shelfEdgeDb G r) ^ 2 := by
  have h := shelfEps_sq hr hG
  have hp := shelfGb_pos G r
  have hg := shelfG_pos G
  have he := shelfEps_pos hr hG
  rw [← ofDb_inv_sq, ← shelfGb_eq, ← shelfPhi_eq hr hG, shelfPhi, chebT_one_sq ht,
    div_eq_div_iff (by positivity) (by positivity)]
  linarith

theorem chebShelf_abs (t : ℝ) : chebShelf o G r |t| = chebShelf o G r t := by
  rcases abs_choice t with h | h <;> rw [h]
  rw [chebShelf, chebShelf, chebT_neg_sq]

theorem ofDb_lt {x y : ℝ} (h : x < y) : ofDb x < ofDb y := by
  unfold ofDb; exact Real.rpow_lt_rpow_of_exponent_lt (by norm_num) (by linarith)

theorem ofDb_zero : ofDb 0 = 1 := by simp [ofDb]

theorem ofDb_sq_lt_one {x : ℝ} (h : x < 0) : ofDb x ^ 2 < 1 := by
  have := ofDb_lt h; rw [ofDb_zero] at this
  nlinarith [ofDb_pos x]
theorem one_lt_ofDb_sq {x : ℝ} (h : 0 < x) : 1 < ofDb x ^ 2 := by
  have := ofDb_lt h; rw [ofDb_zero] at this
  nlinarith [ofDb_pos x]

/-- shape of the gain of a shelf as a function of `T²` -/
theorem shelf_frac {a e s t : ℝ} (ha : 0 < a) (he : 0 < e) (hs : 0 ≤ s) (hst : s ≤ t) :
    (a < 1 → (1 + e * t) / (a + e * t) ≤ (1 + e * s) / (a + e * s) ∧ 1 < (1 + e * t) / (a + e * t)) ∧
    (1 < a → (1 + e * s) / (a + e * s) ≤ (1 + e * t) / (a + e * t) ∧ (1 + e * t) / (a + e * t) < 1) := by
  have h1 : 0 ≤ e * s := by positivity
  have h2 : e * s ≤ e * t := by nlinarith
  generalize e * s = x at *
  generalize e * t = y at *
  refine ⟨fun h => ⟨?_, ?_⟩, fun h => ⟨?_, ?_⟩⟩
  · rw [div_le_div_iff₀ (by linarith) (by linarith)]; nlinarith
  · rw [one_lt_div (by linarith)]; linarith
  · rw [div_le_div_iff₀ (by linarith) (by linarith)]; nlinarith
  · rw [div_lt_one (by linarith)]; linarith

theorem shelf_frac_lt {a e s t : ℝ} (ha : 0 < a) (he : 0 < e) (hs : 0 ≤ s) (hst : s < t) :
    (a < 1 → (1 + e * t) / (a + e * t) < (1 + e * s) / (a + e * s)) ∧
    (1 < a → (1 + e * s) / (a + e * s) < (1 + e * t) / (a + e * t)) := by
  have h1 : 0 ≤ e * s := by positivity
  have h2 : e * s < e * t := by nlinarith
  generalize e * s = x at *
  generalize e * t = y at *
  refine ⟨fun h => ?_, fun h => ?_⟩
  · rw [div_lt_div_iff₀ (by linarith) (by linarith)]; nlinarith
  · rw [div_lt_div_iff₀ (by linarith) (by linarith)]; nlinarith

/-- Of `GainSq f`: between the gain at the edge of the band, `rippleDb` nearer to 0 dB, and `gainDb`. -/
def Spec.InShelf (gainDb rippleDb v : ℝ) : Prop :=
  v ∈ Set.uIcc (ofDb gainDb ^ 2) (ofDb (shelfEdgeDb gainDb rippleDb) ^ 2)

/-- Of `GainSq f`: `v'` is nearer to 0 dB than `v`, on the same side. -/
def Spec.Flatter (gainDb v v' : ℝ) : Prop := (0 < gainDb → 1 < v' ∧ v' < v) ∧ (gainDb < 0 → v < v' ∧ v' < 1)

theorem chebShelf_pass (hr : 0 < r) (hG : r < |G|) {t : ℝ} (ht : |t| ≤ 1) : InShelf G r (chebShelf o G r t) := by
  have he := shelfEpsSq_pos hr hG
  have ha : 0 < ofDb (-G) ^ 2 := by have := ofDb_pos (-G); positivity
  have h0 := shelf_frac ha he le_rfl (sq_nonneg (chebT o t))
  have h1 := shelf_frac ha he (sq_nonneg (chebT o t)) (chebT_sq_le (n := o) ht)
  have hz : (1 + shelfEpsSq G r * 0) / (ofDb (-G) ^ 2 + shelfEpsSq G r * 0) = ofDb G ^ 2 := by
    rw [mul_zero, add_zero, add_zero, ofDb_inv_sq]
  have hone : (1 + shelfEpsSq G r * 1) / (ofDb (-G) ^ 2 + shelfEpsSq G r * 1) = ofDb (shelfEdgeDb G r) ^ 2 := by
    rw [← chebShelf_edge (o := o) hr hG abs_one, chebShelf, chebT_one_sq abs_one]
  rw [hz] at h0; rw [hone] at h1
  rw [InShelf, Set.mem_uIcc, chebShelf]
  rcases lt_trichotomy G 0 with h | h | h
  · left; have := one_lt_ofDb_sq (x := -G) (by linarith)
    exact ⟨(h0.2 this).1, (h1.2 this).1⟩
  · rw [h, abs_zero] at hG; linarith
  · right; have := ofDb_sq_lt_one (x := -G) (by linarith)
    exact ⟨(h1.1 this).1, (h0.1 this).1⟩

theorem chebShelf_lt (hr : 0 < r) (hG : r < |G|) (ho : 1 ≤ o) {x y : ℝ} (h1 : 1 ≤ |x|) (h : |x| < |y|) :
    Flatter G (chebShelf o G r x) (chebShelf o G r y) := by
  have he := shelfEpsSq_pos hr hG
  have ha : 0 < ofDb (-G) ^ 2 := by have := ofDb_pos (-G); positivity
  rw [← chebShelf_abs x, ← chebShelf_abs y]
  have hT := chebT_sq_lt ho h1 h
  have h2 := shelf_frac ha he (sq_nonneg (chebT o |x|)) hT.le
  have h3 := shelf_frac_lt ha he (sq_nonneg (chebT o |x|)) hT
  constructor
  · intro hg; have := ofDb_sq_lt_one (x := -G) (by linarith)
    exact ⟨(h2.1 this).2, h3.1 this⟩
  · intro hg; have := one_lt_ofDb_sq (x := -G) (by linarith)
    exact ⟨h3.2 this, (h2.2 this).2⟩

/-- at prewarped frequency 0: the full gain for odd orders, the gain of the edge for even orders -/
theorem chebShelf_zero (hr : 0 < r) (hG : r < |G|) :
    chebShelf o G r 0 = if o % 2 = 1 then ofDb G ^ 2 else ofDb (shelfEdgeDb G r) ^ 2 := by
  split_ifs with h
  · have hz : chebT o 0 ^ 2 = 0 := by rw [chebT_zero_sq, if_pos h]
    rw [chebShelf, hz, mul_zero, add_zero, add_zero, ofDb_inv_sq]
  · have hz : chebT o 0 ^ 2 = 1 := by rw [chebT_zero_sq, if_neg h]
    rw [← chebShelf_edge (o := o) hr hG abs_one, chebShelf, chebShelf, hz, chebT_one_sq abs_one]

/-- What C37 says of a low shelf. -/
structure Spec.LowShelf (o : ℕ) (fc gainDb rippleDb : ℝ) (f : PoleFilter S XR) : Prop where
  shape : LowShape (chebShelf o gainDb rippleDb) 1 ((o + 1) / 2) fc f
  dc : GainSq f 0 (if o % 2 = 1 then ofDb gainDb ^ 2 else ofDb (shelfEdgeDb gainDb rippleDb) ^ 2)
  pass : ∀ fr v, 0 ≤ fr → fr ≤ fc → GainSq f fr v → InShelf gainDb rippleDb v
  edge : GainSq f fc (ofDb (shelfEdgeDb gainDb rippleDb) ^ 2)
  beyond : ∀ fr fr' v v', fc ≤ fr → fr < fr' → fr' < 1 / 2 → GainSq f fr v → GainSq f fr' v' → Flatter gainDb v v'

/-- What C37 says of a high shelf. -/
structure Spec.HighShelf (o : ℕ) (fc gainDb rippleDb : ℝ) (f : PoleFilter S XR) : Prop where
  shape : HighShape (chebShelf o gainDb rippleDb) 1 ((o + 1) / 2) fc f
  nyquist : GainSq f (1 / 2) (if o % 2 = 1 then ofDb gainDb ^ 2 else ofDb (shelfEdgeDb gainDb rippleDb) ^ 2)
  pass : ∀ fr v, fc ≤ fr → fr ≤ 1 / 2 → GainSq f fr v → InShelf gainDb rippleDb v
  edge : GainSq f fc (ofDb (shelfEdgeDb gainDb rippleDb) ^ 2)
  beyond : ∀ fr fr' v v', 0 < fr → fr < fr' → fr' ≤ fc → GainSq f fr v → GainSq f fr' v' → Flatter gainDb v' v

/-- What C37 says of a band shelf. -/
structure Spec.BandShelf (o : ℕ) (f1 f2 gainDb rippleDb : ℝ) (f : PoleFilter S XR) : Prop where
  shape : BandShape (chebShelf o gainDb rippleDb) 1 o f1 f2 f
  mid : GainSq f (bandMid f1 f2) (if o % 2 = 1 then ofDb gainDb ^ 2 else ofDb (shelfEdgeDb gainDb rippleDb) ^ 2)
  pass : ∀ fr v, f1 ≤ fr → fr ≤ f2 → GainSq f fr v → InShelf gainDb rippleDb v
  lo : GainSq f f1 (ofDb (shelfEdgeDb gainDb rippleDb) ^ 2)
  hi : GainSq f f2 (ofDb (shelfEdgeDb gainDb rippleDb) ^ 2)
  below : ∀ fr fr' v v', 0 < fr → fr < fr' → fr' ≤ f1 → GainSq f fr v → GainSq f fr' v' → Flatter gainDb v' v
  above : ∀ fr fr' v v', f2 ≤ fr → fr < fr' → fr' < 1 / 2 → GainSq f fr v → GainSq f fr' v' → Flatter gainDb v v'

variable {f : PoleFilter S XR}

theorem lowRatio_le_one (h0 : 0 < fc) (h1 : fc < 1 / 2) {fr : ℝ} (a : 0 ≤ fr) (b : fr ≤ fc) :
    0 ≤ lowRatio fc fr ∧ lowRatio fc fr ≤ 1 := by
  refine ⟨lowRatio_nonneg h0 h1 a (b.trans_lt h1), ?_⟩
  rw [← lowRatio_self h0 h1]
  rcases b.eq_or_lt with rfl | b
  · exact le_rfl
  · exact (lowRatio_lt h0 h1 a b h1).le

theorem one_le_lowRatio (h0 : 0 < fc) (h1 : fc < 1 / 2) {fr : ℝ} (a : fc ≤ fr) (b : fr < 1 / 2) :
    1 ≤ lowRatio fc fr := by
  rw [← lowRatio_self h0 h1]
  rcases a.eq_or_lt with rfl | a
  · exact le_rfl
  · exact (lowRatio_lt h0 h1 h0.le a b).le

theorem lowShelf_of (ho : 1 ≤ o) (h0 : 0 < fc) (h1 : fc < 1 / 2) (hr : 0 < r) (hG : r < |G|)
    (hf : LowShape (chebShelf o G r) 1 ((o + 1) / 2) fc f) : Spec.LowShelf o fc G r f where
  shape := hf
  dc := by
    have := hf.gain 0 le_rfl (by norm_num)
    rwa [lowRatio_zero, chebShelf_zero hr hG] at this
  pass fr v a b e := by
    rw [e.unique (hf.gain fr a (b.trans_lt h1))]
    have := lowRatio_le_one h0 h1 a b
    exact chebShelf_pass hr hG (abs_le.2 ⟨by linarith, this.2⟩)
  edge := by
    have := hf.gain fc h0.le h1
    rwa [lowRatio_self h0 h1, chebShelf_edge hr hG abs_one] at this
  beyond fr fr' v v' a b c e e' := by
    rw [e.unique (hf.gain fr (by linarith) (by linarith)), e'.unique (hf.gain fr' (by linarith) c)]
    have p1 := one_le_lowRatio h0 h1 a (b.trans c)
    have p2 := lowRatio_lt h0 h1 (by linarith) b c
    refine chebShelf_lt hr hG ho ?_ ?_
    · rwa [abs_of_pos (by linarith)]
    · rwa [abs_of_pos (by linarith), abs_of_pos (by linarith)]

theorem highShelf_of (ho : 1 ≤ o) (h0 : 0 < fc) (h1 : fc < 1 / 2) (hr : 0 < r) (hG : r < |G|)
    (hf : HighShape (chebShelf o G r) 1 ((o + 1) / 2) fc f) : Spec.HighShelf o fc G r f where
  shape := hf
  nyquist := by
    have := hf.nyquist
    rwa [chebShelf_zero hr hG] at this
  pass fr v a b e := by
    rw [e.unique (hf.gain' (by linarith) b)]
    have := highRatio_le_one h0 h1 a b
    exact chebShelf_pass hr hG (abs_le.2 ⟨by linarith, this.2⟩)
  edge := by
    have := hf.gain fc h0 h1
    rwa [highRatio_self h0 h1, chebShelf_edge hr hG abs_one] at this
  beyond fr fr' v v' a b c e e' := by
    rw [e.unique (hf.gain fr a (by linarith)), e'.unique (hf.gain fr' (by linarith) (by linarith))]
    have p1 := one_le_highRatio h0 h1 (by linarith : 0 < fr') c
    have p2 := highRatio_lt h0 h1 a b (by linarith)
    refine chebShelf_lt hr hG ho ?_ ?_
    · rwa [abs_of_pos (by linarith)]
    · rwa [abs_of_pos (by linarith), abs_of_pos (by linarith)]

theorem bandShelf_of (ho : 1 ≤ o) {f1 f2 : ℝ} (hB : Band f1 f2) (hr : 0 < r) (hG : r < |G|)
    (hf : BandShape (chebShelf o G r) 1 o f1 f2 f) : Spec.BandShelf o f1 f2 G r f where
  shape := hf
  mid := by
    have hm := hB.mid_mem
    have := hf.gain _ hm.1 hm.2
    rwa [hB.ratio_mid, chebShelf_zero hr hG] at this
  pass fr v a b e := by
    rw [e.unique (hf.gain fr (hB.pos.trans_le a) (b.trans_lt hB.half))]
    exact chebShelf_pass hr hG (hB.abs_ratio_le a b)
  lo := by
    have := hf.gain _ hB.pos (hB.lt.trans hB.half)
    rwa [hB.ratio_lo, chebShelf_edge hr hG (by norm_num)] at this
  hi := by
    have := hf.gain _ (hB.pos.trans hB.lt) hB.half
    rwa [hB.ratio_hi, chebShelf_edge hr hG abs_one] at this
  below fr fr' v v' a b c e e' := by
    have h2 := hB.lt
    have h3 := hB.half
    rw [e.unique (hf.gain fr a (by linarith)), e'.unique (hf.gain fr' (by linarith) (by linarith))]
    exact chebShelf_lt hr hG ho (hB.outside.1 fr' (by linarith) c) (hB.outside.2.2.1 fr fr' a b c)
  above fr fr' v v' a b c e e' := by
    have h1 := hB.pos
    have h2 := hB.lt
    rw [e.unique (hf.gain fr (by linarith) (by linarith)), e'.unique (hf.gain fr' (by linarith) c)]
    exact chebShelf_lt hr hG ho (hB.outside.2.1 fr a (by linarith)) (hB.outside.2.2.2 fr fr' a b c)

/-- **C37**, Chebyshev I low shelf, `0 < ripple < |gainDb|`: at frequency 0 the gain is `gainDb` for odd orders (for
even orders `ripple` nearer to 0 dB), up to `fc` it is between the two, from there it tends strictly to 0 dB, which it
has at half the sampling rate. -/
theorem C37_c1LowShelf (h : Asks call n o (.c1LowShelf (fin fc) (fin G) (fin r))) (h0 : 0 < fc) (h1 : fc < 1 / 2)
    (hr : 0 < r) (hG : r < |G|) : AfterSetup S T n call (Spec.LowShelf o fc G r) := by
  refine (Spec.shape_low h (Design.proto_chebShelf _ hr hG h.pos h.le h.small rfl lay0_c1Shelf.1 lay0_c1Shelf.2)
    (chebyshevShelf_shape h.pos hr hG) rfl rfl h0 h1).mono fun f hf => ?_
  simp only [if_true, shelfPhi_eq hr hG] at hf
  exact lowShelf_of h.pos h0 h1 hr hG hf

example : AfterSetup S T 5 (.setupN (.c1LowShelf (fin (1 / 8)) (fin 12) (fin 1))) fun f => GainSq f 0 (ofDb 12 ^ 2) :=
  (C37_c1LowShelf (o := 5) (fc := 1 / 8) ⟨rfl, rfl, by norm_num, le_rfl, by norm_num⟩ (by norm_num) (by norm_num)
    (by norm_num) (by norm_num)).mono fun _ h => h.dc

/-- **C37**, Chebyshev II low shelf. -/
theorem C37_c2LowShelf (h : Asks call n o (.c2LowShelf (fin fc) (fin G) (fin r))) (h0 : 0 < fc) (h1 : fc < 1 / 2)
    (hr : 0 < r) (hG : r < |G|) : AfterSetup S T n call (Spec.LowShelf o fc G r) := by
  refine (Spec.shape_low h (Design.proto_chebShelf _ hr hG h.pos h.le h.small rfl lay0_c1Shelf.1 lay0_c1Shelf.2)
    (chebyshevShelf_shape h.pos hr hG) rfl rfl h0 h1).mono fun f hf => ?_
  simp only [if_true, shelfPhi_eq hr hG] at hf
  exact lowShelf_of h.pos h0 h1 hr hG hf

example : AfterSetup S T 5 (.setupN (.c2LowShelf (fin (1 / 8)) (fin (-12)) (fin 1))) fun f => GainSq f 0 (ofDb (-12) ^ 2) :=
  (C37_c2LowShelf (o := 5) (fc := 1 / 8) ⟨rfl, rfl, by norm_num, le_rfl, by norm_num⟩ (by norm_num) (by norm_num)
    (by norm_num) (by norm_num)).mono fun _ h => h.dc

/-- **C37**, Chebyshev I high shelf. -/
theorem C37_c1HighShelf (h : Asks call n o (.c1HighShelf (fin fc) (fin G) (fin r))) (h0 : 0 < fc) (h1 : fc < 1 / 2)
    (hr : 0 < r) (hG : r < |G|) : AfterSetup S T n call (Spec.HighShelf o fc G r) := by
  refine (Spec.shape_high h (Design.proto_chebShelf _ hr hG h.pos h.le h.small rfl lay0_c1Shelf.1 lay0_c1Shelf.2)
    (chebyshevShelf_shape h.pos hr hG) rfl rfl h0 h1).mono fun f hf => ?_
  simp only [if_true, shelfPhi_eq hr hG] at hf
  exact highShelf_of h.pos h0 h1 hr hG hf

example : AfterSetup S T 5 (.setupN (.c1HighShelf (fin (1 / 8)) (fin (-12)) (fin 1))) fun f => GainSq f (1 / 2) (ofDb (-12) ^ 2) :=
  (C37_c1HighShelf (o := 5) (fc := 1 / 8) ⟨rfl, rfl, by norm_num, le_rfl, by norm_num⟩ (by norm_num) (by norm_num)
    (by norm_num) (by norm_num)).mono fun _ h => h.nyquist

/-- **C37**, Chebyshev II high shelf. -/
theorem C37_c2HighShelf (h : Asks call n o (.c2HighShelf (fin fc) (fin G) (fin r))) (h0 : 0 < fc) (h1 : fc < 1 / 2)
    (hr : 0 < r) (hG : r < |G|) : AfterSetup S T n call (Spec.HighShelf o fc G r) := by
  refine (Spec.shape_high h (Design.proto_chebShelf _ hr hG h.pos h.le h.small rfl lay0_c1Shelf.1 lay0_c1Shelf.2)
    (chebyshevShelf_shape h.pos hr hG) rfl rfl h0 h1).mono fun f hf => ?_
  simp only [if_true, shelfPhi_eq hr hG] at hf
  exact highShelf_of h.pos h0 h1 hr hG hf

example : AfterSetup S T 5 (.setupN (.c2HighShelf (fin (1 / 8)) (fin 12) (fin 1))) fun f => GainSq f (1 / 2) (ofDb 12 ^ 2) :=
  (C37_c2HighShelf (o := 5) (fc := 1 / 8) ⟨rfl, rfl, by norm_num, le_rfl, by norm_num⟩ (by norm_num) (by norm_num)
    (by norm_num) (by norm_num)).mono fun _ h => h.nyquist

/-- Absolute value of the real pole, and zero, of a Chebyshev shelf prototype of odd order. -/
noncomputable def Spec.shelfPole (o : ℕ) (gainDb rippleDb : ℝ) : ℝ :=
  Real.sinh (Real.arsinh (ofDb (-gainDb) / Real.sqrt (shelfEpsSq gainDb rippleDb)) / o)
noncomputable def Spec.shelfZero (o : ℕ) (gainDb rippleDb : ℝ) : ℝ :=
  Real.sinh (Real.arsinh (1 / Real.sqrt (shelfEpsSq gainDb rippleDb)) / o)

theorem shelf_noReal {b : ℝ} (hr : 0 < r) (hG : r < |G|)
    (h : o % 2 = 1 → b ≠ shelfPole o G r ∧ b ≠ shelfZero o G r) :
    (chebyshevShelf o (chebV o (shelfEps G r / shelfG G)) (chebV o (shelfEps G r))).NoReal b := by
  have hs : Real.sqrt (shelfEpsSq G r) = shelfEps G r := by
    rw [shelfEpsSq_eq hr hG, Real.sqrt_sq (shelfEps_pos hr hG).le]
  intro ho
  have ho' : o % 2 = 1 := ho
  have h := h ho'
  rw [shelfPole, shelfZero, hs, ← shelfG_eq] at h
  constructor
  · intro e
    have e' : chebPole o (chebV o (shelfEps G r / shelfG G)) (o / 2) = -(b : ℂ) := e
    rw [chebPole_mid ho'] at e'
    have e2 : -Real.sinh (chebV o (shelfEps G r / shelfG G)) = -b := by exact_mod_cast e'
    apply h.1
    rw [← neg_inj.1 e2, chebV, one_div_div]
  · intro e
    have e' : some (chebPole o (chebV o (shelfEps G r)) (o / 2)) = some (-(b : ℂ)) := e
    rw [Option.some.injEq, chebPole_mid ho'] at e'
    have e2 : -Real.sinh (chebV o (shelfEps G r)) = -b := by exact_mod_cast e'
    exact h.2 (neg_inj.1 e2).symm

/-- **C37**, Chebyshev I band shelf: outside the band the gain tends strictly to 0 dB, which it has at frequency 0 and
at half the sampling rate. -/
theorem C37_c1BandShelf (h : Asks call n o (.c1BandShelf (fin fc) (fin fw) (fin G) (fin r))) (h0 : 0 ≤ fc)
    (h1 : fc < 1 / 2) (hr : 0 < r) (hG : r < |G|) (he : bandLo fc fw < bandHi fc fw)
    (hodd : o % 2 = 1 → Real.tan (Real.pi * (bandHi fc fw - bandLo fc fw)) * shelfPole o G r ≠ 1 ∧
      Real.tan (Real.pi * (bandHi fc fw - bandLo fc fw)) * shelfZero o G r ≠ 1) :
    AfterSetup S T n call (Spec.BandShelf o (bandLo fc fw) (bandHi fc fw) G r) := by
  refine (Spec.shape_bandShelf h (Design.proto_chebShelf _ hr hG h.pos h.le h.small rfl lay0_c1Shelf.1 lay0_c1Shelf.2)
    (chebyshevShelf_shape h.pos hr hG) rfl rfl h0 h1 he
    (shelf_noReal hr hG fun hh => ⟨fun h2 => (hodd hh).1 ?_, fun h2 => (hodd hh).2 ?_⟩)).mono fun f hf => ?_
  · rw [← h2, ← edgeHalf_eq, mul_one_div_cancel (tan_edgeHalf_pos (edge_lt he)).ne']
  · rw [← h2, ← edgeHalf_eq, mul_one_div_cancel (tan_edgeHalf_pos (edge_lt he)).ne']
  simp only [if_true, shelfPhi_eq hr hG] at hf
  exact bandShelf_of h.pos (band_of he) hr hG hf

example : AfterSetup S T 4 (.setupN (.c1BandShelf (fin (1 / 4)) (fin (1 / 8)) (fin 12) (fin 1))) fun f =>
    GainSq f (3 / 16) (ofDb (shelfEdgeDb 12 1) ^ 2) := by
  have h := C37_c1BandShelf (S := S) (T := T) (o := 4) (n := 4) (fc := 1 / 4) (fw := 1 / 8)
    (call := .setupN (.c1BandShelf (fin (1 / 4)) (fin (1 / 8)) (fin 12) (fin 1))) ⟨rfl, rfl, by norm_num, le_rfl, by norm_num⟩
    (by norm_num) (by norm_num) (by norm_num) (by norm_num)
    (by rw [band_ex.1, band_ex.2]; norm_num) (fun h => by norm_num at h)
  rw [band_ex.1, band_ex.2] at h
  exact h.mono fun f h => h.lo

/-- **C37**, Chebyshev II band shelf. -/
theorem C37_c2BandShelf (h : Asks call n o (.c2BandShelf (fin fc) (fin fw) (fin G) (fin r))) (h0 : 0 ≤ fc)
    (h1 : fc < 1 / 2) (hr : 0 < r) (hG : r < |G|) (he : bandLo fc fw < bandHi fc fw)
    (hodd : o % 2 = 1 → Real.tan (Real.pi * (bandHi fc fw - bandLo fc fw)) * shelfPole o G r ≠ 1 ∧
      Real.tan (Real.pi * (bandHi fc fw - bandLo fc fw)) * shelfZero o G r ≠ 1) :
    AfterSetup S T n call (Spec.BandShelf o (bandLo fc fw) (bandHi fc fw) G r) := by
  refine (Spec.shape_bandShelf h (Design.proto_chebShelf _ hr hG h.pos h.le h.small rfl lay0_c1Shelf.1 lay0_c1Shelf.2)
    (chebyshevShelf_shape h.pos hr hG) rfl rfl h0 h1 he
    (shelf_noReal hr hG fun hh => ⟨fun h2 => (hodd hh).1 ?_, fun h2 => (hodd hh).2 ?_⟩)).mono fun f hf => ?_
  · rw [← h2, ← edgeHalf_eq, mul_one_div_cancel (tan_edgeHalf_pos (edge_lt he)).ne']
  · rw [← h2, ← edgeHalf_eq, mul_one_div_cancel (tan_edgeHalf_pos (edge_lt he)).ne']
  simp only [if_true, shelfPhi_eq hr hG] at hf
  exact bandShelf_of h.pos (band_of he) hr hG hf

example : AfterSetup S T 4 (.setupN (.c2BandShelf (fin (1 / 4)) (fin (1 / 8)) (fin 12) (fin 1))) fun f =>
    GainSq f (3 / 16) (ofDb (shelfEdgeDb 12 1) ^ 2) := by
  have h := C37_c2BandShelf (S := S) (T := T) (o := 4) (n := 4) (fc := 1 / 4) (fw := 1 / 8)
    (call := .setupN (.c2BandShelf (fin (1 / 4)) (fin (1 / 8)) (fin 12) (fin 1))) ⟨rfl, rfl, by norm_num, le_rfl, by norm_num⟩
    (by norm_num) (by norm_num) (by norm_num) (by norm_num)
    (by rw [band_ex.1, band_ex.2]; norm_num) (fun h => by norm_num at h)
  rw [band_ex.1, band_ex.2] at h
  exact h.mono fun f h => h.lo

end Shelf

end Iir
