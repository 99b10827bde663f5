import Verif.Exact.Ratio

/-! # C30–C34: the frequency response of the Butterworth filters

Exact arithmetic.  `Asks call n o d`: the call, on an object with template order `n`, asks for order
`o` and the design `d` (frequencies divided by the sampling rate). -/

set_option linter.unusedSectionVars false

namespace Iir
open Spec XR

variable {S : Type → Type} [StateType S XR] {T : Type} [Sample T XR] {n o : ℕ} {call : Call XR}
  {fc fw gainDb : ℝ}

/-! ## C30, C31 -/

theorem bw_lt {x y : ℝ} (ho : 1 ≤ o) (h0 : 0 ≤ x) (h : x < y) :
    1 / (1 + y ^ (2 * o)) < 1 / (1 + x ^ (2 * o)) := by
  have h1 : x ^ (2 * o) < y ^ (2 * o) := pow_lt_pow_left₀ h h0 (by omega)
  have h2 : 0 ≤ x ^ (2 * o) := by positivity
  exact one_div_lt_one_div_of_lt (by linarith) (by linarith)

/-- **C30**: a Butterworth low pass of order `o` has `|H(f)|² = 1 / (1 + (tan πf / tan πfc)^(2o))`, is
stable and consists of `⌈o/2⌉` sections.  So the gain is 1 at frequency 0, `1/√2` at the cutoff frequency,
0 at half the sampling rate, and falls strictly. -/
theorem C30_lowpass (h : Asks call n o (.bwLowPass (fin fc))) (h0 : 0 < fc) (h1 : fc < 1 / 2) :
    AfterSetup S T n call fun f => LowShape (fun t => 1 / (1 + t ^ (2 * o))) 0 ((o + 1) / 2) fc f ∧
      GainSq f 0 1 ∧ GainSq f fc (1 / 2) ∧
      ∀ fr fr' v v', 0 ≤ fr → fr < fr' → fr' ≤ 1 / 2 → GainSq f fr v → GainSq f fr' v' → v' < v := by
  have ho := h.pos
  refine (Spec.shape_low h (Design.proto_bw _ h.pos h.le h.small rfl lay0_bw.1 lay0_bw.2)
    (butterworth_shape ho) rfl rfl h0 h1).mono fun f hf => ?_
  simp only [ne_eq, show 2 * o ≠ 0 by omega, not_false_eq_true, zero_pow, zero_div] at hf
  refine ⟨hf, ?_, ?_, fun fr fr' v v' a b c e e' => ?_⟩
  · have := hf.gain 0 le_rfl (by norm_num)
    rw [lowRatio_zero, zero_pow (by omega)] at this
    simpa using this
  · have := hf.gain fc h0.le h1
    rw [lowRatio_self h0 h1, one_pow] at this
    norm_num at this ⊢; exact this
  · have hr := lowRatio_nonneg h0 h1 a (by linarith : fr < 1 / 2)
    rw [e.unique (hf.gain fr a (by linarith))]
    rcases c.eq_or_lt with rfl | c
    · rw [e'.unique hf.nyquist]; positivity
    · rw [e'.unique (hf.gain fr' (by linarith) c)]
      exact bw_lt ho hr (lowRatio_lt h0 h1 a b c)

/-- 1 kHz, order 5, at 48 kHz: `LowPass<5> f; f.setup (48000, 1000)` -/
example : AfterSetup S T 5 (.setup (fin 48000) (.bwLowPass (fin 1000))) fun f => GainSq f (1000 / 48000) (1 / 2) :=
  (C30_lowpass (o := 5) (fc := 1000 / 48000) ⟨rfl, congrArg _ (fin_div _ (by norm_num)), by norm_num, by norm_num,
    by norm_num⟩ (by norm_num) (by norm_num)).mono fun _ h => h.2.2.1

/-- **C31**: a Butterworth high pass of order `o` has `|H(f)|² = 1 / (1 + (tan πfc / tan πf)^(2o))`; gain 0
at frequency 0, `1/√2` at the cutoff frequency, 1 at half the sampling rate, strictly increasing. -/
theorem C31_highpass (h : Asks call n o (.bwHighPass (fin fc))) (h0 : 0 < fc) (h1 : fc < 1 / 2) :
    AfterSetup S T n call fun f => HighShape (fun t => 1 / (1 + t ^ (2 * o))) 0 ((o + 1) / 2) fc f ∧
      GainSq f (1 / 2) 1 ∧ GainSq f fc (1 / 2) ∧
      ∀ fr fr' v v', 0 ≤ fr → fr < fr' → fr' ≤ 1 / 2 → GainSq f fr v → GainSq f fr' v' → v < v' := by
  have ho := h.pos
  refine (Spec.shape_high h (Design.proto_bw _ h.pos h.le h.small rfl lay0_bw.1 lay0_bw.2)
    (butterworth_shape ho) rfl rfl h0 h1).mono fun f hf => ?_
  have hz : (0 : ℝ) ^ (2 * o) = 0 := zero_pow (by omega)
  have hN : GainSq f (1 / 2) 1 := by
    have := hf.nyquist
    simp only [hz, add_zero, div_one] at this
    exact this
  have hf' : HighShape (fun t => 1 / (1 + t ^ (2 * o))) 0 ((o + 1) / 2) fc f := by
    simpa only [hz, zero_div] using hf
  refine ⟨hf', hN, ?_, fun fr fr' v v' a b c e e' => ?_⟩
  · have := hf.gain fc h0 h1
    rw [highRatio_self h0 h1, one_pow] at this
    norm_num at this ⊢; exact this
  · have hp' : 0 < fr' := a.trans_lt b
    have e2 : (fr' = 1 / 2 → v' = 1) ∧ (fr' < 1 / 2 → v' = 1 / (1 + highRatio fc fr' ^ (2 * o))) :=
      ⟨fun hh => by subst hh; exact e'.unique hN, fun hh => e'.unique (hf.gain fr' hp' hh)⟩
    rcases a.eq_or_lt with rfl | a
    · rw [e.unique hf'.dc]
      rcases c.eq_or_lt with c | c
      · rw [e2.1 c]; norm_num
      · rw [e2.2 c]
        have := highRatio_pos h0 h1 hp' c
        positivity
    · rw [e.unique (hf.gain fr a (by linarith))]
      have hr := highRatio_pos h0 h1 a (by linarith : fr < 1 / 2)
      rcases c.eq_or_lt with c | c
      · rw [e2.1 c, div_lt_one (by positivity)]
        have : 0 < highRatio fc fr ^ (2 * o) := by positivity
        linarith
      · rw [e2.2 c]
        exact bw_lt ho (highRatio_pos h0 h1 hp' c).le (highRatio_lt h0 h1 a b c)

/-- order 3 of at most 4 -/
example : AfterSetup S T 4 (.setupReq 3 (fin 48000) (.bwHighPass (fin 1000))) fun f => GainSq f (1000 / 48000) (1 / 2) :=
  (C31_highpass (o := 3) (fc := 1000 / 48000) ⟨rfl, congrArg _ (fin_div _ (by norm_num)), by norm_num, by norm_num,
    by norm_num⟩ (by norm_num) (by norm_num)).mono fun _ h => h.2.2.1

/-! ## C32, C33 -/

theorem tan_eq_one_iff {x : ℝ} (h0 : 0 < x) (h1 : x < Real.pi / 2) : Real.tan x = 1 ↔ x = Real.pi / 4 := by
  constructor
  · intro h
    rw [← Real.tan_pi_div_four] at h
    exact Real.injOn_tan ⟨by linarith, h1⟩ ⟨by linarith [Real.pi_pos], by linarith [Real.pi_pos]⟩ h
  · rintro rfl; exact Real.tan_pi_div_four

theorem bw_pole_mid (h : o % 2 = 1) : (butterworth o).pole (o / 2) = -1 := by
  simp only [butterworth, angle_mid h]
  rw [show (Real.pi / 2 + Real.pi / 2 : ℝ) = Real.pi by ring, Complex.exp_pi_mul_I]

theorem bw_noReal {b : ℝ} (h : o % 2 = 1 → b ≠ 1) : (butterworth o).NoReal b := by
  intro ho
  have ho' : o % 2 = 1 := ho
  refine ⟨fun e => ?_, by simp [butterworth]⟩
  have e' : (butterworth o).pole (o / 2) = -(b : ℂ) := e
  rw [bw_pole_mid ho'] at e'
  exact h ho' (by exact_mod_cast (neg_inj.1 e').symm)

theorem tan_edgeHalf_ne {fc fw : ℝ} (he : bandLo fc fw < bandHi fc fw) (h : bandHi fc fw - bandLo fc fw ≠ 1 / 4) :
    Real.tan (edgeHalf fc fw) ≠ 1 := by
  intro h'
  rw [tan_eq_one_iff (edgeHalf_pos (edge_lt he)) edgeHalf_lt, edgeHalf_eq] at h'
  apply h
  have := Real.pi_pos
  field_simp at h' ⊢
  linarith

/-- **C32**: a Butterworth band pass has `|H(f)|² = 1 / (1 + L(f)^(2o))`, `L` the prewarped frequency of
the band; gain 0 at frequency 0 and half the sampling rate, 1 at the centre of the (prewarped) band, `1/√2` at
both edges, more between them and less outside; it rises strictly up to the centre and falls from there.  (Excepted in exact arithmetic: odd order and a band of
exactly a quarter of the sampling rate, see `C51_refused`.) -/
theorem C32_bandpass (h : Asks call n o (.bwBandPass (fin fc) (fin fw))) (h0 : 0 ≤ fc) (h1 : fc < 1 / 2)
    (he : bandLo fc fw < bandHi fc fw) (hodd : o % 2 = 1 → bandHi fc fw - bandLo fc fw ≠ 1 / 4) :
    AfterSetup S T n call fun f =>
      BandShape (fun t => 1 / (1 + t ^ (2 * o))) 0 o (bandLo fc fw) (bandHi fc fw) f ∧
      GainSq f (bandMid (bandLo fc fw) (bandHi fc fw)) 1 ∧
      GainSq f (bandLo fc fw) (1 / 2) ∧ GainSq f (bandHi fc fw) (1 / 2) ∧
      (∀ fr v, bandLo fc fw < fr → fr < bandHi fc fw → GainSq f fr v → 1 / 2 < v ∧ v ≤ 1) ∧
      (∀ fr v, 0 ≤ fr → fr < bandLo fc fw → GainSq f fr v → v < 1 / 2) ∧
      (∀ fr v, bandHi fc fw < fr → fr ≤ 1 / 2 → GainSq f fr v → v < 1 / 2) ∧
      (∀ fr fr' v v', 0 ≤ fr → fr < fr' → fr' ≤ bandMid (bandLo fc fw) (bandHi fc fw) →
        GainSq f fr v → GainSq f fr' v' → v < v') ∧
      (∀ fr fr' v v', bandMid (bandLo fc fw) (bandHi fc fw) ≤ fr → fr < fr' → fr' ≤ 1 / 2 →
        GainSq f fr v → GainSq f fr' v' → v' < v) := by
  have ho := h.pos
  have hB := band_of he
  refine (Spec.shape_bandPass h (Design.proto_bw _ h.pos h.le h.small rfl lay0_bw.1 lay0_bw.2)
    (butterworth_shape ho) rfl rfl h0 h1 he (bw_noReal fun hh h2 => tan_edgeHalf_ne he (hodd hh) ?_)).mono fun f hf => ?_
  · rw [one_div, inv_eq_one] at h2; exact h2
  have hz : (0 : ℝ) ^ (2 * o) = 0 := zero_pow (by omega)
  simp only [hz, zero_div] at hf
  have hm := hB.mid_mem
  have ev : ∀ t : ℝ, 0 ≤ t ^ (2 * o) := (even_two_mul o).pow_nonneg
  have hmono := hB.abs_ratio_mono
  have hlt : ∀ x y : ℝ, |x| < |y| → 1 / (1 + y ^ (2 * o)) < 1 / (1 + x ^ (2 * o)) := fun x y hxy => by
    have h2 : x ^ (2 * o) < y ^ (2 * o) := by
      rw [← (even_two_mul o).pow_abs, ← (even_two_mul o).pow_abs y]
      exact pow_lt_pow_left₀ hxy (abs_nonneg _) (by omega)
    exact one_div_lt_one_div_of_lt (by linarith [ev x]) (by linarith)
  have hpos : ∀ x : ℝ, 0 < 1 / (1 + x ^ (2 * o)) := fun x => one_div_pos.2 (by linarith [ev x])
  refine ⟨hf, ?_, ?_, ?_, fun fr v a b e => ?_, fun fr v a b e => ?_, fun fr v a b e => ?_,
    fun fr fr' v v' a b c e e' => ?_, fun fr fr' v v' a b c e e' => ?_⟩
  rotate_left 6
  · rw [e'.unique (hf.gain fr' (by linarith) (by linarith))]
    rcases a.eq_or_lt with rfl | a
    · rw [e.unique hf.dc]; exact hpos _
    · rw [e.unique (hf.gain fr a (by linarith))]
      exact hlt _ _ (hmono.1 fr fr' a b c)
  · rw [e.unique (hf.gain fr (by linarith) (by linarith))]
    rcases c.eq_or_lt with rfl | c
    · rw [e'.unique hf.nyquist]; exact hpos _
    · rw [e'.unique (hf.gain fr' (by linarith) c)]
      exact hlt _ _ (hmono.2 fr fr' a b c)
  · have := hf.gain _ hm.1 hm.2
    rw [hB.ratio_mid, hz] at this
    simpa using this
  · have := hf.gain _ hB.pos (hB.lt.trans hB.half)
    rw [hB.ratio_lo, (even_two_mul o).neg_one_pow] at this
    norm_num at this ⊢; exact this
  · have := hf.gain _ (hB.pos.trans hB.lt) hB.half
    rw [hB.ratio_hi, one_pow] at this
    norm_num at this ⊢; exact this
  · rw [e.unique (hf.gain fr (hB.pos.trans a) (b.trans hB.half))]
    have h3 := hB.abs_ratio_lt a b
    have h4 : bandRatio (bandLo fc fw) (bandHi fc fw) fr ^ (2 * o) < 1 := by
      rw [← (even_two_mul o).pow_abs]
      exact pow_lt_one₀ (abs_nonneg _) h3 (by omega)
    have h5 := ev (bandRatio (bandLo fc fw) (bandHi fc fw) fr)
    constructor
    · exact one_div_lt_one_div_of_lt (by linarith) (by linarith)
    · rw [div_le_one (by linarith)]; linarith
  · rcases a.eq_or_lt with rfl | a
    · rw [e.unique hf.dc]; norm_num
    · rw [e.unique (hf.gain fr a (b.trans (hB.lt.trans hB.half)))]
      have h3 := hB.ratio_below a b
      have h4 : 1 < bandRatio (bandLo fc fw) (bandHi fc fw) fr ^ (2 * o) := by
        rw [← (even_two_mul o).pow_abs]
        exact one_lt_pow₀ (by rw [lt_abs]; right; linarith) (by omega)
      exact one_div_lt_one_div_of_lt (by norm_num) (by linarith)
  · rcases b.eq_or_lt with rfl | b
    · rw [e.unique hf.nyquist]; norm_num
    · rw [e.unique (hf.gain fr (hB.pos.trans (hB.lt.trans a)) b)]
      have h3 := hB.ratio_above a b
      have h4 : 1 < bandRatio (bandLo fc fw) (bandHi fc fw) fr ^ (2 * o) := one_lt_pow₀ h3 (by omega)
      exact one_div_lt_one_div_of_lt (by norm_num) (by linarith)

theorem band_ex : bandLo (1 / 4) (1 / 8) = 3 / 16 ∧ bandHi (1 / 4) (1 / 8) = 5 / 16 := by
  rw [bandLo_eq (by norm_num), bandHi_eq (by norm_num)]; norm_num

example : AfterSetup S T 3 (.setupN (.bwBandPass (fin (1 / 4)) (fin (1 / 8)))) fun f => GainSq f (3 / 16) (1 / 2) := by
  have h := C32_bandpass (S := S) (T := T) (o := 3) (n := 3) (fc := 1 / 4) (fw := 1 / 8)
    (call := .setupN (.bwBandPass (fin (1 / 4)) (fin (1 / 8)))) ⟨rfl, rfl, by norm_num, le_rfl, by norm_num⟩
    (by norm_num) (by norm_num) (by rw [band_ex.1, band_ex.2]; norm_num)
    (fun _ => by rw [band_ex.1, band_ex.2]; norm_num)
  rw [band_ex.1] at h
  exact h.mono fun f hf => hf.2.2.1

/-- **C33**: a Butterworth band stop has `|H(f)|² = L(f)^(2o) / (1 + L(f)^(2o))`; gain 1 at frequency 0 and half
the sampling rate, 0 at the centre of the (prewarped) band, `1/√2` at both edges, less between them and more
outside; it falls strictly up to the centre and rises from there. -/
theorem C33_bandstop (h : Asks call n o (.bwBandStop (fin fc) (fin fw))) (h0 : 0 ≤ fc) (h1 : fc < 1 / 2)
    (he : bandLo fc fw < bandHi fc fw) (hodd : o % 2 = 1 → bandHi fc fw - bandLo fc fw ≠ 1 / 4) :
    AfterSetup S T n call fun f =>
      BandShape (fun t => t ^ (2 * o) / (1 + t ^ (2 * o))) 1 o (bandLo fc fw) (bandHi fc fw) f ∧
      GainSq f (bandMid (bandLo fc fw) (bandHi fc fw)) 0 ∧
      GainSq f (bandLo fc fw) (1 / 2) ∧ GainSq f (bandHi fc fw) (1 / 2) ∧
      (∀ fr v, bandLo fc fw < fr → fr < bandHi fc fw → GainSq f fr v → v < 1 / 2) ∧
      (∀ fr v, 0 ≤ fr → fr < bandLo fc fw → GainSq f fr v → 1 / 2 < v ∧ v ≤ 1) ∧
      (∀ fr v, bandHi fc fw < fr → fr ≤ 1 / 2 → GainSq f fr v → 1 / 2 < v ∧ v ≤ 1) ∧
      (∀ fr fr' v v', 0 ≤ fr → fr < fr' → fr' ≤ bandMid (bandLo fc fw) (bandHi fc fw) →
        GainSq f fr v → GainSq f fr' v' → v' < v) ∧
      (∀ fr fr' v v', bandMid (bandLo fc fw) (bandHi fc fw) ≤ fr → fr < fr' → fr' ≤ 1 / 2 →
        GainSq f fr v → GainSq f fr' v' → v < v') := by
  have ho := h.pos
  have hB := band_of he
  refine (Spec.shape_bandStop h (Design.proto_bw _ h.pos h.le h.small rfl lay0_bw.1 lay0_bw.2)
    (butterworth_shape ho) rfl rfl h0 h1 he (bw_noReal fun hh => tan_edgeHalf_ne he (hodd hh))).mono fun f hf => ?_
  have hz : (0 : ℝ) ^ (2 * o) = 0 := zero_pow (by omega)
  simp only [hz, add_zero, div_one] at hf
  have hm := hB.mid_mem
  have ev : ∀ t : ℝ, 0 ≤ t ^ (2 * o) := (even_two_mul o).pow_nonneg
  have hbig : ∀ x : ℝ, 1 < x → 1 / 2 < x / (1 + x) ∧ x / (1 + x) ≤ 1 := fun x hx => by
    constructor
    · rw [div_lt_div_iff₀ (by norm_num) (by linarith)]; linarith
    · rw [div_le_one (by linarith)]; linarith
  have hmono := hB.abs_ratio_mono
  have hlt : ∀ x y : ℝ, |x| < |y| → x ^ (2 * o) / (1 + x ^ (2 * o)) < y ^ (2 * o) / (1 + y ^ (2 * o)) := fun x y hxy => by
    have h2 : x ^ (2 * o) < y ^ (2 * o) := by
      rw [← (even_two_mul o).pow_abs, ← (even_two_mul o).pow_abs y]
      exact pow_lt_pow_left₀ hxy (abs_nonneg _) (by omega)
    have h3 := ev x
    rw [div_lt_div_iff₀ (by linarith) (by linarith)]
    nlinarith
  have hone : ∀ x : ℝ, x ^ (2 * o) / (1 + x ^ (2 * o)) < 1 := fun x => by
    have h3 := ev x
    rw [div_lt_one (by linarith)]; linarith
  refine ⟨hf, ?_, ?_, ?_, fun fr v a b e => ?_, fun fr v a b e => ?_, fun fr v a b e => ?_,
    fun fr fr' v v' a b c e e' => ?_, fun fr fr' v v' a b c e e' => ?_⟩
  rotate_left 6
  · rw [e'.unique (hf.gain fr' (by linarith) (by linarith))]
    rcases a.eq_or_lt with rfl | a
    · rw [e.unique hf.dc]; exact hone _
    · rw [e.unique (hf.gain fr a (by linarith))]
      exact hlt _ _ (hmono.1 fr fr' a b c)
  · rw [e.unique (hf.gain fr (by linarith) (by linarith))]
    rcases c.eq_or_lt with rfl | c
    · rw [e'.unique hf.nyquist]; exact hone _
    · rw [e'.unique (hf.gain fr' (by linarith) c)]
      exact hlt _ _ (hmono.2 fr fr' a b c)
  · have := hf.gain _ hm.1 hm.2
    rw [hB.ratio_mid, hz, zero_div] at this
    exact this
  · have := hf.gain _ hB.pos (hB.lt.trans hB.half)
    rw [hB.ratio_lo, (even_two_mul o).neg_one_pow] at this
    norm_num at this ⊢; exact this
  · have := hf.gain _ (hB.pos.trans hB.lt) hB.half
    rw [hB.ratio_hi, one_pow] at this
    norm_num at this ⊢; exact this
  · rw [e.unique (hf.gain fr (hB.pos.trans a) (b.trans hB.half))]
    have h3 := hB.abs_ratio_lt a b
    have h4 : bandRatio (bandLo fc fw) (bandHi fc fw) fr ^ (2 * o) < 1 := by
      rw [← (even_two_mul o).pow_abs]
      exact pow_lt_one₀ (abs_nonneg _) h3 (by omega)
    have h5 := ev (bandRatio (bandLo fc fw) (bandHi fc fw) fr)
    rw [div_lt_div_iff₀ (by linarith) (by norm_num)]; linarith
  · rcases a.eq_or_lt with rfl | a
    · rw [e.unique hf.dc]; norm_num
    · rw [e.unique (hf.gain fr a (b.trans (hB.lt.trans hB.half)))]
      have h3 := hB.ratio_below a b
      refine hbig _ ?_
      rw [← (even_two_mul o).pow_abs]
      exact one_lt_pow₀ (by rw [lt_abs]; right; linarith) (by omega)
  · rcases b.eq_or_lt with rfl | b
    · rw [e.unique hf.nyquist]; norm_num
    · rw [e.unique (hf.gain fr (hB.pos.trans (hB.lt.trans a)) b)]
      exact hbig _ (one_lt_pow₀ (hB.ratio_above a b) (by omega))

example : AfterSetup S T 3 (.setupN (.bwBandStop (fin (1 / 4)) (fin (1 / 8)))) fun f => GainSq f (3 / 16) (1 / 2) := by
  have h := C33_bandstop (S := S) (T := T) (o := 3) (n := 3) (fc := 1 / 4) (fw := 1 / 8)
    (call := .setupN (.bwBandStop (fin (1 / 4)) (fin (1 / 8)))) ⟨rfl, rfl, by norm_num, le_rfl, by norm_num⟩
    (by norm_num) (by norm_num) (by rw [band_ex.1, band_ex.2]; norm_num)
    (fun _ => by rw [band_ex.1, band_ex.2]; norm_num)
  rw [band_ex.1] at h
  exact h.mono fun f hf => hf.2.2.1

/-! ## C34 -/

/-- Square of the gain of a Butterworth shelf. -/
noncomputable def Spec.bwShelf (o : ℕ) (gainDb t : ℝ) : ℝ :=
  (t ^ (2 * o) + ofDb gainDb) / (t ^ (2 * o) + 1 / ofDb gainDb)

theorem bwShelf_zero (ho : 1 ≤ o) (gainDb : ℝ) : bwShelf o gainDb 0 = ofDb gainDb ^ 2 := by
  have := ofDb_pos gainDb
  rw [bwShelf, zero_pow (by omega)]
  field_simp; ring

theorem bwShelf_one (gainDb : ℝ) : bwShelf o gainDb 1 = ofDb gainDb := by
  have := ofDb_pos gainDb
  rw [bwShelf, one_pow]
  field_simp; ring

theorem bw_shelf_inf (gainDb : ℝ) (ho : 1 ≤ o) :
    (1 + ofDb gainDb * (0 : ℝ) ^ (2 * o)) / (1 + 1 / ofDb gainDb * 0 ^ (2 * o)) = 1 := by
  rw [zero_pow (by omega)]; simp

/-- **C34**, low shelf: `|H(f)|² = (t^(2o) + g) / (t^(2o) + 1/g)` with `t = tan πf / tan πfc` and `g` the factor
of `gainDb` decibels: gain `g` at frequency 0, `√g` at the corner frequency, 1 at half the sampling rate. -/
theorem C34_lowshelf (h : Asks call n o (.bwLowShelf (fin fc) (fin gainDb))) (h0 : 0 < fc) (h1 : fc < 1 / 2) :
    AfterSetup S T n call fun f => LowShape (bwShelf o gainDb) 1 ((o + 1) / 2) fc f ∧
      GainSq f 0 (ofDb gainDb ^ 2) ∧ GainSq f fc (ofDb gainDb) := by
  have ho := h.pos
  refine (Spec.shape_low h (Design.proto_bwShelf _ gainDb h.pos h.le h.small rfl lay0_bwShelf.1 lay0_bwShelf.2)
    (butterworthShelf_shape ho gainDb) rfl rfl h0 h1).mono fun f hf => ?_
  simp only [bw_shelf_inf _ ho] at hf
  refine ⟨hf, ?_, ?_⟩
  · have := hf.gain 0 le_rfl (by norm_num)
    rw [lowRatio_zero] at this
    rw [← bwShelf_zero ho]; exact this
  · have := hf.gain fc h0.le h1
    rw [lowRatio_self h0 h1] at this
    rw [← bwShelf_one (o := o)]; exact this

example : AfterSetup S T 5 (.setup (fin 48000) (.bwLowShelf (fin 1000) (fin 10))) fun f => GainSq f 0 (ofDb 10 ^ 2) :=
  (C34_lowshelf (call := .setup (fin 48000) (.bwLowShelf (fin 1000) (fin 10))) (o := 5) (fc := 1000 / 48000) ⟨rfl, congrArg (Design.bwLowShelf · (fin 10)) (fin_div _ (by norm_num)),
    by norm_num, by norm_num, by norm_num⟩ (by norm_num) (by norm_num)).mono fun _ h => h.2.1

/-- **C34**, high shelf: gain 1 at frequency 0, `√g` at the corner frequency, `g` at half the sampling rate. -/
theorem C34_highshelf (h : Asks call n o (.bwHighShelf (fin fc) (fin gainDb))) (h0 : 0 < fc) (h1 : fc < 1 / 2) :
    AfterSetup S T n call fun f => HighShape (bwShelf o gainDb) 1 ((o + 1) / 2) fc f ∧
      GainSq f (1 / 2) (ofDb gainDb ^ 2) ∧ GainSq f fc (ofDb gainDb) := by
  have ho := h.pos
  refine (Spec.shape_high h (Design.proto_bwShelf _ gainDb h.pos h.le h.small rfl lay0_bwShelf.1 lay0_bwShelf.2)
    (butterworthShelf_shape ho gainDb) rfl rfl h0 h1).mono fun f hf => ?_
  simp only [bw_shelf_inf _ ho] at hf
  refine ⟨hf, ?_, ?_⟩
  · have := hf.nyquist
    rw [← bwShelf_zero ho]; exact this
  · have := hf.gain fc h0 h1
    rw [highRatio_self h0 h1] at this
    rw [← bwShelf_one (o := o)]; exact this

example : AfterSetup S T 5 (.setup (fin 48000) (.bwHighShelf (fin 1000) (fin (-10)))) fun f =>
    GainSq f (1 / 2) (ofDb (-10) ^ 2) :=
  (C34_highshelf (call := .setup (fin 48000) (.bwHighShelf (fin 1000) (fin (-10)))) (o := 5) (fc := 1000 / 48000) ⟨rfl, congrArg (Design.bwHighShelf · (fin (-10))) (fin_div _ (by norm_num)),
    by norm_num, by norm_num, by norm_num⟩ (by norm_num) (by norm_num)).mono fun _ h => h.2.1

theorem bwShelf_noReal {g b : ℝ} (h : o % 2 = 1 → b ≠ g ∧ b ≠ 1 / g) :
    (butterworthShelf o g).NoReal b := by
  intro ho
  have ho' : o % 2 = 1 := ho
  have hb := h ho'
  constructor
  · intro e
    have e' : starRingEnd ℂ ((butterworth o).pole (o / 2)) * (1 / g : ℝ) = -(b : ℂ) := e
    rw [bw_pole_mid ho', map_neg, map_one, neg_one_mul, neg_inj] at e'
    exact hb.2 (by exact_mod_cast e'.symm)
  · intro e
    have e' : some (starRingEnd ℂ ((butterworth o).pole (o / 2)) * (g : ℝ)) = some (-(b : ℂ)) := e
    rw [bw_pole_mid ho', map_neg, map_one, neg_one_mul, Option.some.injEq, neg_inj] at e'
    exact hb.1 (by exact_mod_cast e'.symm)

/-- **C34**, band shelf: gain 1 at frequency 0 and half the sampling rate, `g` at the centre of the (prewarped)
band, `√g` at both edges. -/
theorem C34_bandshelf (h : Asks call n o (.bwBandShelf (fin fc) (fin fw) (fin gainDb))) (h0 : 0 ≤ fc) (h1 : fc < 1 / 2)
    (he : bandLo fc fw < bandHi fc fw)
    (hodd : o % 2 = 1 → Real.tan (Real.pi * (bandHi fc fw - bandLo fc fw)) ^ (2 * o) ≠ ofDb gainDb ∧
      Real.tan (Real.pi * (bandHi fc fw - bandLo fc fw)) ^ (2 * o) ≠ 1 / ofDb gainDb) :
    AfterSetup S T n call fun f =>
      BandShape (bwShelf o gainDb) 1 o (bandLo fc fw) (bandHi fc fw) f ∧
      GainSq f (bandMid (bandLo fc fw) (bandHi fc fw)) (ofDb gainDb ^ 2) ∧
      GainSq f (bandLo fc fw) (ofDb gainDb) ∧ GainSq f (bandHi fc fw) (ofDb gainDb) := by
  have ho := h.pos
  have hB := band_of he
  have hroot : bwShelfRoot o gainDb ^ (2 * o) = ofDb gainDb := bwShelfRoot_pow ho gainDb
  refine (Spec.shape_bandShelf h (Design.proto_bwShelf _ gainDb h.pos h.le h.small rfl lay0_bwShelf.1 lay0_bwShelf.2)
    (butterworthShelf_shape ho gainDb) rfl rfl h0 h1 he (bwShelf_noReal fun hh => ⟨fun h2 => ?_, fun h2 => ?_⟩)).mono
    fun f hf => ?_
  · apply (hodd hh).2
    rw [← edgeHalf_eq, ← hroot, ← h2, one_div_pow, one_div_one_div]
  · apply (hodd hh).1
    rw [one_div, one_div, inv_inj] at h2
    rw [← edgeHalf_eq, h2, hroot]
  simp only [bw_shelf_inf _ ho] at hf
  have hm := hB.mid_mem
  refine ⟨hf, ?_, ?_, ?_⟩
  · have := hf.gain _ hm.1 hm.2
    rw [hB.ratio_mid] at this
    rw [← bwShelf_zero ho]; exact this
  · have := hf.gain _ hB.pos (hB.lt.trans hB.half)
    rw [hB.ratio_lo] at this
    simp only [even_pow_two_mul] at this
    rw [← bwShelf_one (o := o)]; exact this
  · have := hf.gain _ (hB.pos.trans hB.lt) hB.half
    rw [hB.ratio_hi] at this
    rw [← bwShelf_one (o := o)]; exact this

example : AfterSetup S T 2 (.setupN (.bwBandShelf (fin (1 / 4)) (fin (1 / 8)) (fin 6))) fun f =>
    GainSq f (3 / 16) (ofDb 6) := by
  have h := C34_bandshelf (S := S) (T := T) (o := 2) (n := 2) (fc := 1 / 4) (fw := 1 / 8) (gainDb := 6)
    (call := .setupN (.bwBandShelf (fin (1 / 4)) (fin (1 / 8)) (fin 6))) ⟨rfl, rfl, by norm_num, le_rfl, by norm_num⟩
    (by norm_num) (by norm_num) (by rw [band_ex.1, band_ex.2]; norm_num) (fun h => by norm_num at h)
  rw [band_ex.1] at h
  exact h.mono fun f hf => hf.2.2.1

end Iir
