import Verif.Lemmas.Mirror
import Verif.Props.Equivalent

/-! # C70: low passes and high passes are mirror images -/

set_option linter.unusedSectionVars false

namespace Iir
open FArith XR Spec Exec

/-! ## Statements -/

/-- The frequency axis from 0 to half the sampling rate reversed: low becomes high and `fc` becomes `1/2 - fc`; widths,
gains and ripples stay. -/
inductive Spec.Mirrored : Design XR → Design XR → Prop
  | bw (fc : ℝ) : Mirrored (.bwLowPass (fin fc)) (.bwHighPass (fin (1 / 2 - fc)))
  | bwBand (fc fw : ℝ) : Mirrored (.bwBandPass (fin fc) (fin fw)) (.bwBandPass (fin (1 / 2 - fc)) (fin fw))
  | bwStop (fc fw : ℝ) : Mirrored (.bwBandStop (fin fc) (fin fw)) (.bwBandStop (fin (1 / 2 - fc)) (fin fw))
  | bwShelf (fc g : ℝ) : Mirrored (.bwLowShelf (fin fc) (fin g)) (.bwHighShelf (fin (1 / 2 - fc)) (fin g))
  | bwBandShelf (fc fw g : ℝ) :
      Mirrored (.bwBandShelf (fin fc) (fin fw) (fin g)) (.bwBandShelf (fin (1 / 2 - fc)) (fin fw) (fin g))
  | c1 (fc r : ℝ) : Mirrored (.c1LowPass (fin fc) (fin r)) (.c1HighPass (fin (1 / 2 - fc)) (fin r))
  | c1Band (fc fw r : ℝ) :
      Mirrored (.c1BandPass (fin fc) (fin fw) (fin r)) (.c1BandPass (fin (1 / 2 - fc)) (fin fw) (fin r))
  | c1Stop (fc fw r : ℝ) :
      Mirrored (.c1BandStop (fin fc) (fin fw) (fin r)) (.c1BandStop (fin (1 / 2 - fc)) (fin fw) (fin r))
  | c1Shelf (fc g r : ℝ) :
      Mirrored (.c1LowShelf (fin fc) (fin g) (fin r)) (.c1HighShelf (fin (1 / 2 - fc)) (fin g) (fin r))
  | c1BandShelf (fc fw g r : ℝ) : Mirrored (.c1BandShelf (fin fc) (fin fw) (fin g) (fin r))
      (.c1BandShelf (fin (1 / 2 - fc)) (fin fw) (fin g) (fin r))
  | c2 (fc r : ℝ) : Mirrored (.c2LowPass (fin fc) (fin r)) (.c2HighPass (fin (1 / 2 - fc)) (fin r))
  | c2Band (fc fw r : ℝ) :
      Mirrored (.c2BandPass (fin fc) (fin fw) (fin r)) (.c2BandPass (fin (1 / 2 - fc)) (fin fw) (fin r))
  | c2Stop (fc fw r : ℝ) :
      Mirrored (.c2BandStop (fin fc) (fin fw) (fin r)) (.c2BandStop (fin (1 / 2 - fc)) (fin fw) (fin r))
  | c2Shelf (fc g r : ℝ) :
      Mirrored (.c2LowShelf (fin fc) (fin g) (fin r)) (.c2HighShelf (fin (1 / 2 - fc)) (fin g) (fin r))
  | c2BandShelf (fc fw g r : ℝ) : Mirrored (.c2BandShelf (fin fc) (fin fw) (fin g) (fin r))
      (.c2BandShelf (fin (1 / 2 - fc)) (fin fw) (fin g) (fin r))

/-- The same for RBJ filters; `IIRNotch` and `BandShelf` are left out, their width depends on the frequency. -/
inductive Spec.MirroredRBJ : RBJ.Design ℝ → RBJ.Design ℝ → Prop
  | low (f0 q : ℝ) : MirroredRBJ (.lowPass f0 q) (.highPass (1 / 2 - f0) q)
  | bandPass1 (f0 q : ℝ) : MirroredRBJ (.bandPass1 f0 q) (.bandPass1 (1 / 2 - f0) q)
  | bandPass2 (f0 q : ℝ) : MirroredRBJ (.bandPass2 f0 q) (.bandPass2 (1 / 2 - f0) q)
  | bandStop (f0 q : ℝ) : MirroredRBJ (.bandStop f0 q) (.bandStop (1 / 2 - f0) q)
  | allPass (f0 q : ℝ) : MirroredRBJ (.allPass f0 q) (.allPass (1 / 2 - f0) q)
  | lowShelf (f0 g s : ℝ) : MirroredRBJ (.lowShelf f0 g s) (.highShelf (1 / 2 - f0) g s)

/-! ## Tools -/

theorem Known.mirror {run : (ℕ → ℝ) → (ℕ → ℝ) → Prop} {H : ℝ → ℂ} (h : Known run H) :
    Known (fun x y => run (alternate x) (alternate y)) fun fr => starRingEnd ℂ (H (1 / 2 - fr)) := by
  obtain ⟨ks, h1, h2, h3, h4⟩ := h
  refine ⟨ks.map Coeffs.mirror, fun k hk => ?_, fun k hk => ?_, fun fr a b => ?_, fun x y => ?_⟩
  · obtain ⟨k, hk', rfl⟩ := List.mem_map.1 hk
    exact h1 k hk'
  · obtain ⟨k, hk', rfl⟩ := List.mem_map.1 hk
    exact Coeffs.mirror_stable (h2 k hk')
  · rw [secH_mirrors, h3 _ (by linarith) (by linarith)]
  · have e := chainOut_mirror ks (alternate x)
    rw [alternate_alternate] at e
    rw [e]
    refine (h4 _ _).trans ?_
    constructor
    · intro h; rw [← h, alternate_alternate]
    · intro h; rw [h, alternate_alternate]

theorem prod_conj {o : ℕ} {g : ℕ → ℂ} {g' : ℕ → ℂ} (h : ∀ k < o, starRingEnd ℂ (g k) = g' (o - 1 - k)) :
    starRingEnd ℂ (∏ k ∈ Finset.range o, g k) = ∏ k ∈ Finset.range o, g' k := by
  rw [map_prod, ← Finset.prod_range_reflect]
  refine Finset.prod_congr rfl fun k hk => ?_
  have hk := Finset.mem_range.1 hk
  rw [h _ (by omega)]
  congr 1; omega

theorem bwPole_conj {o k : ℕ} (hk : k < o) : starRingEnd ℂ (bwPole o k) = bwPole o (o - 1 - k) := by
  obtain ⟨e1, e2⟩ := bwPole_pair hk
  have hn : ‖bwPole o k‖ = 1 := by
    have e : bwPole o k = Complex.exp ((Real.pi * (2 * k + 1 + o) / (2 * o) : ℝ) * Complex.I) := by
      rw [bwPole]; congr 1; push_cast; ring
    rw [e, Complex.norm_exp_ofReal_mul_I]
  have h0 : bwPole o k ≠ 0 := fun h => by rw [h, norm_zero] at hn; exact zero_ne_one hn
  have e3 : bwPole o k * starRingEnd ℂ (bwPole o k) = 1 := by
    rw [Complex.mul_conj, Complex.normSq_eq_norm_sq, hn]; norm_num
  exact mul_left_cancel₀ h0 (e3.trans e1.symm)

theorem chebAngle_reflect {o k : ℕ} (hk : k < o) : chebAngle o (o - 1 - k) = Real.pi - chebAngle o k := by
  have ho : (o : ℝ) ≠ 0 := by exact_mod_cast (by omega : o ≠ 0)
  have hc : ((o - 1 - k : ℕ) : ℝ) = o - 1 - k := by
    rw [Nat.cast_sub (by omega), Nat.cast_sub (by omega), Nat.cast_one]
  rw [chebAngle, chebAngle, hc]
  field_simp; ring

theorem ellipse_conj {o k : ℕ} (hk : k < o) (v : ℝ) : starRingEnd ℂ (ellipse o v k) = ellipse o v (o - 1 - k) := by
  rw [ellipse, ellipse, chebAngle_reflect hk, Real.sin_pi_sub, Real.cos_pi_sub]
  simp only [map_add, map_neg, map_mul, Complex.conj_ofReal, Complex.conj_I]
  push_cast; ring

/-- real coefficients -/
def RealFun (H : ℂ → ℂ) : Prop := ∀ s, starRingEnd ℂ (H s) = H (starRingEnd ℂ s)

theorem bwLow_real (o : ℕ) : RealFun (bwLow o) := fun s => prod_conj fun k hk => by
  rw [map_div₀, map_neg, map_sub, bwPole_conj hk]

theorem bwLowShelf_real (o : ℕ) (g : ℝ) : RealFun (bwLowShelf o g) := fun s => prod_conj fun k hk => by
  rw [map_div₀, map_sub, map_sub, map_mul, map_div₀, bwPole_conj hk, Complex.conj_ofReal]

theorem c1Low_real (o : ℕ) (r : ℝ) : RealFun (c1Low o r) := fun s => by
  rw [c1Low, map_mul, Complex.conj_ofReal]
  refine congrArg _ (prod_conj fun k hk => ?_)
  rw [map_div₀, map_neg, map_sub, ellipse_conj hk]

theorem c2Low_real (o : ℕ) (r : ℝ) : RealFun (c2Low o r) := fun s => prod_conj fun k hk => by
  rw [map_div₀, map_add, map_sub, map_mul, map_mul, map_mul, ellipse_conj hk, Complex.conj_ofReal, Complex.conj_I,
    map_one, chebAngle_reflect hk, Real.cos_pi_sub]
  push_cast; ring

theorem c2LowInf_real (o : ℕ) (r : ℝ) : starRingEnd ℂ (c2LowInf o r) = c2LowInf o r := prod_conj fun k hk => by
  rw [map_div₀, map_neg, map_mul, ellipse_conj hk, Complex.conj_ofReal, Complex.conj_I, chebAngle_reflect hk,
    Real.cos_pi_sub]
  push_cast; ring

theorem chebLowShelf_real (o : ℕ) (g r : ℝ) : RealFun (chebLowShelf o g r) := fun s => prod_conj fun k hk => by
  rw [map_div₀, map_sub, map_sub, ellipse_conj hk, ellipse_conj hk]

theorem tan_mirror (f : ℝ) : Real.tan (Real.pi * (1 / 2 - f)) = (Real.tan (Real.pi * f))⁻¹ := by
  rw [show Real.pi * (1 / 2 - f) = Real.pi / 2 - Real.pi * f by ring, Real.tan_pi_div_two_sub]

theorem lowRatio_mirror (fc fr : ℝ) : lowRatio (1 / 2 - fc) fr = (lowRatio fc (1 / 2 - fr))⁻¹ := by
  rw [lowRatio, lowRatio, tan_mirror, tan_mirror, div_inv_eq_mul, inv_div, div_inv_eq_mul, mul_comm]

theorem bandRatio_mirror (f1 f2 fr : ℝ) :
    bandRatio (1 / 2 - f2) (1 / 2 - f1) fr = -bandRatio f1 f2 (1 / 2 - fr) := by
  rw [bandRatio, bandRatio, show Real.pi * (1 / 2 - f2 + (1 / 2 - f1)) = Real.pi - Real.pi * (f1 + f2) by ring,
    show 1 / 2 - f1 - (1 / 2 - f2) = f2 - f1 by ring, Real.cos_pi_sub,
    show 2 * Real.pi * (1 / 2 - fr) = Real.pi - 2 * Real.pi * fr by ring, Real.cos_pi_sub, Real.sin_pi_sub]
  ring

theorem bandLo_mirror (fc fw : ℝ) : bandLo (1 / 2 - fc) fw = 1 / 2 - bandHi fc fw := by
  rw [bandLo, bandHi, ← max_sub_sub_left]
  congr 1 <;> ring

theorem bandHi_mirror (fc fw : ℝ) : bandHi (1 / 2 - fc) fw = 1 / 2 - bandLo fc fw := by
  rw [bandLo, bandHi, ← min_sub_sub_left]
  congr 1; ring

theorem conj_I_mul (r : ℝ) : starRingEnd ℂ (Complex.I * r) = Complex.I * (-r : ℝ) := by
  rw [map_mul, Complex.conj_I, Complex.conj_ofReal]; push_cast; ring

theorem low_mirror {H : ℂ → ℂ} (hH : RealFun H) (fc fr : ℝ) :
    starRingEnd ℂ (H (Complex.I * lowRatio fc (1 / 2 - fr))) = H (1 / (Complex.I * lowRatio (1 / 2 - fc) fr)) := by
  rw [hH, conj_I_mul, lowRatio_mirror, one_div (_ * _), mul_inv, Complex.inv_I, Complex.ofReal_inv, inv_inv]
  congr 1; push_cast; ring

theorem band_mirror {H : ℂ → ℂ} (hH : RealFun H) (fc fw fr : ℝ) :
    starRingEnd ℂ (H (Complex.I * bandRatio (bandLo fc fw) (bandHi fc fw) (1 / 2 - fr))) =
      H (Complex.I * bandRatio (bandLo (1 / 2 - fc) fw) (bandHi (1 / 2 - fc) fw) fr) := by
  rw [hH, conj_I_mul, bandLo_mirror, bandHi_mirror, bandRatio_mirror]

theorem stop_mirror {H : ℂ → ℂ} {v : ℂ} (hH : RealFun H) (hv : starRingEnd ℂ v = v) (fc fw fr : ℝ) :
    starRingEnd ℂ (if bandRatio (bandLo fc fw) (bandHi fc fw) (1 / 2 - fr) = 0 then v else
        H (1 / (Complex.I * bandRatio (bandLo fc fw) (bandHi fc fw) (1 / 2 - fr)))) =
      if bandRatio (bandLo (1 / 2 - fc) fw) (bandHi (1 / 2 - fc) fw) fr = 0 then v else
        H (1 / (Complex.I * bandRatio (bandLo (1 / 2 - fc) fw) (bandHi (1 / 2 - fc) fw) fr)) := by
  rw [bandLo_mirror, bandHi_mirror, bandRatio_mirror]
  by_cases h : bandRatio (bandLo fc fw) (bandHi fc fw) (1 / 2 - fr) = 0
  · rw [if_pos h, if_pos (by rw [h, neg_zero]), hv]
  · rw [if_neg h, if_neg (neg_ne_zero.2 h), hH, map_div₀, conj_I_mul, map_one]

theorem Spec.StopResponse.at {S : Type → Type} [StateType S XR] {H : ℂ → ℂ} {v : ℂ} {f1 f2 : ℝ} {f : PoleFilter S XR}
    (h : StopResponse H v f1 f2 f) (fr : ℝ) (a : 0 < fr) (b : fr < 1 / 2) :
    Response f fr (if bandRatio f1 f2 fr = 0 then v else H (1 / (Complex.I * bandRatio f1 f2 fr))) := by
  by_cases e : bandRatio f1 f2 fr = 0
  · rw [if_pos e]; exact h.centre fr a b e
  · rw [if_neg e]; exact h.value fr a b e

theorem quad_mirror (f0 n2 n1 n0 d2 d1 d0 : ℝ) {fr : ℝ} (h0 : 0 < f0) (h1 : f0 < 1 / 2) (a : 0 < fr) (b : fr < 1 / 2) :
    starRingEnd ℂ ((n2 * (Complex.I * lowRatio f0 (1 / 2 - fr)) ^ 2 + n1 * (Complex.I * lowRatio f0 (1 / 2 - fr)) + n0) /
      (d2 * (Complex.I * lowRatio f0 (1 / 2 - fr)) ^ 2 + d1 * (Complex.I * lowRatio f0 (1 / 2 - fr)) + d0)) =
    (n0 * (Complex.I * lowRatio (1 / 2 - f0) fr) ^ 2 + n1 * (Complex.I * lowRatio (1 / 2 - f0) fr) + n2) /
      (d0 * (Complex.I * lowRatio (1 / 2 - f0) fr) ^ 2 + d1 * (Complex.I * lowRatio (1 / 2 - f0) fr) + d2) := by
  have e : starRingEnd ℂ (Complex.I * lowRatio f0 (1 / 2 - fr)) = (Complex.I * lowRatio (1 / 2 - f0) fr)⁻¹ := by
    rw [conj_I_mul, lowRatio_mirror, mul_inv, Complex.inv_I, Complex.ofReal_inv, inv_inv]; push_cast; ring
  have hw : Complex.I * (lowRatio (1 / 2 - f0) fr : ℂ) ≠ 0 :=
    mul_ne_zero Complex.I_ne_zero (by exact_mod_cast (lowRatio_pos (by linarith) (by linarith) a b).ne')
  simp only [map_div₀, map_add, map_mul, map_pow, Complex.conj_ofReal] at e ⊢
  rw [e, ← mul_div_mul_left _ _ (pow_ne_zero 2 hw)]
  generalize Complex.I * (lowRatio (1 / 2 - f0) fr : ℂ) = w at hw
  congr 1 <;> · field_simp; ring

/-! ## C70 -/

variable {S S' : Type → Type} [StateType S XR] [DelayLine XR S] [StateType S' XR] [DelayLine XR S']
  {T T' : Type} [Sample T XR] [Sample T' XR] {n n' o : ℕ} {call call' : Call XR}

/-- **C70**: with every other sample of the input negated, the mirrored filter returns the same samples with every other
sample negated; for all orders and valid parameters and for all inputs, whatever was done with both objects before and
also for different delay line types. -/
theorem C70_mirror {d d' : Design XR} (h : Asks call n o d) (h' : Asks call' n' o d') (hd : Mirrored d d')
    (hv : Valid o d) (hv' : Valid o d') (x y : ℕ → ℝ) :
    SetupRuns S T n call x y ↔ SetupRuns S' T' n' call' (alternate x) (alternate y) := by
  have go {H H' : ℝ → ℂ} (k : Known (SetupRuns S T n call) H) (k' : Known (SetupRuns S' T' n' call') H')
      (e : ∀ fr, starRingEnd ℂ (H (1 / 2 - fr)) = H' fr) :
      SetupRuns S T n call x y ↔ SetupRuns S' T' n' call' (alternate x) (alternate y) := by
    have := k.mirror.same k' (fun fr _ _ => e fr) (alternate x) (alternate y)
    rwa [alternate_alternate, alternate_alternate] at this
  cases hd with
  | bw fc =>
    exact go (known_design h hv fun f hf fr a b => hf.value fr a.le b)
      (known_design h' hv' fun f hf fr a b => hf.value fr a b) (low_mirror (bwLow_real o) fc)
  | bwBand fc fw =>
    exact go (known_design h hv fun f hf fr a b => hf.value fr a b)
      (known_design h' hv' fun f hf fr a b => hf.value fr a b) (band_mirror (bwLow_real o) fc fw)
  | bwStop fc fw =>
    exact go (known_design h hv fun f hf fr a b => hf.at fr a b)
      (known_design h' hv' fun f hf fr a b => hf.at fr a b) (stop_mirror (bwLow_real o) (map_zero _) fc fw)
  | bwShelf fc g =>
    exact go (known_design h hv fun f hf fr a b => hf.value fr a.le b)
      (known_design h' hv' fun f hf fr a b => hf.value fr a b) (low_mirror (bwLowShelf_real o g) fc)
  | bwBandShelf fc fw g =>
    exact go (known_design h hv fun f hf fr a b => hf.value fr a b)
      (known_design h' hv' fun f hf fr a b => hf.value fr a b) (band_mirror (bwLowShelf_real o g) fc fw)
  | c1 fc r =>
    exact go (known_design h hv fun f hf fr a b => hf.value fr a.le b)
      (known_design h' hv' fun f hf fr a b => hf.value fr a b) (low_mirror (c1Low_real o r) fc)
  | c1Band fc fw r =>
    exact go (known_design h hv fun f hf fr a b => hf.value fr a b)
      (known_design h' hv' fun f hf fr a b => hf.value fr a b) (band_mirror (c1Low_real o r) fc fw)
  | c1Stop fc fw r =>
    exact go (known_design h hv fun f hf fr a b => hf.at fr a b)
      (known_design h' hv' fun f hf fr a b => hf.at fr a b) (stop_mirror (c1Low_real o r) (map_zero _) fc fw)
  | c2 fc r =>
    exact go (known_design h hv fun f hf fr a b => hf.value fr a.le b)
      (known_design h' hv' fun f hf fr a b => hf.value fr a b) (low_mirror (c2Low_real o r) fc)
  | c2Band fc fw r =>
    exact go (known_design h hv fun f hf fr a b => hf.value fr a b)
      (known_design h' hv' fun f hf fr a b => hf.value fr a b) (band_mirror (c2Low_real o r) fc fw)
  | c2Stop fc fw r =>
    exact go (known_design h hv fun f hf fr a b => hf.at fr a b)
      (known_design h' hv' fun f hf fr a b => hf.at fr a b) (stop_mirror (c2Low_real o r) (c2LowInf_real o r) fc fw)
  | c1Shelf fc g r | c2Shelf fc g r =>
    exact go (known_design h hv fun f hf fr a b => hf.value fr a.le b)
      (known_design h' hv' fun f hf fr a b => hf.value fr a b) (low_mirror (chebLowShelf_real o g r) fc)
  | c1BandShelf fc fw g r | c2BandShelf fc fw g r =>
    exact go (known_design h hv fun f hf fr a b => hf.value fr a b)
      (known_design h' hv' fun f hf fr a b => hf.value fr a b) (band_mirror (chebLowShelf_real o g r) fc fw)

/-- The same for RBJ filters. -/
theorem C70_rbj {d d' : RBJ.Design ℝ} (hd : MirroredRBJ d d') (hv : ValidRBJ d) (x y : ℕ → ℝ) :
    RBJRuns (finRBJ d) x y ↔ RBJRuns (finRBJ d') (alternate x) (alternate y) := by
  have go {H H' : ℝ → ℂ} (k : Known (RBJRuns (finRBJ d)) H) (k' : Known (RBJRuns (finRBJ d')) H')
      (e : ∀ fr, 0 < fr → fr < 1 / 2 → starRingEnd ℂ (H (1 / 2 - fr)) = H' fr) :
      RBJRuns (finRBJ d) x y ↔ RBJRuns (finRBJ d') (alternate x) (alternate y) := by
    have := k.mirror.same k' e (alternate x) (alternate y)
    rwa [alternate_alternate, alternate_alternate] at this
  cases hd with
  | low f0 q | bandPass1 f0 q | bandPass2 f0 q | bandStop f0 q | allPass f0 q =>
    obtain ⟨h0, h1, hq⟩ := id hv
    exact go (known_rbj_design hv fun b hb fr a c => hb.1 fr a.le c)
      (known_rbj_design (by exact ⟨by linarith, by linarith, hq⟩) fun b hb fr a c => hb.1 fr a.le c)
      fun fr a b => quad_mirror f0 _ _ _ _ _ _ h0 h1 a b
  | lowShelf f0 g s =>
    obtain ⟨h0, h1, hq, hs⟩ := id hv
    exact go (known_rbj_design hv fun b hb fr a c => hb.1 fr a.le c)
      (known_rbj_design (by exact ⟨by linarith, by linarith, hq, hs⟩) fun b hb fr a c => hb.1 fr a.le c)
      fun fr a b => quad_mirror f0 _ _ _ _ _ _ h0 h1 a b

/-- a case: the Chebyshev low pass of order 5 at 1 kHz and the high pass at 23 kHz, with a sampling rate of 48 kHz -/
example (x y : ℕ → ℝ) : SetupRuns S T 5 (.setup (fin 48000) (.c1LowPass (fin 1000) (fin 1))) x y ↔
    SetupRuns S' T' 8 (.setupReq 5 (fin 48000) (.c1HighPass (fin 23000) (fin 1))) (alternate x) (alternate y) :=
  C70_mirror (o := 5) (d := .c1LowPass (fin (1 / 48)) (fin 1)) (d' := .c1HighPass (fin (1 / 2 - 1 / 48)) (fin 1))
    ⟨rfl, by simp [Call.normDesign, mapFreq, fin_div']; norm_num, by norm_num, le_rfl, by norm_num⟩
    ⟨rfl, by simp [Call.normDesign, mapFreq, fin_div']; norm_num, by norm_num, by norm_num, by norm_num⟩ (.c1 _ _)
    ⟨⟨by norm_num, by norm_num⟩, by norm_num⟩ ⟨⟨by norm_num, by norm_num⟩, by norm_num⟩ x y

/-- a case: a band pass at 0.2 and one at 0.3 -/
example (x y : ℕ → ℝ) : RBJRuns (.bandPass2 (fin (1 / 5)) (fin 3)) x y ↔
    RBJRuns (.bandPass2 (fin (1 / 2 - 1 / 5)) (fin 3)) (alternate x) (alternate y) :=
  C70_rbj (d := .bandPass2 (1 / 5) 3) (.bandPass2 _ _) ⟨by norm_num, by norm_num, by norm_num⟩ x y

end Iir
