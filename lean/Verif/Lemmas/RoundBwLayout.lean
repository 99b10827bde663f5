import Verif.Lemmas.RoundStages
import Verif.Spec.PoleAccuracy

/-! # Butterworth layouts with rounding errors: distance from the ideal poles -/

namespace Iir
open FArith Cx Exec Spec Biquad

variable {R : Type} [FArith R] {u η Ω : ℝ} {r : Rounds R u η Ω}

/-- The prototype as computed. -/
abbrev Layout.AnalogBw (r : Rounds R u η Ω) (o m L : ℕ) (l : Layout R) : Prop :=
  l.Holds (fun i p z => r.APole p ∧ z = Cx.infinity ∧ (i < o ∧ ‖r.cval p - bwPole o i‖ ≤ 1 / 2 ^ 43))
    (fun p z => r.AReal p ∧ z = Cx.infinity ∧ (Odd o ∧ r.val p.re = -1))
    (fun w g => (r.Fin w ∧ r.val w = 0) ∧ r.In g 1 1) m L

/-- A pair of the digital filter as computed. -/
def PairBw (r : Rounds R u η Ω) (s φ : ℝ) (o i : ℕ) (p z : Cx R) : Prop :=
  r.PoleIn p ∧ (r.ZeroIn s z ∧ r.val z.re = -s ∧ r.val z.im = 0) ∧ ‖s * r.cval p - bwDigital φ o i‖ ≤ 1 / 2 ^ 40

/-- The single pole of the digital filter as computed. -/
def OneBw (r : Rounds R u η Ω) (s φ : ℝ) (o : ℕ) (p z : Cx R) : Prop :=
  r.RealPole p ∧ (r.RealZero s z ∧ r.val z.re = -s) ∧ (Odd o ∧ ‖s * r.cval p - bwDigital φ o (o / 2)‖ ≤ 1 / 2 ^ 40)

/-- The digital filter as computed. -/
abbrev Layout.DigitalBw (r : Rounds R u η Ω) (s φ : ℝ) (o m L : ℕ) (l : Layout R) : Prop :=
  l.Holds (PairBw r s φ o) (OneBw r s φ o) (fun w g => AtEnd r s (w / (2 * pi)) ∧ r.In g 1 1) m L

section ops
variable (hl : r.Library)
include hl

theorem Butterworth.analog_near {n L : ℕ} (hn : 1 ≤ n) (h16 : n ≤ 16) (hL : (n + 1) / 2 ≤ L) :
    Done (fun l => l.pairs.length = L ∧ (r.Fin l.normalW ∧ r.val l.normalW = 0) ∧ r.In l.normalGain 1 1)
      (Butterworth.lowPassBuild (n : ℤ)) (Layout.AnalogBw r n n L) := by
  unfold Butterworth.lowPassBuild
  refine Trip.bind (Q := fun _ => Layout.AnalogBw r n 0 L)
    (holds_reset (W := fun w g => (r.Fin w ∧ r.val w = 0) ∧ r.In g 1 1)) fun _ =>
    Done.intChecked_ok (by omega) ?_
  simp only [tdiv_two, int_odd]
  refine holds_build hL (fun i hi => ?_) ?_
  · obtain ⟨c, h1, h2, h3⟩ := butterworth_pole_near hl hn h16 hi
    refine ⟨c, Cx.infinity, ?_, not_nan_of_fin hl h2.fin, infinity_not_nan hl, h2, rfl, by omega, h3⟩
    rw [h1]; rfl
  · by_cases h : n % 2 = 1
    · simp only [h, decide_true, if_true]
      have hone := In.one hl.toAccurate (r := r)
      have hv1 : r.val (1 : R) = 1 := le_antisymm hone.2.2 hone.2.1
      obtain ⟨h2, h3⟩ := hl.neg _ hone.1
      have hfin : r.CFin (ofR (-1 : R)) := ⟨h2, r.zero.1⟩
      have hv : r.val (ofR (-1 : R)).re = -1 := by show r.val (-1 : R) = _; rw [h3, hv1]
      have := holds_add (D := fun i p z => r.APole p ∧ z = Cx.infinity ∧ (i < n ∧ ‖r.cval p - bwPole n i‖ ≤ 1 / 2 ^ 43))
        (S := fun p z => r.AReal p ∧ z = Cx.infinity ∧ (Odd n ∧ r.val p.re = -1))
        (W := fun w g => (r.Fin w ∧ r.val w = 0) ∧ r.In g 1 1)
        (m := 2 * (n / 2)) (L := L) (p := ofR (-1)) (z := Cx.infinity) (feq_zero hl) (not_nan_of_fin hl hfin)
        (infinity_not_nan hl) (feq_zero hl) (feq_zero hl)
        ⟨⟨hfin, r.zero.2, by rw [hv]; norm_num, by rw [hv]; norm_num⟩, rfl, Nat.odd_iff.2 h, hv⟩
        (by omega) (by omega)
      rwa [show 2 * (n / 2) + 1 = n by omega] at this
    · simp only [h, decide_false, Bool.false_eq_true, if_false]
      refine Trip.pure fun s hs => ?_
      rwa [show 2 * (n / 2) = n by omega] at hs

theorem moves_near {f : R} {φ : ℝ} {o : ℕ} (ho : 1 ≤ o) (hw : Warp r f φ) {tr : R → Cx R → Cx R} {s : ℝ}
    (hs : tr = lpTransform ∧ s = 1 ∨ tr = hpTransform ∧ s = -1) :
    Moves (tr f) (fun i p z => r.APole p ∧ z = Cx.infinity ∧ (i < o ∧ ‖r.cval p - bwPole o i‖ ≤ 1 / 2 ^ 43))
      (fun p z => r.AReal p ∧ z = Cx.infinity ∧ (Odd o ∧ r.val p.re = -1))
      (PairBw r s φ o) (OneBw r s φ o) := by
  have hφ0 : 0 ≤ φ := by linarith [hw.lo]
  obtain ⟨φ1, n1, n2, n3⟩ := hw.near
  obtain ⟨i1, i2, i3⟩ := infinity_image hl (f := f) hs
  refine ⟨?_, ?_⟩
  · rintro i p z ⟨h1, rfl, hi, h3⟩
    have hp := APole.image hl hw.inn h1 hs
    have hz := AZero.image hl hw.inn (.inl rfl) hs
    obtain ⟨b1, b2⟩ := bwPole_left hi
    have hi0 : (0 : ℝ) < 1 / o := by have : (0 : ℝ) < o := by exact_mod_cast ho
                                     positivity
    exact ⟨not_nan_of_fin hl hp.fin, not_nan_of_fin hl i1, hp, ⟨hz, i2, i3⟩,
      pole_image_near hl hw.inn h1.fin h1.left (by rw [b1]; linarith) (bwPole_norm _ _) h3 hφ0 n1 n2 n3 hs⟩
  · rintro p z ⟨h1, rfl, ho2, hre⟩
    have hp := AReal.image hl hw.inn h1 hs
    have hz := infinity_realZero hl (f := f) hs
    have hv : r.cval p = -1 := Complex.ext (by rw [cval_re, hre]; simp) (by rw [cval_im, h1.real]; simp)
    refine ⟨not_nan_of_fin hl hp.fin, not_nan_of_fin hl i1, ?_, ?_, hp, ⟨hz, i2⟩, ho2, ?_⟩
    · exact (hl.feq _ _ hp.fin.2 r.zero.1).2 (by rw [hp.real, r.zero.2])
    · exact (hl.feq _ _ i1.2 r.zero.1).2 (by rw [i3, r.zero.2])
    · refine pole_image_near hl hw.inn h1.fin (by rw [hre]; norm_num) ?_ (bwPole_norm _ _) ?_ hφ0 n1 n2 n3 hs
      · rw [bwPole_mid (Nat.odd_iff.1 ho2)]; simp
      · rw [bwPole_mid (Nat.odd_iff.1 ho2), hv]; simp

variable {o m L L' : ℕ} {a : Layout R}

theorem lowPass_near {fc : R} (ho : 1 ≤ o) (hf : r.Freq fc) {fc0 : ℝ} (h0 : |r.val fc - fc0| ≤ 1 / 2 ^ 50) (ha : a.AnalogBw r o m L)
    (hL : (m + 1) / 2 ≤ L') :
    Done (fun l => l.pairs.length = L') (lowPassTransform fc a) (Layout.DigitalBw r 1 (Real.tan (Real.pi * fc0)) o m L') := by
  unfold lowPassTransform
  refine Trip.bind (Q := fun _ l => l.pairs.length = L') (Done.of_run fun s hs => ⟨s, checkFreq_rounds hl hf s, hs⟩)
    fun _ => ?_
  refine Trip.bind (Q := fun _ => Layout.Holds (PairBw r 1 (Real.tan (Real.pi * fc0)) o) (OneBw r 1 (Real.tan (Real.pi * fc0)) o) (fun _ _ => True) 0 L')
    (Done.of_run fun s hs => holds_reset.run ⟨hs, trivial⟩) fun _ => ?_
  refine Trip.bind (holds_mapLayout (feq_zero hl) (moves_near hl ho (warp_low hl hf h0)
    (.inl ⟨rfl, rfl⟩)) ha hL) fun _ => holds_setNormal ?_
  obtain ⟨⟨h1, h2⟩, h3⟩ := ha.norm
  have h4 := (two_pi_in hl).1
  have h5 : r.val (2 * pi : R) ≠ 0 := by have := (two_pi_in hl).2.1; intro h; rw [h] at this; norm_num at this
  refine ⟨⟨(raw_div hl.toAccurate h1 h4 h5 (M := 1) ?_ (by norm_num)).1, .inl ⟨rfl, hl.zero_div _ _ h1 h4 h5 h2⟩⟩, h3⟩
  rw [h2, _root_.zero_div, abs_zero]; norm_num

theorem highPass_near {fc : R} (ho : 1 ≤ o) (hf : r.Freq fc) {fc0 : ℝ} (h0 : |r.val fc - fc0| ≤ 1 / 2 ^ 50) (ha : a.AnalogBw r o m L)
    (hL : (m + 1) / 2 ≤ L') :
    Done (fun l => l.pairs.length = L') (highPassTransform fc a) (Layout.DigitalBw r (-1) (1 / Real.tan (Real.pi * fc0)) o m L') := by
  unfold highPassTransform
  refine Trip.bind (Q := fun _ l => l.pairs.length = L') (Done.of_run fun s hs => ⟨s, checkFreq_rounds hl hf s, hs⟩)
    fun _ => ?_
  refine Trip.bind (Q := fun _ => Layout.Holds (PairBw r (-1) (1 / Real.tan (Real.pi * fc0)) o) (OneBw r (-1) (1 / Real.tan (Real.pi * fc0)) o) (fun _ _ => True) 0 L')
    (Done.of_run fun s hs => holds_reset.run ⟨hs, trivial⟩) fun _ => ?_
  refine Trip.bind (holds_mapLayout (feq_zero hl) (moves_near hl ho (warp_high hl hf h0)
    (.inr ⟨rfl, rfl⟩)) ha hL) fun _ => holds_setNormal ?_
  obtain ⟨⟨h1, h2⟩, h3⟩ := ha.norm
  have h4 := (two_pi_in hl).1
  have h5 : r.val (2 * pi : R) ≠ 0 := by have := (two_pi_in hl).2.1; intro h; rw [h] at this; norm_num at this
  have hp := In.abs (pi_in hl) (B := 4) (by norm_num) (by norm_num)
  have e := hl.sub_zero _ _ hl.pi.1 h1 h2
  obtain ⟨h6, -⟩ := raw_sub hl.toAccurate hl.pi.1 h1 (M := 4) (by rw [h2, _root_.sub_zero]; exact hp) (by norm_num)
  refine ⟨⟨(raw_div hl.toAccurate h6 h4 h5 (M := 1) ?_ (by norm_num)).1, .inr ⟨rfl, hl.half_turn _ h6 e⟩⟩, h3⟩
  have h7 := two_pi_in hl
  rw [e, abs_div, abs_of_pos (a := r.val (2 * pi : R)) (by linarith [h7.2.1]), div_le_one (by linarith [h7.2.1])]
  linarith [h7.2.1]

end ops

/-! ## The ideal sections -/

/-- The sections of the ideal filter before scaling. -/
noncomputable def bwK (s φ : ℝ) (o i : ℕ) : Coeffs := if 2 * i + 1 < o then pairK s (s * bwDigital φ o i) else oneK s (s * bwDigital φ o i)

/-- What they amplify errors by at most. -/
noncomputable def bwG (φ : ℝ) (o i : ℕ) : ℝ :=
  if 2 * i + 1 < o then 1 / ((1 - ‖bwDigital φ o i‖) * (1 - ‖bwDigital φ o i‖)) else 1 / (1 - ‖bwDigital φ o i‖)

theorem bwDigital_norm {φ : ℝ} {o i : ℕ} (h16 : o ≤ 16) (hi : i < o) (h1 : 1 / 512 ≤ φ) (h2 : φ ≤ 512) :
    ‖bwDigital φ o i‖ ≤ 1 - 1 / 2 ^ 13 := by
  have h0 : 0 < φ := by linarith
  have ho : (0 : ℝ) < o := by exact_mod_cast (by omega : 0 < o)
  have ho' : (o : ℝ) ≤ 16 := by exact_mod_cast h16
  obtain ⟨b1, b2⟩ := bwPole_left hi
  refine mobius_margin (w := φ * bwPole o i) (φ := φ) ?_ h1 h2 ?_
  · rw [norm_mul, bwPole_norm, Complex.norm_real, Real.norm_of_nonneg h0.le, mul_one]
  · rw [Complex.re_ofReal_mul, b1]
    have : 1 / 16 ≤ Real.sin ((2 * i + 1) * Real.pi / (2 * o)) := le_trans (one_div_le_one_div_of_le ho ho') b2
    nlinarith

theorem oneK_real {s : ℝ} {q : ℂ} (hq : q.im = 0) : (((oneK s q).a1 : ℝ) : ℂ) = -(q + 0) := by
  apply Complex.ext <;> simp [oneK, hq]

theorem ideal_pair {s : ℝ} (hs : s = 1 ∨ s = -1) {q : ℂ} (hq : ‖q‖ ≤ 1 - 1 / 2 ^ 13) :
    Ideal s (pairK s (s * q)) (1 / ((1 - ‖q‖) * (1 - ‖q‖))) := by
  have hs2 : s * s = 1 := by rcases hs with rfl | rfl <;> norm_num
  have hsn : |s| = 1 := by rcases hs with rfl | rfl <;> norm_num
  have hn : ‖(s : ℂ) * q‖ = ‖q‖ := by rw [norm_mul, Complex.norm_real, Real.norm_eq_abs, hsn, one_mul]
  have hd : 1 / 2 ^ 13 ≤ 1 - ‖q‖ := by linarith
  have hd0 : 0 < 1 - ‖q‖ := lt_of_lt_of_le (by positivity) hd
  have hq0 := norm_nonneg q
  have hre : ((s : ℂ) * q).re = s * q.re := Complex.re_ofReal_mul s q
  have him : ((s : ℂ) * q).im = s * q.im := Complex.im_ofReal_mul s q
  have sq : q.re ^ 2 + q.im ^ 2 = ‖q‖ ^ 2 := by rw [← Complex.normSq_eq_norm_sq, Complex.normSq_apply]; ring
  have bot : 1 + s * (pairK s (s * q)).a1 + (pairK s (s * q)).a2 = 1 - 2 * q.re + ‖q‖ ^ 2 := by
    simp only [pairK, hre, him]
    rw [← sq]
    linear_combination (-2 * q.re + q.re ^ 2 + q.im ^ 2) * hs2
  have hr := abs_le.1 (Complex.abs_re_le_norm q)
  have fw : (pairK s (s * q)).forward = 4 := by
    simp only [pairK, Coeffs.forward]; rw [abs_mul, hsn]; norm_num
  have gp : poleGain (s * q) (starRingEnd ℂ (s * q)) = 1 / ((1 - ‖q‖) * (1 - ‖q‖)) := by
    rw [poleGain, Complex.norm_conj, hn]
  have st : (pairK s (s * q)).StablePoles (s * q) (starRingEnd ℂ (s * q)) := by
    refine ⟨?_, ?_, by rw [hn]; linarith, by rw [Complex.norm_conj, hn]; linarith⟩
    · rw [Complex.add_conj]; simp only [pairK]; push_cast; ring
    · rw [Complex.mul_conj, Complex.normSq_apply]; simp only [pairK]; push_cast; ring
  have dd : (1 - ‖q‖) * (1 - ‖q‖) ≤ 1 - 2 * q.re + ‖q‖ ^ 2 := by nlinarith
  have ddp : 0 < (1 - ‖q‖) * (1 - ‖q‖) := by positivity
  have lo : 1 / 2 ^ 26 ≤ (1 - ‖q‖) * (1 - ‖q‖) := by
    calc (1 : ℝ) / 2 ^ 26 = 1 / 2 ^ 13 * (1 / 2 ^ 13) := by norm_num
      _ ≤ _ := mul_le_mul hd hd (by positivity) hd0.le
  have q1 : ‖q‖ ≤ 1 := by linarith
  refine ⟨⟨rfl, ?_, ?_, ?_, ?_, ?_, ?_, ?_⟩, rfl, ?_, ?_, ?_, ?_, ?_⟩
  · simp only [pairK]; rw [abs_mul, hsn]; norm_num
  · simp [pairK]
  · simp only [pairK, hre]; rw [abs_mul, abs_mul, hsn]
    rw [abs_neg, one_mul, abs_two]
    have := Complex.abs_re_le_norm q
    linarith
  · have : (pairK s (s * q)).a2 = ‖q‖ ^ 2 := by
      simp only [pairK, hre, him]; rw [← sq]; linear_combination (q.re ^ 2 + q.im ^ 2) * hs2
    rw [this, abs_of_nonneg (by positivity)]
    exact pow_le_one₀ hq0 q1
  · rw [le_div_iff₀ ddp]
    nlinarith
  · simp only [pairK]; linarith
  · rw [bot, div_mul_eq_mul_div, one_mul, le_div_iff₀ ddp, one_mul]; exact dd
  · rw [← gp]; exact StablePoles_gain st
  · rw [fw]; simp only [pairK]; linarith
  · rw [div_le_iff₀ ddp]
    norm_num at lo ⊢
    linarith
  · rw [fw]
  · rw [bot, fw]
    nlinarith

theorem ideal_one {s : ℝ} (hs : s = 1 ∨ s = -1) {q : ℂ} (hq : ‖q‖ ≤ 1 - 1 / 2 ^ 13) (him : q.im = 0) :
    Ideal s (oneK s (s * q)) (1 / (1 - ‖q‖)) := by
  have hs2 : s * s = 1 := by rcases hs with rfl | rfl <;> norm_num
  have hsn : |s| = 1 := by rcases hs with rfl | rfl <;> norm_num
  have hn : ‖(s : ℂ) * q‖ = ‖q‖ := by rw [norm_mul, Complex.norm_real, Real.norm_eq_abs, hsn, one_mul]
  have hd : 1 / 2 ^ 13 ≤ 1 - ‖q‖ := by linarith
  have hd0 : 0 < 1 - ‖q‖ := lt_of_lt_of_le (by positivity) hd
  have hq0 := norm_nonneg q
  have hre : ((s : ℂ) * q).re = s * q.re := Complex.re_ofReal_mul s q
  have bot : 1 + s * (oneK s (s * q)).a1 + (oneK s (s * q)).a2 = 1 - q.re := by
    simp only [oneK, hre]
    linear_combination (-q.re) * hs2
  have hr := abs_le.1 (Complex.abs_re_le_norm q)
  have fw : (oneK s (s * q)).forward = 2 := by
    simp only [oneK, Coeffs.forward]; rw [hsn]; norm_num
  have gp : poleGain (s * q) 0 = 1 / (1 - ‖q‖) := by
    rw [poleGain, hn, norm_zero, _root_.sub_zero, mul_one]
  have st : (oneK s (s * q)).StablePoles (s * q) 0 :=
    ⟨oneK_real (by rw [Complex.im_ofReal_mul, him, MulZeroClass.mul_zero]), by simp [oneK], by rw [hn]; linarith, by simp⟩
  have q1 : ‖q‖ ≤ 1 := by linarith
  refine ⟨⟨rfl, ?_, ?_, ?_, ?_, ?_, ?_, ?_⟩, rfl, ?_, ?_, ?_, ?_, ?_⟩
  · simp only [oneK]; rw [hsn]; norm_num
  · simp [oneK]
  · simp only [oneK, hre]; rw [abs_neg, abs_mul, hsn, one_mul]
    have := Complex.abs_re_le_norm q
    linarith
  · simp [oneK]
  · rw [le_div_iff₀ hd0]
    linarith
  · simp only [oneK]; linarith
  · rw [bot, div_mul_eq_mul_div, one_mul, le_div_iff₀ hd0, one_mul]; linarith
  · rw [← gp]; exact StablePoles_gain st
  · rw [fw]; simp only [oneK]; linarith
  · rw [div_le_iff₀ hd0]
    norm_num at hd ⊢
    linarith
  · rw [fw]; norm_num
  · rw [bot, fw]
    linarith

theorem bwDigital_mid_im {φ : ℝ} {o : ℕ} (h : Odd o) : (bwDigital φ o (o / 2)).im = 0 := by
  rw [bwDigital, bwPole_mid (Nat.odd_iff.1 h)]
  have : (1 + (φ : ℂ) * -1) / (1 - φ * -1) = (((1 - φ) / (1 + φ) : ℝ) : ℂ) := by push_cast; ring_nf
  rw [this, Complex.ofReal_im]

theorem bw_ideal {s φ : ℝ} (hs : s = 1 ∨ s = -1) {o i : ℕ} (h16 : o ≤ 16) (hi : 2 * i < o) (h1 : 1 / 512 ≤ φ) (h2 : φ ≤ 512) :
    Ideal s (bwK s φ o i) (bwG φ o i) := by
  have hq := bwDigital_norm (φ := φ) (o := o) (i := i) h16 (by omega) h1 h2
  unfold bwK bwG
  split_ifs with h
  · exact ideal_pair hs hq
  · obtain rfl : i = o / 2 := by omega
    exact ideal_one hs hq (bwDigital_mid_im (Nat.odd_iff.2 (by omega)))

/-- The pairs of the computed layout stand for the sections of the ideal filter. -/
theorem Layout.DigitalBw.pairs {s φ : ℝ} (hs : s = 1 ∨ s = -1) {o L : ℕ} {l : Layout R} (h16 : o ≤ 16) (h1 : 1 / 512 ≤ φ) (h2 : φ ≤ 512)
    (h : l.DigitalBw r s φ o o L) : ∀ i < (o + 1) / 2, ∃ pr, l.pairs[i]? = some pr ∧ r.PairIs s pr (bwK s φ o i) := by
  intro i hi
  have hs2 : (s : ℂ) * s = 1 := by rcases hs with rfl | rfl <;> norm_num
  have hsn : ‖(s : ℂ)‖ = 1 := by rcases hs with rfl | rfl <;> simp
  have hq := bwDigital_norm (φ := φ) (o := o) (i := i) h16 (by omega) h1 h2
  have hq' : ‖(s : ℂ) * bwDigital φ o i‖ ≤ 1 := by rw [norm_mul, hsn, one_mul]; refine hq.trans (by norm_num)
  have near : ∀ {c : ℂ}, ‖s * c - bwDigital φ o i‖ ≤ 1 / 2 ^ 40 → ‖c - s * bwDigital φ o i‖ ≤ 1 / 2 ^ 40 := by
    intro c hc
    have e : c - s * bwDigital φ o i = s * (s * c - bwDigital φ o i) := by rw [mul_sub, ← mul_assoc, hs2, one_mul]
    rw [e, norm_mul, hsn, one_mul]; exact hc
  unfold bwK
  split_ifs with h3
  · obtain ⟨p, z, e, a, ⟨b1, b2, b3⟩, c⟩ := h.two i (by omega)
    exact ⟨_, e, .two a b1 b2 b3 hq' (near c)⟩
  · obtain rfl : i = o / 2 := by omega
    obtain ⟨p, z, e, a, ⟨b1, b2⟩, -, c⟩ := h.one (by omega)
    exact ⟨_, e, .one a b1 b2 hq' (near c)⟩

end Iir
