import Verif.Exact.Mag
import Verif.Math.Band

/-! # Frequencies in the prototypes' scale, and gains of set up filters -/

set_option linter.unusedSectionVars false

namespace Iir
open FArith Cx Exec Spec XR

variable {S : Type → Type} [StateType S XR] {T : Type} [Sample T XR] {n o : ℕ}

theorem Spec.GainSq.unique {f : PoleFilter S XR} {fr v v' : ℝ} (h : GainSq f fr v) (h' : GainSq f fr v') : v = v' := by
  obtain ⟨z, e, rfl⟩ := h
  obtain ⟨z', e', rfl⟩ := h'
  rw [e] at e'
  injection e' with e'
  injection e' with e1 e2
  have : z = z' := Complex.ext (XR.fin.inj e1) (XR.fin.inj e2)
  rw [this]

theorem Spec.AfterSetup.mono {call : Call XR} {P Q : PoleFilter S XR → Prop} (h : AfterSetup S T n call P)
    (hPQ : ∀ f, P f → Q f) : AfterSetup S T n call Q := fun f hf => by
  obtain ⟨f', e, hs, hp⟩ := h f hf
  exact ⟨f', e, hs, hPQ f' hp⟩

/-! ## Band edges -/

theorem edgeLo_eq (fc fw : ℝ) : edgeLo fc fw = 2 * Real.pi * bandLo fc fw := by
  have hpi := Real.pi_pos
  rw [edgeLo, bandLo, mul_max_of_nonneg _ _ (by positivity)]
  congr 1
  · ring
  · field_simp

theorem edgeHi_eq (fc fw : ℝ) : edgeHi fc fw = 2 * Real.pi * bandHi fc fw := by
  have hpi := Real.pi_pos
  rw [edgeHi, bandHi, mul_min_of_nonneg _ _ (by positivity)]
  congr 1
  · ring
  · field_simp

theorem edgeHalf_eq (fc fw : ℝ) : edgeHalf fc fw = Real.pi * (bandHi fc fw - bandLo fc fw) := by
  rw [edgeHalf, edgeLo_eq, edgeHi_eq]; ring

theorem edgeMid_eq (fc fw : ℝ) : edgeMid fc fw = Real.pi * (bandLo fc fw + bandHi fc fw) := by
  rw [edgeMid, edgeLo_eq, edgeHi_eq]; ring

theorem edge_lt {fc fw : ℝ} (h : bandLo fc fw < bandHi fc fw) : edgeLo fc fw < edgeHi fc fw := by
  rw [edgeLo_eq, edgeHi_eq]
  exact (mul_lt_mul_iff_right₀ (by have := Real.pi_pos; positivity)).2 h

/-! ## The abscissas of the four transforms -/

theorem low_xy (fc f : ℝ) :
    Real.sin (Real.pi * f) / (Real.tan (Real.pi * fc) * Real.cos (Real.pi * f)) = lowRatio fc f := by
  rw [lowRatio, Real.tan_eq_sin_div_cos (Real.pi * f), div_div, mul_comm (Real.cos _)]

theorem low_y_ne {fc f : ℝ} (h0 : 0 < fc) (h1 : fc < 1 / 2) (hf0 : 0 ≤ f) (hf1 : f < 1 / 2) :
    Real.tan (Real.pi * fc) * Real.cos (Real.pi * f) ≠ 0 :=
  (mul_pos (tanpi_pos h0 h1) (cos_pi_pos hf0 hf1)).ne'

theorem sin_pi_pos {f : ℝ} (h0 : 0 < f) (h1 : f ≤ 1 / 2) : 0 < Real.sin (Real.pi * f) :=
  Real.sin_pos_of_pos_of_lt_pi (mul_pos Real.pi_pos h0) (by nlinarith [Real.pi_pos])

theorem high_xy {fc f : ℝ} (hf0 : 0 < f) (hf1 : f < 1 / 2) (h0 : 0 < fc) (h1 : fc < 1 / 2) :
    -Real.cos (Real.pi * f) / (1 / Real.tan (Real.pi * fc) * Real.sin (Real.pi * f)) = -highRatio fc f := by
  have hc := (cos_pi_pos hf0.le hf1).ne'
  have hs := (sin_pi_pos hf0 hf1.le).ne'
  have ht := (tanpi_pos h0 h1).ne'
  rw [highRatio, Real.tan_eq_sin_div_cos (Real.pi * f), neg_div]
  field_simp

theorem high_y_ne {fc f : ℝ} (h0 : 0 < fc) (h1 : fc < 1 / 2) (hf0 : 0 < f) (hf1 : f ≤ 1 / 2) :
    1 / Real.tan (Real.pi * fc) * Real.sin (Real.pi * f) ≠ 0 :=
  (mul_pos (one_div_pos.2 (tanpi_pos h0 h1)) (sin_pi_pos hf0 hf1)).ne'

section
variable {fc fw f : ℝ} (he : bandLo fc fw < bandHi fc fw)
include he

theorem bp_xy : 1 / Real.tan (edgeHalf fc fw) * (bandA fc fw - Real.cos (2 * Real.pi * f)) /
    Real.sin (2 * Real.pi * f) = bandRatio (bandLo fc fw) (bandHi fc fw) f := by
  have hs : Real.sin (edgeHalf fc fw) ≠ 0 := by rw [edgeHalf_eq]; exact (band_of he).sin_pos.ne'
  have hc := (cos_edgeHalf_pos (edge_lt he)).ne'
  rw [bandRatio, ← edgeHalf_eq, ← edgeMid_eq, bandA, Real.tan_eq_sin_div_cos]
  rw [div_mul_eq_div_div]
  congr 1
  field_simp

theorem bs_yx (h0 : 0 < f) (h1 : f < 1 / 2) : (Real.cos (2 * Real.pi * f) - bandA fc fw) /
    (Real.tan (edgeHalf fc fw) * Real.sin (2 * Real.pi * f)) = -bandRatio (bandLo fc fw) (bandHi fc fw) f := by
  have ht := (tan_edgeHalf_pos (edge_lt he)).ne'
  have hs := (sin_2pi_pos h0 h1).ne'
  rw [← bp_xy he]
  field_simp
  ring

theorem bs_x_ne (h0 : 0 < f) (h1 : f < 1 / 2) : Real.tan (edgeHalf fc fw) * Real.sin (2 * Real.pi * f) ≠ 0 :=
  (mul_pos (tan_edgeHalf_pos (edge_lt he)) (sin_2pi_pos h0 h1)).ne'

/-- at 0 and 1/2 -/
theorem bp_ends : 1 / Real.tan (edgeHalf fc fw) * (bandA fc fw - 1) ≠ 0 ∧
    1 / Real.tan (edgeHalf fc fw) * (bandA fc fw - -1) ≠ 0 ∧ 1 - bandA fc fw ≠ 0 ∧ -1 - bandA fc fw ≠ 0 := by
  have ht := (one_div_pos.2 (tan_edgeHalf_pos (edge_lt he))).ne'
  have ha := abs_lt.1 (abs_bandA_lt (edge_lt he))
  exact ⟨mul_ne_zero ht (by linarith), mul_ne_zero ht (by linarith), by linarith, by linarith⟩

end

theorem two_pi_half : 2 * Real.pi * (1 / 2 : ℝ) = Real.pi := by ring

/-! ## Gains of the designs from those of the prototype -/

/-- Normalised gain of the prototype at `i x / y`, as a function of `x / y` and of `y / x`. -/
structure Analog.Shape (A : Analog) (sh : Bool) (g0 : ℝ) (Φ Ψ : ℝ → ℝ) : Prop where
  phi : ∀ x y, y ≠ 0 → g0 ^ 2 * (A.mag x y / A.mag0 sh) = Φ (x / y)
  psi : ∀ x y, x ≠ 0 → g0 ^ 2 * (A.mag x y / A.mag0 sh) = Ψ (y / x)
  even : (∀ t, Φ (-t) = Φ t) ∧ ∀ t, Ψ (-t) = Ψ t
  ne : A.mag0 sh ≠ 0

variable {call : Call XR} {d : Design XR} {A : Analog} {g0 fc fw : ℝ} {sh : Bool} {Φ Ψ : ℝ → ℝ}

theorem Spec.shape_low (hask : Asks call n o d) (hp : IsProto d n o A (normW sh) g0) (hs : A.Shape sh g0 Φ Ψ)
    (hd : d.trans = lowPassTransform (fin fc)) (hm : d.cls.mult = 1) (h0 : 0 < fc) (h1 : fc < 1 / 2) :
    AfterSetup S T n call (LowShape Φ (Ψ 0) ((o + 1) / 2) fc) := by
  refine (Spec.after_lowPass hask hp hd hm h0 h1 hs.ne).mono fun f hf => ⟨hf.stages, hf.stable, fun fr a b => ?_, ?_⟩
  · have := hf.gain fr a b.le
    rwa [hs.phi _ _ (low_y_ne h0 h1 a b), low_xy] at this
  · have := hf.gain (1 / 2) (by norm_num) le_rfl
    rw [show Real.pi * (1 / 2) = Real.pi / 2 by ring, Real.sin_pi_div_two, Real.cos_pi_div_two, mul_zero,
      hs.psi _ _ one_ne_zero, zero_div] at this
    exact this

theorem Spec.shape_high (hask : Asks call n o d) (hp : IsProto d n o A (normW sh) g0) (hs : A.Shape sh g0 Φ Ψ)
    (hd : d.trans = highPassTransform (fin fc)) (hm : d.cls.mult = 1) (h0 : 0 < fc) (h1 : fc < 1 / 2) :
    AfterSetup S T n call (HighShape Φ (Ψ 0) ((o + 1) / 2) fc) := by
  refine (Spec.after_highPass hask hp hd hm h0 h1 hs.ne).mono fun f hf =>
    ⟨hf.stages, hf.stable, fun fr a b => ?_, ?_, ?_⟩
  · have := hf.gain fr a.le b.le
    rwa [hs.phi _ _ (high_y_ne h0 h1 a b.le), high_xy a b h0 h1, hs.even.1] at this
  · have := hf.gain 0 le_rfl (by norm_num)
    rw [mul_zero, Real.sin_zero, Real.cos_zero, mul_zero, hs.psi _ _ (by norm_num), zero_div] at this
    exact this
  · have := hf.gain (1 / 2) (by norm_num) le_rfl
    have hy := high_y_ne (f := 1 / 2) h0 h1 (by norm_num) le_rfl
    rw [hs.phi _ _ hy, show Real.pi * (1 / 2) = Real.pi / 2 by ring, Real.cos_pi_div_two, neg_zero, zero_div] at this
    exact this

theorem Spec.BandShape.of_result (he : bandLo fc fw < bandHi fc fw) (hs : A.Shape sh g0 Φ Ψ)
    {f : PoleFilter S XR} (hf : Result o g0 A sh
      (fun fr => 1 / Real.tan (edgeHalf fc fw) * (bandA fc fw - Real.cos (2 * Real.pi * fr)))
      (fun fr => Real.sin (2 * Real.pi * fr)) f) :
    BandShape Φ (Ψ 0) o (bandLo fc fw) (bandHi fc fw) f := by
  obtain ⟨e1, e2, e3, e4⟩ := bp_ends he
  refine ⟨hf.stages, hf.stable, fun fr a b => ?_, ?_, ?_⟩
  · have := hf.gain fr a.le b.le
    rwa [hs.phi _ _ (sin_2pi_pos a b).ne', bp_xy he] at this
  · have := hf.gain 0 le_rfl (by norm_num)
    rw [mul_zero, Real.sin_zero, Real.cos_zero, hs.psi _ _ e1, zero_div] at this
    exact this
  · have := hf.gain (1 / 2) (by norm_num) le_rfl
    rw [two_pi_half, Real.sin_pi, Real.cos_pi, hs.psi _ _ e2, zero_div] at this
    exact this

theorem Spec.shape_bandPass (hask : Asks call n o d) (hp : IsProto d n o A (normW false) g0)
    (hs : A.Shape false g0 Φ Ψ)
    (hd : d.trans = bandPassTransform (fin fc) (fin fw)) (hm : d.cls.mult = 2) (h0 : 0 ≤ fc) (h1 : fc < 1 / 2)
    (he : bandLo fc fw < bandHi fc fw) (hodd : A.NoReal (1 / Real.tan (edgeHalf fc fw))) :
    AfterSetup S T n call (BandShape Φ (Ψ 0) o (bandLo fc fw) (bandHi fc fw)) :=
  (Spec.after_bandPass hask hp hd hm h0 h1 (edge_lt he) hodd hs.ne).mono fun _ hf => .of_result he hs hf

theorem Spec.shape_bandShelf (hask : Asks call n o d) (hp : IsProto d n o A (normW sh) g0)
    (hs : A.Shape true 1 Φ Ψ)
    (hd : d.trans = bandShelfTransform (fin fc) (fin fw)) (hm : d.cls.mult = 2) (h0 : 0 ≤ fc) (h1 : fc < 1 / 2)
    (he : bandLo fc fw < bandHi fc fw) (hodd : A.NoReal (1 / Real.tan (edgeHalf fc fw))) :
    AfterSetup S T n call (BandShape Φ (Ψ 0) o (bandLo fc fw) (bandHi fc fw)) :=
  (Spec.after_bandShelf hask hp hd hm h0 h1 (edge_lt he) hodd hs.ne).mono fun _ hf => .of_result he hs hf

theorem Spec.shape_bandStop (hask : Asks call n o d) (hp : IsProto d n o A (normW sh) g0)
    (hs : A.Shape false g0 Φ Ψ)
    (hd : d.trans = bandStopTransform (fin fc) (fin fw)) (hm : d.cls.mult = 2) (h0 : 0 ≤ fc) (h1 : fc < 1 / 2)
    (he : bandLo fc fw < bandHi fc fw) (hodd : A.NoReal (Real.tan (edgeHalf fc fw))) :
    AfterSetup S T n call (BandShape Ψ (Φ 0) o (bandLo fc fw) (bandHi fc fw)) := by
  obtain ⟨e1, e2, e3, e4⟩ := bp_ends he
  refine (Spec.after_bandStop hask hp hd hm h0 h1 (edge_lt he) hodd hs.ne).mono fun f hf =>
    ⟨hf.stages, hf.stable, fun fr a b => ?_, ?_, ?_⟩
  · have := hf.gain fr a.le b.le
    rwa [hs.psi _ _ (bs_x_ne he a b), bs_yx he a b, hs.even.2] at this
  · have := hf.gain 0 le_rfl (by norm_num)
    rw [mul_zero, Real.sin_zero, Real.cos_zero, hs.phi _ _ e3, mul_zero, zero_div] at this
    exact this
  · have := hf.gain (1 / 2) (by norm_num) le_rfl
    rw [two_pi_half, Real.sin_pi, Real.cos_pi, hs.phi _ _ e4, mul_zero, zero_div] at this
    exact this

/-! ## The five shapes -/

theorem even_pow_two_mul (o : ℕ) (t : ℝ) : (-t) ^ (2 * o) = t ^ (2 * o) := (even_two_mul o).neg_pow t

theorem butterworth_shape (ho : 1 ≤ o) : (butterworth o).Shape false 1
    (fun t => 1 / (1 + t ^ (2 * o))) (fun t => t ^ (2 * o) / (1 + t ^ (2 * o))) where
  phi x y hy := by
    have hy2 : y ^ (2 * o) ≠ 0 := pow_ne_zero _ hy
    simp only [Analog.mag0, Bool.false_eq_true, if_false, butterworth_mag ho]
    rw [zero_pow (by omega), one_pow, div_pow]
    have : 0 < y ^ (2 * o) := lt_of_le_of_ne ((even_two_mul o).pow_nonneg y) hy2.symm
    have : 0 ≤ x ^ (2 * o) := (even_two_mul o).pow_nonneg x
    field_simp; ring
  psi x y hx := by
    have hx2 : x ^ (2 * o) ≠ 0 := pow_ne_zero _ hx
    simp only [Analog.mag0, Bool.false_eq_true, if_false, butterworth_mag ho]
    rw [zero_pow (by omega), one_pow, div_pow]
    have : 0 < x ^ (2 * o) := lt_of_le_of_ne ((even_two_mul o).pow_nonneg x) hx2.symm
    have : 0 ≤ y ^ (2 * o) := (even_two_mul o).pow_nonneg y
    field_simp; ring
  even := by simp only [even_pow_two_mul, implies_true, and_self]
  ne := by
    simp only [Analog.mag0, Bool.false_eq_true, if_false, butterworth_mag ho]
    rw [zero_pow (by omega), one_pow]; norm_num

theorem butterworthShelf_shape (ho : 1 ≤ o) (gainDb : ℝ) :
    (butterworthShelf o (bwShelfRoot o gainDb)).Shape true 1
    (fun t => (t ^ (2 * o) + ofDb gainDb) / (t ^ (2 * o) + 1 / ofDb gainDb))
    (fun t => (1 + ofDb gainDb * t ^ (2 * o)) / (1 + 1 / ofDb gainDb * t ^ (2 * o))) := by
  have hg := ofDb_pos gainDb
  have e : ∀ x y, (butterworthShelf o (bwShelfRoot o gainDb)).mag x y =
      (x ^ (2 * o) + ofDb gainDb * y ^ (2 * o)) / (x ^ (2 * o) + 1 / ofDb gainDb * y ^ (2 * o)) := by
    intro x y
    rw [butterworthShelf_mag ho, mul_pow, mul_pow, one_div_pow, bwShelfRoot_pow ho, ofDb]
  have h0 : (butterworthShelf o (bwShelfRoot o gainDb)).mag0 true = 1 := by
    simp only [Analog.mag0, if_true, e]
    rw [zero_pow (by omega), one_pow]; simp
  refine ⟨fun x y hy => ?_, fun x y hx => ?_, by simp only [even_pow_two_mul, implies_true, and_self], by rw [h0]; exact one_ne_zero⟩
  · have hy2 : y ^ (2 * o) ≠ 0 := pow_ne_zero _ hy
    rw [h0, e, div_pow, one_pow, one_mul, div_one, ← div_div_div_cancel_right₀ hy2]
    congr 1
    · rw [add_div, mul_div_cancel_right₀ _ hy2]
    · rw [add_div, mul_div_cancel_right₀ _ hy2]
  · have hx2 : x ^ (2 * o) ≠ 0 := pow_ne_zero _ hx
    rw [h0, e, div_pow, one_pow, one_mul, div_one, ← div_div_div_cancel_right₀ hx2]
    congr 1
    · rw [add_div, div_self hx2, mul_div_assoc]
    · rw [add_div, div_self hx2, mul_div_assoc]

theorem c1Gain_sq (o : ℕ) (r : ℝ) : c1Gain o r ^ 2 * (1 + ((10 : ℝ) ^ (r / 10) - 1) * chebT o 0 ^ 2) = 1 := by
  unfold c1Gain
  rw [chebT_zero_sq]
  split_ifs with h
  · norm_num
  · have : ((10 : ℝ) ^ (-r / 20)) ^ 2 = ((10 : ℝ) ^ (r / 10))⁻¹ := by
      rw [← Real.rpow_natCast, ← Real.rpow_mul (by norm_num), ← Real.rpow_neg (by norm_num)]
      congr 1; push_cast; ring
    rw [this, mul_one, add_sub_cancel, inv_mul_cancel₀ (by positivity)]

theorem chebyshevI_shape (ho : 1 ≤ o) {r : ℝ} (hr : 0 < r) :
    (chebyshevI o (chebV o (chebEps r))).Shape false (c1Gain o r) (cheb1 o r)
      (fun t => if t = 0 then 0 else cheb1 o r (1 / t)) := by
  have hE := chebEps_pos hr
  have hE2 := chebEps_sq hr
  have e : ∀ x y, y ≠ 0 → (chebyshevI o (chebV o (chebEps r))).mag x y =
      2 ^ (2 * o - 2) * chebEps r ^ 2 * cheb1 o r (x / y) := by
    intro x y hy
    rw [chebyshevI_mag ho _ _ hy, sinh_chebV ho, cheb1, ← hE2]
    have : 0 < 1 + chebEps r ^ 2 * chebT o (x / y) ^ 2 := by positivity
    field_simp; ring
  have hpos : ∀ t, 0 < 1 + ((10 : ℝ) ^ (r / 10) - 1) * chebT o t ^ 2 := fun t => by rw [← hE2]; positivity
  have h0 : (chebyshevI o (chebV o (chebEps r))).mag0 false = 2 ^ (2 * o - 2) * chebEps r ^ 2 * c1Gain o r ^ 2 := by
    simp only [Analog.mag0, Bool.false_eq_true, if_false]
    rw [e _ _ one_ne_zero, zero_div, cheb1, one_div, inv_eq_of_mul_eq_one_left (c1Gain_sq o r)]
  have hg : c1Gain o r ≠ 0 := by unfold c1Gain; split_ifs <;> positivity
  have hphi : ∀ x y, y ≠ 0 → c1Gain o r ^ 2 * ((chebyshevI o (chebV o (chebEps r))).mag x y /
      (chebyshevI o (chebV o (chebEps r))).mag0 false) = cheb1 o r (x / y) := by
    intro x y hy
    rw [h0, e x y hy]
    field_simp
  refine ⟨hphi, fun x y hx => ?_, ⟨fun t => ?_, fun t => ?_⟩, by rw [h0]; positivity⟩
  · by_cases hy : y = 0
    · rw [hy, zero_div, if_pos rfl, chebyshevI_mag_zero ho, zero_div, mul_zero]
    · rw [hphi x y hy, if_neg (div_ne_zero hy hx), one_div_div]
  · rw [cheb1, cheb1, chebT_neg_sq]
  · simp only [neg_eq_zero]
    rw [one_div_neg_eq_neg_one_div, cheb1, cheb1, chebT_neg_sq]

theorem chebyshevII_shape (ho : 1 ≤ o) {r : ℝ} (hr : 0 < r) :
    (chebyshevII o (chebV o (chebEpsII r))).Shape false 1
      (fun t => if t = 0 then 1 else cheb2 o r (1 / t)) (cheb2 o r) := by
  have hV := chebV_pos ho (chebEpsII_pos hr)
  have hE2 := chebEps_sq hr
  have hne := chebyshevII_mag0_ne o hV
  have hpsi : ∀ x y, x ≠ 0 → 1 ^ 2 * ((chebyshevII o (chebV o (chebEpsII r))).mag x y /
      (chebyshevII o (chebV o (chebEpsII r))).mag0 false) = cheb2 o r (y / x) := by
    intro x y hx
    simp only [Analog.mag0, Bool.false_eq_true, if_false]
    rw [chebyshevII_mag ho hV hx, mul_div_cancel_left₀ _ hne, sinh_chebV ho, chebEpsII, one_div_one_div, hE2,
      one_pow, one_mul, cheb2]
  refine ⟨fun x y hy => ?_, hpsi, ⟨fun t => ?_, fun t => ?_⟩, ?_⟩
  · by_cases hx : x = 0
    · simp only [Analog.mag0, Bool.false_eq_true, if_false]
      rw [hx, zero_div, if_pos rfl, chebyshevII_mag_zero _ _ hy, div_self hne]; norm_num
    · rw [hpsi x y hx, if_neg (div_ne_zero hx hy), one_div_div]
  · simp only [neg_eq_zero]
    rw [one_div_neg_eq_neg_one_div, cheb2, cheb2, chebT_neg_sq]
  · rw [cheb2, cheb2, chebT_neg_sq]
  · simpa only [Analog.mag0, Bool.false_eq_true, if_false] using hne

/-- Chebyshev shelf gain -/
noncomputable def shelfPhi (o : ℕ) (G r t : ℝ) : ℝ :=
  (1 + shelfEps G r ^ 2 * chebT o t ^ 2) / (shelfG G ^ 2 + shelfEps G r ^ 2 * chebT o t ^ 2)

theorem chebyshevShelf_shape (ho : 1 ≤ o) {G r : ℝ} (hr : 0 < r) (hrG : r < |G|) :
    (chebyshevShelf o (chebV o (shelfEps G r / shelfG G)) (chebV o (shelfEps G r))).Shape true 1
      (shelfPhi o G r) (fun t => if t = 0 then 1 else shelfPhi o G r (1 / t)) := by
  have hE := shelfEps_pos hr hrG
  have hG := shelfG_pos G
  have h0 : (chebyshevShelf o (chebV o (shelfEps G r / shelfG G)) (chebV o (shelfEps G r))).mag0 true = 1 := by
    simp only [Analog.mag0, if_true]
    exact chebyshevShelf_mag_zero _ _ _ one_ne_zero
  have hphi : ∀ x y, y ≠ 0 → 1 ^ 2 * ((chebyshevShelf o (chebV o (shelfEps G r / shelfG G))
      (chebV o (shelfEps G r))).mag x y /
      (chebyshevShelf o (chebV o (shelfEps G r / shelfG G)) (chebV o (shelfEps G r))).mag0 true) =
      shelfPhi o G r (x / y) := by
    intro x y hy
    rw [h0, chebyshevShelf_mag ho _ _ _ hy, sinh_chebV ho, sinh_chebV ho, one_pow, one_mul, div_one, shelfPhi,
      one_div_div]
    generalize chebT o (x / y) = t
    have : 0 < shelfG G ^ 2 + shelfEps G r ^ 2 * t ^ 2 := by positivity
    have : 0 < t ^ 2 + (shelfG G / shelfEps G r) ^ 2 := by positivity
    field_simp
    ring
  refine ⟨hphi, fun x y hx => ?_, ⟨fun t => ?_, fun t => ?_⟩, by rw [h0]; exact one_ne_zero⟩
  · by_cases hy : y = 0
    · rw [hy, zero_div, if_pos rfl, h0, chebyshevShelf_mag_zero _ _ _ hx]; norm_num
    · rw [hphi x y hy, if_neg (div_ne_zero hy hx), one_div_div]
  · rw [shelfPhi, shelfPhi, chebT_neg_sq]
  · simp only [neg_eq_zero]
    rw [one_div_neg_eq_neg_one_div, shelfPhi, shelfPhi, chebT_neg_sq]

end Iir
