import Verif.Exact.Ratio
import Verif.Spec.Transfer
import Verif.Props.Stable

/-! # Complex responses of the designs from the prototypes -/

set_option linter.unusedSectionVars false

namespace Iir
open FArith Cx Exec Spec XR Finset

variable {S : Type → Type} [StateType S XR] {T : Type} [Sample T XR] {n o : ℕ}

/-- Normalised value of the prototype at `i x / y`, and at infinity. -/
structure Analog.Transfer (A : Analog) (sh : Bool) (g : ℝ) (H : ℂ → ℂ) (v : ℂ) : Prop where
  at' : ∀ x y : ℝ, y ≠ 0 → g * (A.val x y / A.val0 sh) = H (Complex.I * (x / y : ℝ))
  inf : ∀ x : ℝ, x ≠ 0 → g * (A.val x 0 / A.val0 sh) = v

variable {call : Call XR} {d : Design XR} {A : Analog} {g0 fc fw : ℝ} {sh : Bool} {H : ℂ → ℂ} {v : ℂ}

theorem Spec.transfer_low (ht : A.Transfer sh g0 H v) (hask : Asks call n o d)
    (hp : IsProto d n o A (normW sh) g0) (hne : A.mag0 sh ≠ 0)
    (hd : d.trans = lowPassTransform (fin fc)) (hm : d.cls.mult = 1) (hc : ValidCut fc) :
    AfterSetup S T n call (LowResponse H v fc) := by
  refine (Spec.after_lowPass hask hp hd hm hc.1 hc.2 hne).mono fun f hf => ⟨fun fr a b => ?_, ?_⟩
  · have := hf.value fr a b.le
    rwa [ht.at' _ _ (low_y_ne hc.1 hc.2 a b), low_xy] at this
  · have := hf.value (1 / 2) (by norm_num) le_rfl
    rw [show Real.pi * (1 / 2) = Real.pi / 2 by ring, Real.sin_pi_div_two, Real.cos_pi_div_two, mul_zero,
      ht.inf _ one_ne_zero] at this
    exact this

theorem I_mul_neg_highRatio {fr : ℝ} (hc : ValidCut fc) (a : 0 < fr) (b : fr < 1 / 2) :
    Complex.I * ((-highRatio fc fr : ℝ) : ℂ) = 1 / (Complex.I * lowRatio fc fr) := by
  have h1 := (tanpi_pos hc.1 hc.2).ne'
  have h2 := (tanpi_pos a b).ne'
  have h1' : (Real.tan (Real.pi * fc) : ℂ) ≠ 0 := by exact_mod_cast h1
  have h2' : (Real.tan (Real.pi * fr) : ℂ) ≠ 0 := by exact_mod_cast h2
  rw [highRatio, lowRatio, Complex.ofReal_neg, Complex.ofReal_div, Complex.ofReal_div]
  have := Complex.I_ne_zero
  field_simp
  rw [Complex.I_sq]; ring

theorem Spec.transfer_high (ht : A.Transfer sh g0 H v) (hask : Asks call n o d)
    (hp : IsProto d n o A (normW sh) g0) (hne : A.mag0 sh ≠ 0)
    (hd : d.trans = highPassTransform (fin fc)) (hm : d.cls.mult = 1) (hc : ValidCut fc) :
    AfterSetup S T n call (HighResponse H v fc) := by
  refine (Spec.after_highPass hask hp hd hm hc.1 hc.2 hne).mono fun f hf => ⟨fun fr a b => ?_, ?_, ?_⟩
  · have := hf.value fr a.le b.le
    rwa [ht.at' _ _ (high_y_ne hc.1 hc.2 a b.le), high_xy a b hc.1 hc.2, I_mul_neg_highRatio hc a b] at this
  · have := hf.value 0 le_rfl (by norm_num)
    rw [mul_zero, Real.sin_zero, Real.cos_zero, mul_zero, ht.inf _ (by norm_num)] at this
    exact this
  · have := hf.value (1 / 2) (by norm_num) le_rfl
    have hy := high_y_ne (f := 1 / 2) hc.1 hc.2 (by norm_num) le_rfl
    rw [ht.at' _ _ hy, show Real.pi * (1 / 2) = Real.pi / 2 by ring, Real.cos_pi_div_two, neg_zero, zero_div,
      Complex.ofReal_zero, mul_zero] at this
    exact this

theorem Spec.transfer_band (he : bandLo fc fw < bandHi fc fw) (ht : A.Transfer sh g0 H v)
    {f : PoleFilter S XR} (hf : Result o g0 A sh
      (fun fr => 1 / Real.tan (edgeHalf fc fw) * (bandA fc fw - Real.cos (2 * Real.pi * fr)))
      (fun fr => Real.sin (2 * Real.pi * fr)) f) :
    BandResponse H v (bandLo fc fw) (bandHi fc fw) f := by
  obtain ⟨e1, e2, e3, e4⟩ := bp_ends he
  refine ⟨fun fr a b => ?_, ?_, ?_⟩
  · have := hf.value fr a.le b.le
    rwa [ht.at' _ _ (sin_2pi_pos a b).ne', bp_xy he] at this
  · have := hf.value 0 le_rfl (by norm_num)
    rw [mul_zero, Real.sin_zero, Real.cos_zero, ht.inf _ e1] at this
    exact this
  · have := hf.value (1 / 2) (by norm_num) le_rfl
    rw [two_pi_half, Real.sin_pi, Real.cos_pi, ht.inf _ e2] at this
    exact this

theorem Spec.transfer_bandPass (ht : A.Transfer false g0 H v) (hask : Asks call n o d)
    (hp : IsProto d n o A (normW false) g0) (hne : A.mag0 false ≠ 0)
    (hd : d.trans = bandPassTransform (fin fc) (fin fw)) (hm : d.cls.mult = 2) (h0 : 0 ≤ fc) (h1 : fc < 1 / 2)
    (he : bandLo fc fw < bandHi fc fw) (hodd : A.NoReal (1 / Real.tan (edgeHalf fc fw))) :
    AfterSetup S T n call (BandResponse H v (bandLo fc fw) (bandHi fc fw)) :=
  (Spec.after_bandPass hask hp hd hm h0 h1 (edge_lt he) hodd hne).mono fun _ hf => transfer_band he ht hf

theorem Spec.transfer_bandShelf (ht : A.Transfer true 1 H v) (hask : Asks call n o d)
    (hp : IsProto d n o A (normW sh) g0) (hne : A.mag0 true ≠ 0)
    (hd : d.trans = bandShelfTransform (fin fc) (fin fw)) (hm : d.cls.mult = 2) (h0 : 0 ≤ fc) (h1 : fc < 1 / 2)
    (he : bandLo fc fw < bandHi fc fw) (hodd : A.NoReal (1 / Real.tan (edgeHalf fc fw))) :
    AfterSetup S T n call (BandResponse H v (bandLo fc fw) (bandHi fc fw)) :=
  (Spec.after_bandShelf hask hp hd hm h0 h1 (edge_lt he) hodd hne).mono fun _ hf => transfer_band he ht hf

theorem Spec.transfer_bandStop (ht : A.Transfer false g0 H v) (hask : Asks call n o d)
    (hp : IsProto d n o A (normW sh) g0) (hne : A.mag0 false ≠ 0)
    (hd : d.trans = bandStopTransform (fin fc) (fin fw)) (hm : d.cls.mult = 2) (h0 : 0 ≤ fc) (h1 : fc < 1 / 2)
    (he : bandLo fc fw < bandHi fc fw) (hodd : A.NoReal (Real.tan (edgeHalf fc fw))) :
    AfterSetup S T n call (StopResponse H v (bandLo fc fw) (bandHi fc fw)) := by
  obtain ⟨e1, e2, e3, e4⟩ := bp_ends he
  refine (Spec.after_bandStop hask hp hd hm h0 h1 (edge_lt he) hodd hne).mono fun f hf =>
    ⟨fun fr a b hb => ?_, fun fr a b hb => ?_, ?_, ?_⟩
  · have := hf.value fr a.le b.le
    have hx := bs_x_ne he a b
    have hyx := bs_yx he a b
    have hy : Real.cos (2 * Real.pi * fr) - bandA fc fw ≠ 0 := fun h => by
      rw [h, zero_div] at hyx; exact hb (by linarith)
    rw [ht.at' _ _ hy, ← one_div_div, hyx] at this
    have e : Complex.I * ((1 / -bandRatio (bandLo fc fw) (bandHi fc fw) fr : ℝ) : ℂ) =
        1 / (Complex.I * bandRatio (bandLo fc fw) (bandHi fc fw) fr) := by
      have hb' : (bandRatio (bandLo fc fw) (bandHi fc fw) fr : ℂ) ≠ 0 := by exact_mod_cast hb
      rw [Complex.ofReal_div, Complex.ofReal_neg, Complex.ofReal_one]
      have := Complex.I_ne_zero
      field_simp
      rw [Complex.I_sq, neg_neg]
    rwa [e] at this
  · have := hf.value fr a.le b.le
    have hx := bs_x_ne he a b
    have hyx := bs_yx he a b
    rw [hb, neg_zero, div_eq_zero_iff] at hyx
    rw [hyx.resolve_right hx, ht.inf _ hx] at this
    exact this
  · have := hf.value 0 le_rfl (by norm_num)
    rw [mul_zero, Real.sin_zero, Real.cos_zero, ht.at' _ _ e3, mul_zero, zero_div, Complex.ofReal_zero, mul_zero] at this
    exact this
  · have := hf.value (1 / 2) (by norm_num) le_rfl
    rw [two_pi_half, Real.sin_pi, Real.cos_pi, ht.at' _ _ e4, mul_zero, zero_div, Complex.ofReal_zero, mul_zero] at this
    exact this

/-! ## The prototypes -/

theorem Analog.val_prod (A : Analog) (x y : ℝ) : A.val x y = ∏ k ∈ range A.n,
    form (A.zero k) (Complex.I * x) y / (Complex.I * x - A.pole k * y) := by
  rw [Analog.val, Analog.Z, Analog.P, prod_div_distrib]
  rfl

/-- homogeneous: only `x / y` matters -/
theorem Analog.val_div (A : Analog) {x y : ℝ} (hy : y ≠ 0) : A.val x y = A.val (x / y) 1 := by
  have := A.val_smul hy (x / y) 1
  rwa [mul_div_cancel₀ _ hy, mul_one] at this

theorem Analog.val_inf_smul (A : Analog) {x : ℝ} (hx : x ≠ 0) : A.val x 0 = A.val 1 0 := by
  have := A.val_smul hx 1 0
  rwa [mul_one, mul_zero] at this

theorem bwPole_spec (o k : ℕ) (ho : 1 ≤ o) : Spec.bwPole o k = (butterworth o).pole k := by
  have : (o : ℂ) ≠ 0 := by exact_mod_cast (by omega : o ≠ 0)
  simp only [Spec.bwPole, butterworth, angle]
  congr 1
  push_cast
  field_simp; ring

theorem chebAngle_eq (o k : ℕ) : chebAngle o k = angle o k := by rw [chebAngle, angle]; ring

theorem ellipse_eq (o : ℕ) (v : ℝ) (k : ℕ) : ellipse o v k = chebPole o v k := by
  rw [ellipse, chebPole, chebAngle_eq]
  generalize Real.sinh v = a
  generalize Real.cosh v = b
  generalize Real.sin (angle o k) = s
  generalize Real.cos (angle o k) = c
  apply Complex.ext <;> simp

/-- All-pole prototypes. -/
theorem Analog.transfer_allPole {A : Analog} (hz : ∀ k < A.n, A.zero k = none) (hn : A.n ≠ 0) (g : ℝ) :
    A.Transfer false g (fun s => g * ∏ k ∈ range A.n, -A.pole k / (s - A.pole k)) 0 where
  at' x y hy := by
    congr 1
    simp only [Analog.val0, Bool.false_eq_true, if_false]
    rw [A.val_div hy, A.val_prod, A.val_prod, ← prod_div_distrib]
    refine prod_congr rfl fun k hk => ?_
    have hk' := mem_range.1 hk
    rw [hz k hk']
    simp only [form, Complex.ofReal_one, mul_one, Complex.ofReal_zero, mul_zero, zero_sub]
    rw [div_div_div_eq, one_mul, mul_one]
  inf x hx := by
    rw [A.val_prod, prod_eq_zero (i := 0) (mem_range.2 (by omega)), zero_div, mul_zero]
    rw [hz 0 (by omega)]
    simp [form]

theorem re_neg_ne {z : ℂ} (h : z.re < 0) : z ≠ 0 := fun h0 => by rw [h0] at h; simp at h

theorem bw_transfer (ho : 1 ≤ o) : (butterworth o).Transfer false 1 (bwLow o) 0 := by
  have := Analog.transfer_allPole (A := butterworth o) (fun _ _ => rfl) (by simp only [butterworth]; omega) 1
  convert this using 2 with s
  rw [Complex.ofReal_one, one_mul, bwLow]
  refine prod_congr rfl fun k _ => ?_
  rw [bwPole_spec o k ho]

/-- Conjugation only changes the order of the factors. -/
theorem Analog.Sym.prod_conj {A : Analog} (h : A.Sym) (F : ℂ → ℂ) :
    ∏ k ∈ range A.n, F (starRingEnd ℂ (A.pole k)) = ∏ k ∈ range A.n, F (A.pole k) := by
  rw [← prod_range_reflect]
  refine prod_congr rfl fun k hk => ?_
  have hk' := mem_range.1 hk
  rw [h.pole k hk', Complex.conj_conj]

theorem c1_transfer (ho : 1 ≤ o) (r : ℝ) :
    (chebyshevI o (chebV o (chebEps r))).Transfer false (c1Gain o r) (c1Low o r) 0 := by
  have := Analog.transfer_allPole (A := chebyshevI o (chebV o (chebEps r))) (fun _ _ => rfl)
    (by simp only [chebyshevI]; omega) (c1Gain o r)
  convert this using 2 with s
  rw [c1Low, ← (chebyshevI_sym o _).prod_conj fun p => -p / (s - p)]
  congr 1
  refine prod_congr rfl fun k _ => ?_
  simp only [chebyshevI, Complex.conj_conj, ellipse_eq]
  rfl

/-- Prototypes with as many finite zeros as poles, normalised at infinity. -/
theorem Analog.transfer_shelf {A : Analog} {z : ℕ → ℂ} (hz : ∀ k < A.n, A.zero k = some (z k)) :
    A.Transfer true 1 (fun s => ∏ k ∈ range A.n, (s - z k) / (s - A.pole k)) 1 := by
  have h1 : A.val 1 0 = 1 := by
    rw [A.val_prod]
    refine prod_eq_one fun k hk => ?_
    rw [hz k (mem_range.1 hk)]
    simp [form]
  have h0 : A.val0 true = 1 := by simpa only [Analog.val0, if_true] using h1
  refine ⟨fun x y hy => ?_, fun x hx => ?_⟩
  · rw [h0, div_one, Complex.ofReal_one, one_mul, A.val_div hy, A.val_prod]
    refine prod_congr rfl fun k hk => ?_
    rw [hz k (mem_range.1 hk)]
    simp only [form, Complex.ofReal_one, mul_one]
  · rw [h0, A.val_inf_smul hx, h1]; simp

theorem bwShelfRoot_eq (ho : 1 ≤ o) (g : ℝ) : bwShelfRoot o g = ofDb (g / (2 * o)) := by
  have : (o : ℝ) ≠ 0 := by positivity
  rw [bwShelfRoot, ofDb, ← Real.rpow_mul (by norm_num)]
  congr 1; field_simp

theorem bwShelf_transfer (ho : 1 ≤ o) (g : ℝ) :
    (butterworthShelf o (bwShelfRoot o g)).Transfer true 1 (bwLowShelf o g) 1 := by
  have := Analog.transfer_shelf (A := butterworthShelf o (bwShelfRoot o g)) (fun k _ => rfl)
  convert this using 2 with s
  rw [bwLowShelf, bwShelfRoot_eq ho]
  refine Eq.trans ?_ ((butterworth_sym o).prod_conj fun p =>
    (s - p * (ofDb (g / (2 * o)) : ℝ)) / (s - p * (1 / ofDb (g / (2 * o)) : ℝ))).symm
  refine prod_congr rfl fun k _ => ?_
  rw [bwPole_spec o k ho]
  push_cast
  rw [mul_comm ((ofDb (g / (2 * o)) : ℝ) : ℂ), div_eq_mul_one_div ((butterworth o).pole k)]

theorem chebShelf_transfer {G r : ℝ} (hr : 0 < r) (hG : r < |G|) :
    (chebyshevShelf o (chebV o (shelfEps G r / shelfG G)) (chebV o (shelfEps G r))).Transfer true 1
      (chebLowShelf o G r) 1 := by
  have hs : Real.sqrt (shelfEpsSq G r) = shelfEps G r := by
    rw [shelfEpsSq_eq hr hG, Real.sqrt_sq (shelfEps_pos hr hG).le]
  have := Analog.transfer_shelf
    (A := chebyshevShelf o (chebV o (shelfEps G r / shelfG G)) (chebV o (shelfEps G r))) (fun k _ => rfl)
  convert this using 2 with s
  rw [chebLowShelf, hs, ← shelfG_eq]
  refine prod_congr rfl fun k _ => ?_
  rw [ellipse_eq, ellipse_eq]
  simp only [chebyshevShelf, chebV, one_div_div]

theorem c2_transfer (ho : 1 ≤ o) {r : ℝ} (hr : 0 < r) :
    (chebyshevII o (chebV o (chebEpsII r))).Transfer false 1 (c2Low o r) (c2LowInf o r) := by
  have hv := chebV_pos ho (chebEpsII_pos hr)
  have hV : c2V o r = chebV o (chebEpsII r) := by rw [c2V, chebV, chebEpsII, one_div_one_div, chebEps]
  set V := chebV o (chebEpsII r) with hVdef
  have hp : ∀ k < o, chebPole o V k ≠ 0 := fun k hk => re_neg_ne (chebPole_re_neg hk hv)
  have key : ∀ (k : ℕ), k < o → ∀ X Y : ℂ,
      form ((chebyshevII o V).zero k) X Y / (X - (chebyshevII o V).pole k * Y) /
        (form ((chebyshevII o V).zero k) 0 1 / (0 - (chebyshevII o V).pole k * 1)) =
      (Y + Complex.I * Real.cos (angle o k) * X) / (Y - chebPole o V k * X) := by
    intro k hk X Y
    have hk0 := hp k hk
    have hden : X - (chebPole o V k)⁻¹ * Y = -(chebPole o V k)⁻¹ * (Y - chebPole o V k * X) := by
      field_simp; ring
    simp only [chebyshevII, hden, zero_sub, mul_one]
    have hi : -(chebPole o V k)⁻¹ ≠ 0 := neg_ne_zero.2 (inv_ne_zero hk0)
    split_ifs with h
    · rw [cos_angle_mid h]
      simp only [form, Complex.ofReal_zero, mul_zero, MulZeroClass.zero_mul, add_zero]
      rw [div_div_div_eq, mul_one, mul_comm Y, mul_div_mul_left _ _ hi]
    · have hc := cos_angle_ne hk h
      have hc' : (Real.cos (angle o k) : ℂ) ≠ 0 := by exact_mod_cast hc
      have hf : ∀ X Y : ℂ, form (some (Complex.I * (1 / Real.cos (angle o k) : ℝ))) X Y =
          -(Complex.I * (1 / Real.cos (angle o k) : ℝ)) * (Y + Complex.I * Real.cos (angle o k) * X) := by
        intro X Y
        simp only [form, Complex.ofReal_div, Complex.ofReal_one]
        generalize (Real.cos (angle o k) : ℂ) = c at hc'
        field_simp
        linear_combination X * c * Complex.I_sq
      have hz : -(Complex.I * ((1 / Real.cos (angle o k) : ℝ) : ℂ)) ≠ 0 := by
        refine neg_ne_zero.2 (mul_ne_zero Complex.I_ne_zero ?_)
        exact_mod_cast one_div_ne_zero hc
      rw [hf, hf, mul_zero, add_zero, mul_one, div_div_div_eq, mul_comm, mul_assoc (-(chebPole o V k)⁻¹),
        mul_div_mul_left _ _ hi, mul_comm, mul_div_mul_right _ _ hz]
  have hfrac : ∀ x y : ℝ, (chebyshevII o V).val x y / (chebyshevII o V).val0 false =
      ∏ k ∈ range o, ((y : ℂ) + Complex.I * Real.cos (angle o k) * (Complex.I * x)) /
        (y - chebPole o V k * (Complex.I * x)) := by
    intro x y
    simp only [Analog.val0, Bool.false_eq_true, if_false]
    rw [Analog.val_prod, Analog.val_prod, ← prod_div_distrib]
    refine prod_congr rfl fun k hk => ?_
    have := key k (mem_range.1 hk) (Complex.I * x) y
    rw [← this]
    simp
  refine ⟨fun x y hy => ?_, fun x hx => ?_⟩
  · rw [Complex.ofReal_one, one_mul, hfrac, c2Low, hV]
    refine prod_congr rfl fun k _ => ?_
    have hy' : (y : ℂ) ≠ 0 := by exact_mod_cast hy
    rw [ellipse_eq, chebAngle_eq, ← mul_div_mul_left (1 + _) _ hy']
    congr 1
    · push_cast; field_simp
    · push_cast; field_simp
  · rw [Complex.ofReal_one, one_mul, hfrac, c2LowInf, hV]
    refine prod_congr rfl fun k _ => ?_
    have hx' : Complex.I * (x : ℂ) ≠ 0 := mul_ne_zero Complex.I_ne_zero (by exact_mod_cast hx)
    rw [ellipse_eq, chebAngle_eq, Complex.ofReal_zero, zero_add, zero_sub, ← neg_mul, mul_div_mul_right _ _ hx']

end Iir
