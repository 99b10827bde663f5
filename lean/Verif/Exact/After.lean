import Verif.Exact.Setup
import Verif.Spec.Designs

/-! # The five transforms applied to a prototype: stability and gain -/

set_option linter.unusedSectionVars false

namespace Iir
open FArith Cx Exec Spec XR Finset Biquad Cascade

noncomputable section

variable {S : Type → Type} [StateType S XR] {T : Type} [Sample T XR] {n o : ℕ}

/-! ## Band edges -/

theorem abs_bandA_lt {fc fw : ℝ} (h : edgeLo fc fw < edgeHi fc fw) : |bandA fc fw| < 1 := by
  have h0 := edgeLo_pos fc fw
  have h1 := edgeHi_lt_pi fc fw
  have hc := cos_edgeHalf_pos h
  have hp := edgeHalf_pos h
  have hm0 : edgeHalf fc fw < edgeMid fc fw := by unfold edgeHalf edgeMid; linarith
  have hm1 : edgeMid fc fw < Real.pi - edgeHalf fc fw := by unfold edgeHalf edgeMid; linarith
  have e1 : Real.cos (edgeMid fc fw) < Real.cos (edgeHalf fc fw) :=
    Real.cos_lt_cos_of_nonneg_of_le_pi hp.le (by linarith) hm0
  have e2 : Real.cos (Real.pi - edgeHalf fc fw) < Real.cos (edgeMid fc fw) :=
    Real.cos_lt_cos_of_nonneg_of_le_pi (by linarith) (by linarith) hm1
  rw [Real.cos_pi_sub] at e2
  unfold bandA
  rw [abs_div, abs_of_pos hc, div_lt_one hc, abs_lt]
  exact ⟨e2, e1⟩

theorem bandCentre_nonneg (fc fw : ℝ) : 0 ≤ bandCentre fc fw := by
  have := Real.arctan_nonneg.2 (Real.sqrt_nonneg (Real.tan (edgeHi fc fw / 2) * Real.tan (edgeLo fc fw / 2)))
  unfold bandCentre; linarith

theorem bandCentre_lt (fc fw : ℝ) : bandCentre fc fw < Real.pi := by
  have := Real.arctan_lt_pi_div_two (Real.sqrt (Real.tan (edgeHi fc fw / 2) * Real.tan (edgeLo fc fw / 2)))
  unfold bandCentre; linarith

theorem cos_bandCentre {fc fw : ℝ} (h : edgeLo fc fw < edgeHi fc fw) :
    Real.cos (bandCentre fc fw) = bandA fc fw := by
  have h0 := edgeLo_pos fc fw
  have h1 := edgeHi_lt_pi fc fw
  have c1 := cos_half_pos (x := edgeHi fc fw) (by linarith) h1
  have c2 := cos_half_pos h0 (by linarith)
  have t1 := tan_half_pos (x := edgeHi fc fw) (by linarith) h1
  have t2 := tan_half_pos h0 (by linarith)
  have hh := cos_edgeHalf_pos h
  unfold bandCentre bandA
  rw [cos_double_tan (Real.cos_arctan_pos _).ne', Real.tan_arctan, Real.sq_sqrt (mul_pos t1 t2).le]
  rw [show edgeHalf fc fw = edgeHi fc fw / 2 - edgeLo fc fw / 2 by unfold edgeHalf; ring, Real.cos_sub] at hh ⊢
  rw [show edgeMid fc fw = edgeHi fc fw / 2 + edgeLo fc fw / 2 by unfold edgeMid; ring, Real.cos_add,
    Real.tan_eq_sin_div_cos, Real.tan_eq_sin_div_cos]
  rw [div_eq_div_iff (by have := mul_pos t1 t2; rw [Real.tan_eq_sin_div_cos, Real.tan_eq_sin_div_cos] at this
                         linarith) hh.ne']
  field_simp

theorem bandCentre_pos {fc fw : ℝ} (h : edgeLo fc fw < edgeHi fc fw) : 0 < bandCentre fc fw := by
  refine lt_of_le_of_ne (bandCentre_nonneg _ _) fun h0 => ?_
  have h1 := cos_bandCentre h
  rw [← h0, Real.cos_zero] at h1
  have := abs_bandA_lt h
  rw [← h1] at this
  norm_num at this

/-! ## Gain and stability from `DesignedF` -/

theorem DesignedF.gainSq {A : Analog} {M : SMap} {w g : ℝ} {len : ℕ} {f : PoleFilter S XR}
    (h : DesignedF A M w g len f) {fr x y x0 y0 : ℝ} (h0 : 0 ≤ fr) (h1 : fr ≤ 1 / 2) (hf : M.At fr x y)
    (hw : M.At (w / (2 * Real.pi)) x0 y0) : GainSq f fr (g ^ 2 * (A.mag x y / A.mag x0 y0)) := by
  refine ⟨_, h.response fr h0 h1, ?_⟩
  rw [norm_mul, norm_quot, norm_div, Complex.norm_real, Complex.norm_real, Real.norm_eq_abs, Real.norm_eq_abs, mul_pow,
    div_pow, sq_abs, sq_abs, ratio_sq hf, ratio_sq hw, div_mul_eq_mul_div, mul_div_assoc]

theorem DesignedF.response_at {A : Analog} {M : SMap} {w g : ℝ} {len : ℕ} {f : PoleFilter S XR}
    (h : DesignedF A M w g len f) {fr x y x0 y0 : ℝ} (h0 : 0 ≤ fr) (h1 : fr ≤ 1 / 2) (hf : M.At fr x y)
    (hw : M.At (w / (2 * Real.pi)) x0 y0) : Response f fr (g * (A.val x y / ‖A.val x0 y0‖)) := by
  have := h.response fr h0 h1
  rw [quot_at hf, ← norm_quot, quot_at hw, div_mul_eq_mul_div, mul_div_assoc] at this
  exact this

/-- where the prototype is normalised: at infinity (shelves) or at 0 -/
def Analog.mag0 (A : Analog) (sh : Bool) : ℝ := if sh then A.mag 1 0 else A.mag 0 1
def normW (sh : Bool) : ℝ := if sh then Real.pi else 0

theorem normW_nonneg (sh : Bool) : 0 ≤ normW sh := by
  cases sh
  · exact le_refl _
  · exact Real.pi_pos.le
theorem normW_le (sh : Bool) : normW sh ≤ Real.pi := by
  cases sh
  · exact Real.pi_pos.le
  · exact le_refl _

/-- value where the prototype is normalised -/
def Analog.val0 (A : Analog) (sh : Bool) : ℂ := if sh then A.val 1 0 else A.val 0 1

/-- Result of a design: number of stages, stability, responses `g A (i x / y)`, `A` scaled to 1 where it is
normalised. -/
structure Spec.Result (len : ℕ) (g : ℝ) (A : Analog) (sh : Bool) (x y : ℝ → ℝ) (f : PoleFilter S XR) : Prop where
  stages : f.getNumStages = len
  stable : StableFilter f
  value : ∀ fr, 0 ≤ fr → fr ≤ 1 / 2 → Response f fr (g * (A.val (x fr) (y fr) / A.val0 sh))

theorem Spec.Result.gain {len : ℕ} {g : ℝ} {A : Analog} {sh : Bool} {x y : ℝ → ℝ} {f : PoleFilter S XR}
    (h : Result len g A sh x y f) (fr : ℝ) (h0 : 0 ≤ fr) (h1 : fr ≤ 1 / 2) :
    GainSq f fr (g ^ 2 * (A.mag (x fr) (y fr) / A.mag0 sh)) := by
  refine ⟨_, h.value fr h0 h1, ?_⟩
  rw [norm_mul, norm_div, Complex.norm_real, Real.norm_eq_abs, mul_pow, div_pow, sq_abs, A.mag_val]
  congr 2
  cases sh
  · exact A.mag_val 0 1
  · exact A.mag_val 1 0

/-- Common part of the five cases. -/
theorem Spec.after_of {call : Call XR} {d : Design XR} (hask : Asks call n o d) {A : Analog} {sh : Bool}
    {g0 : ℝ} (hp : IsProto d n o A (normW sh) g0) {M : SMap} {m : ℕ} {w g : ℝ}
    (ht : TransformsTo d n A (normW sh) g0 M m w g) (hm1 : 1 ≤ m) (hmn : m ≤ n * d.cls.mult) (hM : M.Contracts)
    (hw0 : 0 ≤ w) (hw1 : w ≤ Real.pi) {sh' : Bool} {x y : ℝ → ℝ} (hat : ∀ f, M.At f (x f) (y f))
    (hN : A.val (x (w / (2 * Real.pi))) (y (w / (2 * Real.pi))) = A.val0 sh') (hne : A.mag0 sh' ≠ 0) :
    AfterSetup S T n call (Result ((m + 1) / 2) g A sh' x y) := by
  intro f hf
  have hmag : A.mag (x (w / (2 * Real.pi))) (y (w / (2 * Real.pi))) = A.mag0 sh' := by
    rw [← A.mag_val, hN]
    cases sh'
    · exact A.mag_val 0 1
    · exact A.mag_val 1 0
  have hZ : ratio A M (w / (2 * Real.pi)) ≠ 0 := by
    intro h
    have := ratio_sq (A := A) (hat (w / (2 * Real.pi)))
    rw [h, hmag] at this
    exact hne (by rw [← this]; norm_num)
  obtain ⟨f', e, hs, hd⟩ := Spec.reach_setup hask.small hf hask.design hask.order hask.pos hask.le hp ht hm1 hmn
    hM hw0 hw1 hZ
  refine ⟨f', e, hs, hd.numStages, hd.stable, fun fr h0 h1 => ?_⟩
  have hpos : A.val0 sh' = (‖A.val0 sh'‖ : ℂ) := by
    cases sh'
    · exact Analog.val_zero hp.sym hp.left
    · exact Analog.val_inf hp.sym hp.left
  rw [hpos, ← hN]
  exact hd.response_at h0 h1 (hat fr) (hat _)

variable {call : Call XR} {d : Design XR} {A : Analog} {g0 fc fw : ℝ}

theorem Spec.after_lowPass (hask : Asks call n o d) {sh : Bool} (hp : IsProto d n o A (normW sh) g0)
    (hd : d.trans = lowPassTransform (fin fc)) (hm : d.cls.mult = 1) (h0 : 0 < fc) (h1 : fc < 1 / 2)
    (hne : A.mag0 sh ≠ 0) :
    AfterSetup S T n call (Result ((o + 1) / 2) g0 A sh (fun fr => Real.sin (Real.pi * fr))
      (fun fr => Real.tan (Real.pi * fc) * Real.cos (Real.pi * fr))) := by
  have hpi := Real.pi_pos
  have hon := hask.le
  have ho1 := hask.pos
  have hF := tan_pi_pos h0 h1
  refine Spec.after_of hask hp (m := o) (w := normW sh) (g := g0) (M := lpMap (Real.tan (Real.pi * fc))) ?_ ho1
    (by rw [hm]; omega) (lpMap_contracts hF) (normW_nonneg sh) (normW_le sh)
    (x := fun fr => Real.sin (Real.pi * fr)) (y := fun fr => Real.tan (Real.pi * fc) * Real.cos (Real.pi * fr))
    (lpMap_at _) ?_ hne
  · intro a l ha hl
    rw [hm, mul_one] at hl ⊢
    rw [hd, ← hp.n_eq]
    exact Spec.lowPassTransform_exact hp.sym hp.left ha h0 h1 hl (by rw [hp.n_eq]; omega)
  · cases sh
    · simp only [normW, Analog.val0, Bool.false_eq_true, if_false, zero_div, mul_zero, Real.sin_zero, Real.cos_zero]
      simpa using A.val_smul hF.ne' 0 1
    · simp only [normW, Analog.val0, if_true]
      rw [show Real.pi * (Real.pi / (2 * Real.pi)) = Real.pi / 2 by field_simp, Real.sin_pi_div_two,
        Real.cos_pi_div_two, mul_zero]

theorem Spec.after_highPass (hask : Asks call n o d) {sh : Bool} (hp : IsProto d n o A (normW sh) g0)
    (hd : d.trans = highPassTransform (fin fc)) (hm : d.cls.mult = 1) (h0 : 0 < fc) (h1 : fc < 1 / 2)
    (hne : A.mag0 sh ≠ 0) :
    AfterSetup S T n call (Result ((o + 1) / 2) g0 A sh (fun fr => -Real.cos (Real.pi * fr))
      (fun fr => 1 / Real.tan (Real.pi * fc) * Real.sin (Real.pi * fr))) := by
  have hpi := Real.pi_pos
  have hon := hask.le
  have ho1 := hask.pos
  have hF : 0 < 1 / Real.tan (Real.pi * fc) := one_div_pos.2 (tan_pi_pos h0 h1)
  refine Spec.after_of hask hp (m := o) (w := Real.pi - normW sh) (g := g0)
    (M := hpMap (1 / Real.tan (Real.pi * fc))) ?_ ho1
    (by rw [hm]; omega) (hpMap_contracts hF) (by have := normW_le sh; linarith)
    (by have := normW_nonneg sh; linarith)
    (x := fun fr => -Real.cos (Real.pi * fr)) (y := fun fr => 1 / Real.tan (Real.pi * fc) * Real.sin (Real.pi * fr))
    (hpMap_at _) ?_ hne
  · intro a l ha hl
    rw [hm, mul_one] at hl ⊢
    rw [hd, ← hp.n_eq]
    exact Spec.highPassTransform_exact hp.sym hp.left ha h0 h1 hl (by rw [hp.n_eq]; omega)
  · cases sh
    · simp only [normW, Analog.val0, Bool.false_eq_true, if_false, sub_zero]
      rw [show Real.pi * (Real.pi / (2 * Real.pi)) = Real.pi / 2 by field_simp, Real.sin_pi_div_two,
        Real.cos_pi_div_two, neg_zero]
      simpa using A.val_smul hF.ne' 0 1
    · simp only [normW, Analog.val0, if_true, sub_self, zero_div, mul_zero, Real.sin_zero, Real.cos_zero]
      simpa using A.val_smul (c := -1) (by norm_num) 1 0

/-- The odd pole and zero are not where the band transform would put a root at 0. -/
def Analog.NoReal (A : Analog) (b : ℝ) : Prop :=
  A.n % 2 = 1 → A.pole (A.n / 2) ≠ -(b : ℂ) ∧ A.zero (A.n / 2) ≠ some (-(b : ℂ))

theorem Spec.after_bandPass (hask : Asks call n o d) (hp : IsProto d n o A (normW false) g0)
    (hd : d.trans = bandPassTransform (fin fc) (fin fw)) (hm : d.cls.mult = 2) (h0 : 0 ≤ fc) (h1 : fc < 1 / 2)
    (he : edgeLo fc fw < edgeHi fc fw) (hodd : A.NoReal (1 / Real.tan (edgeHalf fc fw)))
    (hne : A.mag0 false ≠ 0) :
    AfterSetup S T n call (Result o g0 A false
      (fun fr => 1 / Real.tan (edgeHalf fc fw) * (bandA fc fw - Real.cos (2 * Real.pi * fr)))
      (fun fr => Real.sin (2 * Real.pi * fr))) := by
  have hpi := Real.pi_pos
  have hon := hask.le
  have ho1 := hask.pos
  have hF : 0 < 1 / Real.tan (edgeHalf fc fw) := one_div_pos.2 (tan_edgeHalf_pos he)
  have := Spec.after_of (S := S) (T := T) hask hp (m := 2 * o) (w := bandCentre fc fw) (g := g0)
    (M := bpMap (bandA fc fw) (1 / Real.tan (edgeHalf fc fw))) (sh' := false) ?_ (by omega)
    (by rw [hm]; omega) (bpMap_contracts (abs_bandA_lt he) hF) (bandCentre_nonneg _ _) (bandCentre_lt _ _).le
    (x := fun fr => 1 / Real.tan (edgeHalf fc fw) * (bandA fc fw - Real.cos (2 * Real.pi * fr)))
    (y := fun fr => Real.sin (2 * Real.pi * fr))
    (bpMap_at _ _) ?_ hne
  · rwa [show (2 * o + 1) / 2 = o by omega] at this
  · intro a l ha hl
    rw [hm] at hl ⊢
    rw [hd, ← hp.n_eq]
    exact Spec.bandPassTransform_exact hp.sym hp.left ha h0 h1 he hodd hl (by rw [hp.n_eq]; omega)
  · simp only [Analog.val0, Bool.false_eq_true, if_false]
    rw [show 2 * Real.pi * (bandCentre fc fw / (2 * Real.pi)) = bandCentre fc fw by field_simp,
      cos_bandCentre he, sub_self, mul_zero]
    have hs : Real.sin (bandCentre fc fw) ≠ 0 :=
      (Real.sin_pos_of_pos_of_lt_pi (bandCentre_pos he) (bandCentre_lt _ _)).ne'
    simpa using A.val_smul hs 0 1

theorem Spec.after_bandStop (hask : Asks call n o d) {sh : Bool} (hp : IsProto d n o A (normW sh) g0)
    (hd : d.trans = bandStopTransform (fin fc) (fin fw)) (hm : d.cls.mult = 2) (h0 : 0 ≤ fc) (h1 : fc < 1 / 2)
    (he : edgeLo fc fw < edgeHi fc fw) (hodd : A.NoReal (Real.tan (edgeHalf fc fw)))
    (hne : A.mag0 false ≠ 0) :
    AfterSetup S T n call (Result o g0 A false
      (fun fr => Real.tan (edgeHalf fc fw) * Real.sin (2 * Real.pi * fr))
      (fun fr => Real.cos (2 * Real.pi * fr) - bandA fc fw)) := by
  have hpi := Real.pi_pos
  have hon := hask.le
  have ho1 := hask.pos
  have ha := abs_lt.1 (abs_bandA_lt he)
  have hF := tan_edgeHalf_pos he
  have := Spec.after_of (S := S) (T := T) hask hp (m := 2 * o) (w := if fc < 1 / 4 then Real.pi else 0) (g := g0)
    (M := bsMap (bandA fc fw) (Real.tan (edgeHalf fc fw))) (sh' := false) ?_ (by omega)
    (by rw [hm]; omega) (bsMap_contracts (abs_bandA_lt he) hF) (by split_ifs <;> linarith)
    (by split_ifs <;> linarith)
    (x := fun fr => Real.tan (edgeHalf fc fw) * Real.sin (2 * Real.pi * fr))
    (y := fun fr => Real.cos (2 * Real.pi * fr) - bandA fc fw)
    (bsMap_at _ _) ?_ hne
  · rwa [show (2 * o + 1) / 2 = o by omega] at this
  · intro a l ha hl
    rw [hm] at hl ⊢
    rw [hd, ← hp.n_eq]
    exact Spec.bandStopTransform_exact hp.sym hp.left ha h0 h1 he hodd hl (by rw [hp.n_eq]; omega)
  · simp only [Analog.val0, Bool.false_eq_true, if_false]
    by_cases h : fc < 1 / 4
    · rw [if_pos h, show 2 * Real.pi * (Real.pi / (2 * Real.pi)) = Real.pi by field_simp, Real.sin_pi,
        Real.cos_pi, mul_zero]
      simpa using A.val_smul (c := -1 - bandA fc fw) (by linarith) 0 1
    · rw [if_neg h, zero_div, mul_zero, Real.sin_zero, Real.cos_zero, mul_zero]
      simpa using A.val_smul (c := 1 - bandA fc fw) (by linarith) 0 1

theorem Spec.after_bandShelf (hask : Asks call n o d) {sh : Bool} (hp : IsProto d n o A (normW sh) g0)
    (hd : d.trans = bandShelfTransform (fin fc) (fin fw)) (hm : d.cls.mult = 2) (h0 : 0 ≤ fc) (h1 : fc < 1 / 2)
    (he : edgeLo fc fw < edgeHi fc fw) (hodd : A.NoReal (1 / Real.tan (edgeHalf fc fw)))
    (hne : A.mag0 true ≠ 0) :
    AfterSetup S T n call (Result o 1 A true
      (fun fr => 1 / Real.tan (edgeHalf fc fw) * (bandA fc fw - Real.cos (2 * Real.pi * fr)))
      (fun fr => Real.sin (2 * Real.pi * fr))) := by
  have hpi := Real.pi_pos
  have hon := hask.le
  have ho1 := hask.pos
  have ha := abs_lt.1 (abs_bandA_lt he)
  have hF : 0 < 1 / Real.tan (edgeHalf fc fw) := one_div_pos.2 (tan_edgeHalf_pos he)
  have := Spec.after_of (S := S) (T := T) hask hp (m := 2 * o) (w := if fc < 1 / 4 then Real.pi else 0) (g := 1)
    (M := bpMap (bandA fc fw) (1 / Real.tan (edgeHalf fc fw))) (sh' := true) ?_ (by omega)
    (by rw [hm]; omega) (bpMap_contracts (abs_bandA_lt he) hF) (by split_ifs <;> linarith)
    (by split_ifs <;> linarith)
    (x := fun fr => 1 / Real.tan (edgeHalf fc fw) * (bandA fc fw - Real.cos (2 * Real.pi * fr)))
    (y := fun fr => Real.sin (2 * Real.pi * fr))
    (bpMap_at _ _) ?_ hne
  · rwa [show (2 * o + 1) / 2 = o by omega] at this
  · intro a l ha hl
    rw [hm] at hl ⊢
    rw [hd, ← hp.n_eq]
    exact Spec.bandShelfTransform_exact hp.sym hp.left ha h0 h1 he hodd hl (by rw [hp.n_eq]; omega)
  · simp only [Analog.val0, if_true]
    by_cases h : fc < 1 / 4
    · rw [if_pos h, show 2 * Real.pi * (Real.pi / (2 * Real.pi)) = Real.pi by field_simp, Real.sin_pi,
        Real.cos_pi]
      have := A.val_smul (c := 1 / Real.tan (edgeHalf fc fw) * (bandA fc fw - -1))
        (mul_ne_zero hF.ne' (by linarith)) 1 0
      simpa using this
    · rw [if_neg h, zero_div, mul_zero, Real.sin_zero, Real.cos_zero]
      have := A.val_smul (c := 1 / Real.tan (edgeHalf fc fw) * (bandA fc fw - 1))
        (mul_ne_zero hF.ne' (by linarith)) 1 0
      simpa using this

end
end Iir
