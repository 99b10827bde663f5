import Verif.Lemmas.Signal
import Verif.Lemmas.Exec
import Mathlib.Analysis.SpecialFunctions.Complex.Arg

/-! # Frequency responses in exact arithmetic -/

namespace Iir
open FArith XR Spec Cx

theorem norm_circle (f : ℝ) : ‖circle f‖ = 1 := by
  have : (2 * Real.pi * f * Complex.I : ℂ) = ((2 * Real.pi * f : ℝ) : ℂ) * Complex.I := by push_cast; ring
  rw [circle, this, Complex.norm_exp_ofReal_mul_I]

theorem circle_ne_zero (f : ℝ) : circle f ≠ 0 := Complex.exp_ne_zero _

theorem polarC_circle1 (f : ℝ) :
    polarC (1 : XR) (-(2 * FArith.pi * fin f)) = .ok (ofC (circle f)⁻¹) := by
  have h : -(2 * FArith.pi * fin f : XR) = fin (-(2 * Real.pi * f)) := by simp
  rw [h, lit_one, polarC, Cx.polar_fin]
  simp only [Res.ok.injEq, ofC_inj]
  rw [circle, ← Complex.exp_neg]
  push_cast; simp

theorem polarC_circle2 (f : ℝ) :
    polarC (1 : XR) (-2 * (2 * FArith.pi * fin f)) = .ok (ofC ((circle f)⁻¹ ^ 2)) := by
  have h : (-2 * (2 * FArith.pi * fin f) : XR) = fin (-2 * (2 * Real.pi * f)) := by simp
  rw [h, lit_one, polarC, Cx.polar_fin]
  simp only [Res.ok.injEq, ofC_inj]
  rw [circle, ← Complex.exp_neg, ← Complex.exp_nat_mul]
  push_cast; simp only [one_mul]; congr 1; ring

/-- numerator / denominator polynomials in `q = 1/z` -/
def Biquad.numQ (b : Biquad ℝ) (q : ℂ) : ℂ := b.b0 + b.b1 * q + b.b2 * q ^ 2
def Biquad.denQ (b : Biquad ℝ) (q : ℂ) : ℂ := 1 + b.a1 * q + b.a2 * q ^ 2

theorem secH_eq (b : Biquad ℝ) (z : ℂ) : secH b z = b.numQ z⁻¹ / b.denQ z⁻¹ := rfl

theorem respTop_toX {b : Biquad ℝ} (h : b.a0 ≠ 0) (q : ℂ) :
    b.toX.respTop (ofC q) (ofC (q ^ 2)) = ofC (b.numQ q) := by
  simp [Biquad.respTop, Biquad.getA0, Biquad.getB0, Biquad.getB1, Biquad.getB2, Biquad.toX,
    fin_div _ h, h, Biquad.numQ]

theorem respBot_toX {b : Biquad ℝ} (h : b.a0 ≠ 0) (q : ℂ) :
    b.toX.respBot (ofC q) (ofC (q ^ 2)) = ofC (b.denQ q) := by
  simp [Biquad.respBot, Biquad.getA0, Biquad.getA1, Biquad.getA2, Biquad.toX,
    fin_div _ h, h, Biquad.denQ]

theorem response_toX {b : Biquad ℝ} (h : b.a0 ≠ 0) (f : ℝ) :
    b.toX.response (fin f) =
      .ok (cdiv (ofC (b.numQ (circle f)⁻¹)) (ofC (b.denQ (circle f)⁻¹))) := by
  simp only [Biquad.response]
  rw [polarC_circle1, polarC_circle2]
  simp only [bind, Res.bind, respTop_toX h, respBot_toX h]
  simp [pure]

theorem Cascade.respLoop_toX {bs : List (Biquad ℝ)} (h : ∀ b ∈ bs, b.a0 ≠ 0) {c : Cascade XR}
    (hc : c.stages = bs.map Biquad.toX) (q : ℂ) (n : ℕ) (hn : n ≤ bs.length) :
    c.respLoop (ofC q) (ofC (q ^ 2)) n =
      .ok (ofC ((bs.take n).map (Biquad.numQ · q)).prod, ofC ((bs.take n).map (Biquad.denQ · q)).prod) := by
  induction n with
  | zero => simp [Cascade.respLoop]
  | succ n ih =>
    have hb : bs[n]? = some bs[n] := List.getElem?_eq_getElem hn
    have ha := h bs[n] (List.getElem_mem hn)
    rw [Cascade.respLoop, ih (by omega)]
    simp only [bind, Res.bind, Cascade.stageAt, hc, List.getElem?_map, hb, Option.map_some,
      respTop_toX ha, respBot_toX ha, cmul_ofC, pure]
    simp only [List.take_add_one, hb, Option.toList_some, List.map_append,
      List.map_cons, List.map_nil, List.prod_append, List.prod_cons, List.prod_nil, mul_one]

theorem Cascade.response_toX {bs : List (Biquad ℝ)} (h : ∀ b ∈ bs, b.a0 ≠ 0) {c : Cascade XR}
    (hc : c.stages = bs.map Biquad.toX) (hn : c.numStages ≤ bs.length) {f : ℝ} (h0 : 0 ≤ f)
    (h1 : f ≤ 1 / 2) :
    c.response (fin f) =
      .ok (cdiv (ofC ((bs.take c.numStages).map (Biquad.numQ · (circle f)⁻¹)).prod)
        (ofC ((bs.take c.numStages).map (Biquad.denQ · (circle f)⁻¹)).prod)) := by
  have e1 : flt (0.5 : XR) (fin f) = false := by
    simp; norm_num; linarith
  have e2 : flt (fin f) (0 : XR) = false := by simp [h0]
  rw [Cascade.response, e1, e2]
  simp only [Bool.false_eq_true, if_false]
  rw [polarC_circle1, polarC_circle2]
  simp only [bind, Res.bind, Cascade.respLoop_toX h hc _ _ hn, pure]

theorem list_prod_div (bs : List (Biquad ℝ)) (z : ℂ) :
    (bs.map (secH · z)).prod = (bs.map (Biquad.numQ · z⁻¹)).prod / (bs.map (Biquad.denQ · z⁻¹)).prod := by
  induction bs with
  | nil => simp
  | cons b bs ih =>
    rw [List.map_cons, List.prod_cons, ih, secH_eq, div_mul_div_comm]; rfl

theorem list_prod_ne_zero {bs : List (Biquad ℝ)} {q : ℂ} (h : ∀ b ∈ bs, b.denQ q ≠ 0) :
    (bs.map (Biquad.denQ · q)).prod ≠ 0 := by
  induction bs with
  | nil => simp
  | cons b bs ih =>
    rw [List.map_cons, List.prod_cons]
    exact mul_ne_zero (h b List.mem_cons_self) (ih fun b hb => h b (List.mem_cons_of_mem _ hb))

/-! ## Coefficients `k` and normalised sections -/

theorem Spec.Coeffs.secH_norm {k : Coeffs} (h : k.a0 ≠ 0) (z : ℂ) : secH k.norm z = k.transfer z := by
  have h' : (k.a0 : ℂ) ≠ 0 := by exact_mod_cast h
  simp only [secH, Coeffs.transfer, Coeffs.norm]
  push_cast
  rw [show (k.b0 : ℂ) + k.b1 * z⁻¹ + k.b2 * z⁻¹ ^ 2
    = k.a0 * (k.b0 / k.a0 + k.b1 / k.a0 * z⁻¹ + k.b2 / k.a0 * z⁻¹ ^ 2) by field_simp,
    show (k.a0 : ℂ) + k.a1 * z⁻¹ + k.a2 * z⁻¹ ^ 2
    = k.a0 * (1 + k.a1 / k.a0 * z⁻¹ + k.a2 / k.a0 * z⁻¹ ^ 2) by field_simp,
    mul_div_mul_left _ _ h']

theorem Spec.Coeffs.stable_norm {k : Coeffs} (h : k.a0 ≠ 0) : SecStable k.norm ↔ k.Stable := by
  have h' : (k.a0 : ℂ) ≠ 0 := by exact_mod_cast h
  simp only [SecStable, StableDen, Coeffs.Stable, Coeffs.norm]
  refine forall_congr' fun z => imp_congr_left ?_
  push_cast
  rw [show (k.a0 : ℂ) * z ^ 2 + k.a1 * z + k.a2 =
    k.a0 * (z ^ 2 + k.a1 / k.a0 * z + k.a2 / k.a0) by field_simp, mul_eq_zero, or_iff_right h']

theorem Spec.Coeffs.denQ_norm {k : Coeffs} (h : k.a0 ≠ 0) (q : ℂ) :
    k.norm.denQ q = (k.a0 + k.a1 * q + k.a2 * q ^ 2) / k.a0 := by
  have h' : (k.a0 : ℂ) ≠ 0 := by exact_mod_cast h
  simp only [Biquad.denQ, Coeffs.norm]
  push_cast
  field_simp

end Iir
