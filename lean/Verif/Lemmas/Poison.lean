import Verif.Lemmas.Result
import Verif.Exact.XR

/-! # Prototypes without poles, and the negative ripple of a Chebyshev low pass, in exact arithmetic -/

namespace Iir
open FArith Cx Exec Spec Biquad Cascade XR

noncomputable section

/-- the section that passes samples through -/
def identX : Biquad XR :=
  { a0 := fin 1, a1 := fin 0, a2 := fin 0, b1 := fin 0, b2 := fin 0, b0 := fin 1 }

theorem identR_exact : (identR : Res (Biquad XR)) = .ok identX := by
  simp [identR, coeffsR, fin_div, identX]

/-- no stages: no access to the sections, never a failure for frequencies in range -/
theorem response_no_stages (M : Nat) (st : List (Biquad XR)) (nf : XR) (h1 : flt 0.5 nf = false)
    (h2 : flt nf 0 = false) :
    ∃ h, Cascade.response (Cascade.mk 0 M st) nf = .ok h := by
  unfold Cascade.response
  rw [h1, h2]
  simp only [Bool.false_eq_true, if_false]
  have hp : ∀ x : XR, polarC (1 : XR) x = .ok ⟨XR.mul 1 (XR.cos x), XR.mul 1 (XR.sin x)⟩ := fun x => rfl
  simp only [hp, Bind.bind, Res.bind, Cascade.respLoop, pure]
  exact ⟨_, rfl⟩

/-- A layout without poles gives a cascade without stages, all sections identities. -/
theorem setLayout_empty {l : Layout XR} {c : Cascade XR} {M : Nat} (hc : c.Ok M) (hl : l.numPoles = 0)
    (h1 : flt 0.5 (l.normalW / (2 * pi)) = false) (h2 : flt (l.normalW / (2 * pi)) 0 = false) :
    setLayout l c = (.ok (), { numStages := 0, maxStages := M, stages := List.replicate M identX }) := by
  rw [setLayout_eq hc identR_exact (by rw [hl]; simp) (by rw [hl]; simp), hl]
  have h0 : ∀ bs : List (Biquad XR), placePairs [] bs = (.ok (), bs) := fun l => by cases l <;> rfl
  have h3 : List.take ((0 + 1) / 2) l.pairs = [] := rfl
  obtain ⟨h, hh⟩ := response_no_stages M (List.replicate M identX) (l.normalW / (2 * pi)) h1 h2
  rw [h3]
  simp only [h0, finish]
  rw [show (0 + 1) / 2 = 0 from rfl, hh]
  rfl

/-- a prototype without poles, through the transform of a low pass -/
theorem lowPassTransform_empty {fc : ℝ} (h0 : 0 ≤ fc) (h1 : fc < 1 / 2) {a l : Layout XR}
    (ha : a.numPoles = 0) :
    lowPassTransform (fin fc) a l = (.ok (),
      { l with numPoles := 0, normalW := a.normalW, normalGain := a.normalGain }) := by
  have e1 : (!(flt (fin fc) 0.5)) = false := by
    simp only [lit_sci, flt_fin, Bool.not_eq_false', decide_eq_true_eq]; norm_num; linarith
  have e2 : flt (fin fc) 0 = false := by simp [h0]
  simp only [lowPassTransform, checkFreq, bind_def, e1, e2, throwIf_false, Layout.reset, modify_def,
    mapLayout, ha, Layout.setNormal]
  rfl

/-- A negative ripple makes `eps` NaN: construction throws after clearing the layout. -/
theorem ChebyshevI.build_negative_ripple (l : Layout XR) :
    ChebyshevI.lowPassBuild 1 (fin (-1)) l = (.throw .poleIsNaN, { l with numPoles := 0 }) := by
  have hexp : 1 < Real.exp (-(-1) * (0.1 : ℝ) * Real.log 10) := by
    rw [Real.one_lt_exp_iff]
    have : 0 < Real.log 10 := Real.log_pos (by norm_num)
    norm_num; linarith
  have heps : FArith.sqrt ((1 : XR) / FArith.exp (-fin (-1) * 0.1 * ln10) - 1) = nan := by
    simp only [fin_neg, lit_sci, fin_mul, ln10_eq, exp_fin, lit_one]
    rw [fin_div _ (Real.exp_pos _).ne', fin_sub, sqrt_fin_neg]
    have := inv_lt_one_of_one_lt₀ hexp
    rw [one_div]; linarith
  have hv : asinh ((1 : XR) / nan) / Proto.ofI 1 = nan := by
    have : (1 : XR) / nan = nan := by simp; rfl
    rw [this]; rfl
  have e : (Cx.mk (-FArith.sinh (nan : XR)) (0 : XR)).isNan = true := by
    simp [Cx.isNan]; rfl
  unfold ChebyshevI.lowPassBuild
  rw [heps]
  simp only [hv]
  simp only [Layout.reset, bind_def, modify_def, intChecked]
  rw [lit_zero] at e
  simp [Exec.loop, Layout.add, bind_def, e]

end
end Iir
