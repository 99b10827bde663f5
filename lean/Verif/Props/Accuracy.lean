import Verif.Lemmas.RoundNear
import Verif.Props.DoubleDesign

/-! # C76: an RBJ filter designed and run in floating point arithmetic stays close to the ideal filter

C54 compares the output of a section with that of the ideal section with the *stored* coefficients.  C71 says that the
stored coefficients are finite and stable.  Here the whole way from the parameters to the output is covered: the samples
that come out are compared with those of the ideal filter that the parameters describe. -/

set_option linter.unusedSectionVars false

namespace Iir
open FArith XR Spec Exec

variable {R : Type} [FArith R] {u η Ω : ℝ}

/-- The parameters describe a filter whose section is close to the ideal one. -/
theorem near_ideal {r : Rounds R u η Ω} (ha : r.Accurate) {d : RBJ.Design R} (hf : r.FinArgs d) {d0 : RBJ.Design ℝ}
    (hn : NearRBJ (1 / 2 ^ 50) (r.valRBJ d) d0) {σ : ℝ} (hs : SharpRBJ σ d0) (hσ : σ ≤ 2 ^ 10) :
    ∃ k, NearIdeal r σ d (finRBJ d0) k := by
  cases d with
  | lowPass fc q =>
    cases d0 <;> try exact hn.elim
    exact near_q ha hf.1 hf.2 hn.1 hn.2 hs.1 hs.2.1 hs.2.2.1 hs.2.2.2 hσ (by simp [finRBJ])
  | highPass fc q =>
    cases d0 <;> try exact hn.elim
    exact near_q ha hf.1 hf.2 hn.1 hn.2 hs.1 hs.2.1 hs.2.2.1 hs.2.2.2 hσ (by simp [finRBJ])
  | bandPass1 fc q =>
    cases d0 <;> try exact hn.elim
    exact near_q ha hf.1 hf.2 hn.1 hn.2 hs.1 hs.2.1 hs.2.2.1 hs.2.2.2 hσ (by simp [finRBJ])
  | bandPass2 fc q =>
    cases d0 <;> try exact hn.elim
    exact near_q ha hf.1 hf.2 hn.1 hn.2 hs.1 hs.2.1 hs.2.2.1 hs.2.2.2 hσ (by simp [finRBJ])
  | bandStop fc q =>
    cases d0 <;> try exact hn.elim
    exact near_q ha hf.1 hf.2 hn.1 hn.2 hs.1 hs.2.1 hs.2.2.1 hs.2.2.2 hσ (by simp [finRBJ])
  | allPass fc q =>
    cases d0 <;> try exact hn.elim
    exact near_q ha hf.1 hf.2 hn.1 hn.2 hs.1 hs.2.1 hs.2.2.1 hs.2.2.2 hσ (by simp [finRBJ])
  | iirNotch fc q =>
    cases d0 <;> try exact hn.elim
    exact near_notch ha hf.1 hf.2 hn.1 hn.2 hs.1 hs.2.1 hs.2.2.1 hs.2.2.2
  | lowShelf fc g s => cases d0 <;> exact hn.elim
  | highShelf fc g s => cases d0 <;> exact hn.elim
  | bandShelf fc g w => cases d0 <;> exact hn.elim

/-- Division by the sampling rate. -/
theorem near_rate {r : Rounds R u η Ω} (ha : r.Accurate) {fs : R} {d : RBJ.Design R} (hfs : r.Fin fs)
    (h0 : r.val fs ≠ 0) (hf : r.FinArgs d) {σ : ℝ} (hs : SharpRBJ σ (overRate (r.val fs) (r.valRBJ d))) :
    r.FinArgs (d.overFs fs) ∧ NearRBJ (1 / 2 ^ 50) (r.valRBJ (d.overFs fs)) (overRate (r.val fs) (r.valRBJ d)) := by
  have key : ∀ {fc : R}, r.Fin fc → 0 < r.val fc / r.val fs → r.val fc / r.val fs < 1 / 2 →
      r.Fin (fc / fs) ∧ |r.val (fc / fs) - r.val fc / r.val fs| ≤ 1 / 2 ^ 50 := fun {fc} hfc h1 h2 => by
    obtain ⟨h3, h4⟩ := raw_div ha hfc hfs h0 (M := 1 / 2) (by rw [abs_of_pos h1]; exact h2.le) (by norm_num)
    exact ⟨h3, h4.trans (by norm_num)⟩
  cases d with
  | lowPass fc q => exact ⟨⟨(key hf.1 hs.1 hs.2.1).1, hf.2⟩, (key hf.1 hs.1 hs.2.1).2, rfl⟩
  | highPass fc q => exact ⟨⟨(key hf.1 hs.1 hs.2.1).1, hf.2⟩, (key hf.1 hs.1 hs.2.1).2, rfl⟩
  | bandPass1 fc q => exact ⟨⟨(key hf.1 hs.1 hs.2.1).1, hf.2⟩, (key hf.1 hs.1 hs.2.1).2, rfl⟩
  | bandPass2 fc q => exact ⟨⟨(key hf.1 hs.1 hs.2.1).1, hf.2⟩, (key hf.1 hs.1 hs.2.1).2, rfl⟩
  | bandStop fc q => exact ⟨⟨(key hf.1 hs.1 hs.2.1).1, hf.2⟩, (key hf.1 hs.1 hs.2.1).2, rfl⟩
  | allPass fc q => exact ⟨⟨(key hf.1 hs.1 hs.2.1).1, hf.2⟩, (key hf.1 hs.1 hs.2.1).2, rfl⟩
  | iirNotch fc q => exact ⟨⟨(key hf.1 hs.1 hs.2.1).1, hf.2⟩, (key hf.1 hs.1 hs.2.1).2, rfl⟩
  | lowShelf fc g s => exact hs.elim
  | highShelf fc g s => exact hs.elim
  | bandShelf fc g w => exact hs.elim

/-- **C76**: the filter is set up, whatever it was before, and run on any input of magnitude at most `X`.  Then all outputs
are finite, and at all times within `σ⁴ 2⁻³⁵ (X + 2⁷⁰ η)` of the output of the ideal filter, where `σ` is the sharpness.
The frequency may itself have been rounded. -/
theorem C76_accurate (r : Rounds R u η Ω) (ha : r.Accurate) (d : RBJ.Design R) (hf : r.FinArgs d) (d0 : RBJ.Design ℝ)
    (hn : NearRBJ (1 / 2 ^ 50) (r.valRBJ d) d0) {σ : ℝ} (hs : SharpRBJ σ d0) (hσ : σ ≤ 2 ^ 10) (f : RBJ.Filter R) :
    ∃ f', RBJ.Filter.setupN d f = (.ok (), f') ∧ ∀ X x, r.Input X x → 2 ^ 34 * (X + η) ≤ Ω →
      ∃ y', Returns (RBJ.Filter.filter (T := R)) (RBJ.Filter.reset f').2 x y' ∧
        ∃ y, RBJRuns (finRBJ d0) (fun n => r.val (x n)) y ∧ r.Within (σ ^ 4 / 2 ^ 35 * (X + 2 ^ 70 * η)) y' y := by
  obtain ⟨k, hk⟩ := near_ideal ha hf hn hs hσ
  obtain ⟨f', h1, h2⟩ := hk.accurate ha.u_le hσ f
  refine ⟨f', h1, fun X x hx hΩ => ⟨_, RBJ.Filter.returns x, ?_⟩⟩
  obtain ⟨y, h3, h4⟩ := h2 X x hx hΩ
  exact ⟨y, h3, h4 none (by simp) _ (ChainC.plain _ x)⟩

/-- **C76** with a sampling rate: the ideal filter has the exact quotient of frequency and sampling rate. -/
theorem C76_sampleRate (r : Rounds R u η Ω) (ha : r.Accurate) (fs : R) (d : RBJ.Design R) (hfs : r.Fin fs)
    (h0 : r.val fs ≠ 0) (hf : r.FinArgs d) {σ : ℝ} (hs : SharpRBJ σ (overRate (r.val fs) (r.valRBJ d))) (hσ : σ ≤ 2 ^ 10)
    (f : RBJ.Filter R) :
    ∃ f', RBJ.Filter.setup fs d f = (.ok (), f') ∧ ∀ X x, r.Input X x → 2 ^ 34 * (X + η) ≤ Ω →
      ∃ y', Returns (RBJ.Filter.filter (T := R)) (RBJ.Filter.reset f').2 x y' ∧
        ∃ y, RBJRuns (finRBJ (overRate (r.val fs) (r.valRBJ d))) (fun n => r.val (x n)) y ∧
          r.Within (σ ^ 4 / 2 ^ 35 * (X + 2 ^ 70 * η)) y' y := by
  have both := near_rate ha hfs h0 hf hs
  exact C76_accurate r ha (d.overFs fs) both.1 _ both.2 hs hσ f

theorem double_range {X : ℝ} (h1 : (1 / 2) ^ 1000 ≤ X) (h2 : X ≤ 2 ^ 900) :
    2 ^ 34 * (X + (1 / 2) ^ 1075) ≤ maxDouble ∧ X + 2 ^ 70 * (1 / 2) ^ 1075 ≤ 2 * X := by
  have e1 : (2 : ℝ) ^ 70 * (1 / 2) ^ 1075 ≤ (1 / 2) ^ 1000 := by
    rw [show (1075 : ℕ) = 75 + 1000 from rfl, pow_add, ← mul_assoc]
    exact mul_le_of_le_one_left (by positivity) (by norm_num)
  have e2 : ((1 : ℝ) / 2) ^ 1075 ≤ (1 / 2) ^ 1000 := pow_le_pow_of_le_one (by norm_num) (by norm_num) (by norm_num)
  have e3 : (2 : ℝ) ^ 971 = 2 ^ 71 * 2 ^ 900 := by rw [← pow_add]
  refine ⟨?_, by
    generalize ((1 : ℝ) / 2) ^ 1000 = b at *
    generalize ((1 : ℝ) / 2) ^ 1075 = c at *
    linarith⟩
  have e4 : (0 : ℝ) ≤ 2 ^ 900 := by positivity
  unfold maxDouble
  rw [e3]
  generalize (2 : ℝ) ^ 900 = B at *
  generalize ((1 : ℝ) / 2) ^ 1000 = b at *
  generalize ((1 : ℝ) / 2) ^ 1075 = c at *
  have e5 : (2 ^ 53 - 1) * (2 ^ 71 * B) = ((2 ^ 53 - 1) * 2 ^ 71) * B := by ring
  rw [e5]
  have e6 : 2 ^ 34 * (X + c) ≤ 2 ^ 35 * B := by
    clear e1 e3 e5
    linarith
  refine e6.trans (mul_le_mul_of_nonneg_right (by norm_num) e4)

/-- **C76** for IEEE doubles: the error is at most `σ⁴ 2⁻³⁴` of the largest input. -/
theorem C76_double (fs : Dbl) (d : RBJ.Design Dbl) (hfs : fs.Finite) (h0 : fs.val ≠ 0) (hf : doubleRounds.FinArgs d) {σ : ℝ}
    (hs : SharpRBJ σ (overRate fs.val (doubleRounds.valRBJ d))) (hσ : σ ≤ 2 ^ 10) (f : RBJ.Filter Dbl) :
    ∃ f', RBJ.Filter.setup fs d f = (.ok (), f') ∧ ∀ X x, doubleRounds.Input X x → (1 / 2) ^ 1000 ≤ X → X ≤ 2 ^ 900 →
      ∃ y', Returns (RBJ.Filter.filter (T := Dbl)) (RBJ.Filter.reset f').2 x y' ∧
        ∃ y, RBJRuns (finRBJ (overRate fs.val (doubleRounds.valRBJ d))) (fun n => (x n).val) y ∧
          ∀ n, (y' n).Finite ∧ |(y' n).val - y n| ≤ σ ^ 4 / 2 ^ 34 * X := by
  obtain ⟨f', h1, h2⟩ := C76_sampleRate doubleRounds doubleRounds_accurate fs d hfs h0 hf hs hσ f
  refine ⟨f', h1, fun X x hx hX1 hX2 => ?_⟩
  obtain ⟨r1, r2⟩ := double_range hX1 hX2
  obtain ⟨y', h3, y, h4, h5⟩ := h2 X x hx r1
  refine ⟨y', h3, y, h4, fun n => ⟨(h5 n).1, (h5 n).2.trans ?_⟩⟩
  have e : σ ^ 4 / 2 ^ 34 * X = σ ^ 4 / 2 ^ 35 * (2 * X) := by ring
  rw [e]
  exact mul_le_mul_of_nonneg_left r2 (by positivity)

/-- a low pass at 6000 Hz with a sampling rate of 48000 Hz and quality 1 has sharpness at most 5: the error is at most
`625 / 2 ^ 34`, less than a 27-millionth of the largest input -/
example : SharpRBJ 5 (overRate (Dbl.lit2 48000 0).val (doubleRounds.valRBJ (.lowPass (.lit2 6000 0) (.lit2 1 0)))) := by
  obtain ⟨-, h2⟩ := Dbl.lit2_val (m := 6000) (e := 0) (by norm_num) (by norm_num) (by norm_num)
  obtain ⟨-, h4⟩ := Dbl.lit2_val (m := 1) (e := 0) (by norm_num) (by norm_num) (by norm_num)
  obtain ⟨-, h6⟩ := Dbl.lit2_val (m := 48000) (e := 0) (by norm_num) (by norm_num) (by norm_num)
  show 0 < Dbl.val _ / Dbl.val _ ∧ Dbl.val _ / Dbl.val _ < 1 / 2 ∧ 1 / 2 ≤ Dbl.val _ ∧ 2 * Dbl.val _ + 1 ≤
    5 * Real.sin (2 * Real.pi * (Dbl.val _ / Dbl.val _))
  rw [h2, h4, h6]
  have e : 2 * Real.pi * (((6000 : ℤ) : ℝ) * 2 ^ (0 : ℤ) / (((48000 : ℤ) : ℝ) * 2 ^ (0 : ℤ))) = Real.pi / 4 := by
    norm_num; ring
  rw [e, Real.sin_pi_div_four]
  have : (1.4 : ℝ) ≤ Real.sqrt 2 := Real.le_sqrt_of_sq_le (by norm_num)
  norm_num
  linarith

/-- the arguments are finite and the rate is not zero -/
example : doubleRounds.FinArgs (.lowPass (.lit2 6000 0) (.lit2 1 0)) ∧ (Dbl.lit2 48000 0).Finite ∧
    (Dbl.lit2 48000 0).val ≠ 0 := by
  obtain ⟨h1, -⟩ := Dbl.lit2_val (m := 6000) (e := 0) (by norm_num) (by norm_num) (by norm_num)
  obtain ⟨h3, -⟩ := Dbl.lit2_val (m := 1) (e := 0) (by norm_num) (by norm_num) (by norm_num)
  obtain ⟨h5, h6⟩ := Dbl.lit2_val (m := 48000) (e := 0) (by norm_num) (by norm_num) (by norm_num)
  exact ⟨⟨h1, h3⟩, h5, by rw [h6]; norm_num⟩

/-- a notch at a quarter of the sampling rate with quality 1: `e^(-π/4) < 1/2` -/
example : SharpRBJ 4 (.iirNotch (1 / 4) 1) := by
  refine ⟨by norm_num, by norm_num, by norm_num, ?_⟩
  have h : Real.exp (-(Real.pi * (1 / 4) / 1)) ≤ 1 / 2 := by
    rw [Real.exp_neg, inv_le_comm₀ (Real.exp_pos _) (by norm_num)]
    have h1 := Real.pi_gt_d2
    have h2 : Real.exp (Real.log 2) ≤ Real.exp (Real.pi * (1 / 4) / 1) := by
      apply Real.exp_le_exp.2
      have := Real.log_two_lt_d9
      norm_num at *
      linarith
    rw [Real.exp_log (by norm_num)] at h2
    norm_num at *
    exact h2
  linarith

/-- inputs up to 1 -/
example : doubleRounds.Input 1 (fun _ => Dbl.lit2 1 (-1)) ∧ ((1 : ℝ) / 2) ^ 1000 ≤ 1 ∧ (1 : ℝ) ≤ 2 ^ 900 := by
  obtain ⟨h3, h4⟩ := Dbl.lit2_val (m := 1) (e := -1) (by norm_num) (by norm_num) (by norm_num)
  refine ⟨fun n => ⟨h3, ?_⟩, pow_le_one₀ (by norm_num) (by norm_num), one_le_pow₀ (by norm_num)⟩
  show |Dbl.val _| ≤ 1
  rw [h4]
  norm_num

end Iir
