import Verif.Lemmas.ShelfResponse
import Verif.Props.ResponseAccuracy
import Verif.Props.SampleAccuracy
import Verif.Props.Contraction

/-! # C82: an RBJ shelf designed and run in floating point arithmetic stays close to the ideal shelf

C76 covers the RBJ filters without a gain.  The errors of the shelves grow with the gain: `γ = 10^(|g|/40)` enters the bound
in the fifth power. -/

set_option linter.unusedSectionVars false

namespace Iir
open FArith XR Spec Exec

variable {R : Type} [FArith R] {u η Ω : ℝ}

/-- The parameters describe a shelf whose section is close to the ideal one. -/
theorem near_gain {r : Rounds R u η Ω} (ha : r.Accurate) {d : RBJ.Design R} (hf : r.FinArgs d) {d0 : RBJ.Design ℝ}
    (hn : NearShelf (1 / 2 ^ 50) (r.valRBJ d) d0) {σ : ℝ} (hs : SharpShelf σ d0) (hσ : σ ≤ 2 ^ 10) :
    ∃ k, NearGain r σ (shelfGain d0) d (finRBJ d0) k := by
  cases d with
  | lowShelf fc g s =>
    cases d0 <;> try exact hn.elim
    exact near_shelf ha hf.1 hf.2.1 hf.2.2 hn.1 hn.2.1 hn.2.2 hs.1 hs.2.1 hs.2.2.1 hs.2.2.2.1 hs.2.2.2.2.1 hs.2.2.2.2.2.1
      hs.2.2.2.2.2.2 (.inl ⟨rfl, rfl⟩)
  | highShelf fc g s =>
    cases d0 <;> try exact hn.elim
    exact near_shelf ha hf.1 hf.2.1 hf.2.2 hn.1 hn.2.1 hn.2.2 hs.1 hs.2.1 hs.2.2.1 hs.2.2.2.1 hs.2.2.2.2.1 hs.2.2.2.2.2.1
      hs.2.2.2.2.2.2 (.inr ⟨rfl, rfl⟩)
  | bandShelf fc g w =>
    cases d0 <;> try exact hn.elim
    exact near_band ha hf.1 hf.2.1 hf.2.2 hn.1 hn.2.1 hn.2.2 hs.1 hs.2.1 hs.2.2.1 hs.2.2.2.1 hs.2.2.2.2.1 hs.2.2.2.2.2 hσ
  | lowPass fc q => exact hn.elim
  | highPass fc q => exact hn.elim
  | bandPass1 fc q => exact hn.elim
  | bandPass2 fc q => exact hn.elim
  | bandStop fc q => exact hn.elim
  | allPass fc q => exact hn.elim
  | iirNotch fc q => exact hn.elim

/-- The quotient of frequency and sampling rate is rounded once. -/
theorem near_shelfRate {r : Rounds R u η Ω} (ha : r.Accurate) {fs : R} {d : RBJ.Design R} (hfs : r.Fin fs)
    (h0 : r.val fs ≠ 0) (hf : r.FinArgs d) {σ : ℝ} (hs : SharpShelf σ (overRate (r.val fs) (r.valRBJ d))) :
    r.FinArgs (d.overFs fs) ∧ NearShelf (1 / 2 ^ 50) (r.valRBJ (d.overFs fs)) (overRate (r.val fs) (r.valRBJ d)) := by
  have key : ∀ {fc : R}, r.Fin fc → 0 < r.val fc / r.val fs → r.val fc / r.val fs < 1 / 2 →
      r.Fin (fc / fs) ∧ |r.val (fc / fs) - r.val fc / r.val fs| ≤ 1 / 2 ^ 50 := fun {fc} hfc h1 h2 => by
    obtain ⟨h3, h4⟩ := raw_div ha hfc hfs h0 (M := 1 / 2) (by rw [abs_of_pos h1]; exact h2.le) (by norm_num)
    exact ⟨h3, h4.trans (by norm_num)⟩
  cases d with
  | lowShelf fc g s => exact ⟨⟨(key hf.1 hs.1 hs.2.1).1, hf.2⟩, (key hf.1 hs.1 hs.2.1).2, rfl, rfl⟩
  | highShelf fc g s => exact ⟨⟨(key hf.1 hs.1 hs.2.1).1, hf.2⟩, (key hf.1 hs.1 hs.2.1).2, rfl, rfl⟩
  | bandShelf fc g w => exact ⟨⟨(key hf.1 hs.1 hs.2.1).1, hf.2⟩, (key hf.1 hs.1 hs.2.1).2, rfl, rfl⟩
  | lowPass fc q => exact hs.elim
  | highPass fc q => exact hs.elim
  | bandPass1 fc q => exact hs.elim
  | bandPass2 fc q => exact hs.elim
  | bandStop fc q => exact hs.elim
  | allPass fc q => exact hs.elim
  | iirNotch fc q => exact hs.elim

/-- **C82**: the shelf is set up, whatever the filter was before, and run on any input of magnitude at most `X`.  Then all
outputs are finite, and at all times within `γ⁵ σ⁴ 2⁻³⁴ (X + 2⁷⁰ η)` of the output of the ideal shelf, where `σ` is the
sharpness and `γ²` the largest gain (or the inverse of the smallest).  The frequency may itself have been rounded, and the compiler may have
fused products and sums in `filter`. -/
theorem C82_fused (r : Rounds R u η Ω) (ha : r.Accurate) (d : RBJ.Design R) (hf : r.FinArgs d) (d0 : RBJ.Design ℝ)
    (hn : NearShelf (1 / 2 ^ 50) (r.valRBJ d) d0) {σ : ℝ} (hs : SharpShelf σ d0) (hσ : σ ≤ 2 ^ 10) (f : RBJ.Filter R) :
    ∃ f', RBJ.Filter.setupN d f = (.ok (), f') ∧ ∀ X x, r.Input X x → 2 ^ 40 * (X + η) ≤ Ω →
      ∃ y, RBJRuns (finRBJ d0) (fun n => r.val (x n)) y ∧ ∀ F, (∀ fma ∈ F, r.Fused fma) →
        ∀ y', (RBJ.Filter.reset f').2.ReturnsC F x y' → r.Within (shelfGain d0 ^ 5 * σ ^ 4 / 2 ^ 34 * (X + 2 ^ 70 * η)) y' y := by
  obtain ⟨k, hk⟩ := near_gain ha hf hn hs hσ
  obtain ⟨f', h1, h2⟩ := hk.accurate ha.u_le hσ f
  refine ⟨f', h1, fun X x hx hΩ => ?_⟩
  obtain ⟨y, h3, h4⟩ := h2 X x hx hΩ
  exact ⟨y, h3, fun F hF y' hy => h4 F hF y' (RBJ.Filter.ReturnsC.chain hy)⟩

/-- **C82** without fused operations: the samples that `filter` returns. -/
theorem C82_accurate (r : Rounds R u η Ω) (ha : r.Accurate) (d : RBJ.Design R) (hf : r.FinArgs d) (d0 : RBJ.Design ℝ)
    (hn : NearShelf (1 / 2 ^ 50) (r.valRBJ d) d0) {σ : ℝ} (hs : SharpShelf σ d0) (hσ : σ ≤ 2 ^ 10) (f : RBJ.Filter R) :
    ∃ f', RBJ.Filter.setupN d f = (.ok (), f') ∧ ∀ X x, r.Input X x → 2 ^ 40 * (X + η) ≤ Ω →
      ∃ y', Returns (RBJ.Filter.filter (T := R)) (RBJ.Filter.reset f').2 x y' ∧
        ∃ y, RBJRuns (finRBJ d0) (fun n => r.val (x n)) y ∧
          r.Within (shelfGain d0 ^ 5 * σ ^ 4 / 2 ^ 34 * (X + 2 ^ 70 * η)) y' y := by
  obtain ⟨f', h1, h2⟩ := C82_fused r ha d hf d0 hn hs hσ f
  refine ⟨f', h1, fun X x hx hΩ => ⟨_, RBJ.Filter.returns_outAt _ x, ?_⟩⟩
  obtain ⟨y, h3, h4⟩ := h2 X x hx hΩ
  exact ⟨y, h3, h4 none (by simp) _ ((C79_plain_rbj _ x _).2 (RBJ.Filter.returns_outAt _ x))⟩

/-- **C82** with a sampling rate: the ideal shelf has the exact quotient of frequency and sampling rate. -/
theorem C82_sampleRate (r : Rounds R u η Ω) (ha : r.Accurate) (fs : R) (d : RBJ.Design R) (hfs : r.Fin fs)
    (h0 : r.val fs ≠ 0) (hf : r.FinArgs d) {σ : ℝ} (hs : SharpShelf σ (overRate (r.val fs) (r.valRBJ d))) (hσ : σ ≤ 2 ^ 10)
    (f : RBJ.Filter R) :
    ∃ f', RBJ.Filter.setup fs d f = (.ok (), f') ∧ ∀ X x, r.Input X x → 2 ^ 40 * (X + η) ≤ Ω →
      ∃ y', Returns (RBJ.Filter.filter (T := R)) (RBJ.Filter.reset f').2 x y' ∧
        ∃ y, RBJRuns (finRBJ (overRate (r.val fs) (r.valRBJ d))) (fun n => r.val (x n)) y ∧
          r.Within (shelfGain (overRate (r.val fs) (r.valRBJ d)) ^ 5 * σ ^ 4 / 2 ^ 34 * (X + 2 ^ 70 * η)) y' y := by
  have both := near_shelfRate ha hfs h0 hf hs
  exact C82_accurate r ha (d.overFs fs) both.1 _ both.2 hs hσ f

theorem double_range40 {X : ℝ} (h1 : (1 / 2) ^ 1000 ≤ X) (h2 : X ≤ 2 ^ 900) : 2 ^ 40 * (X + (1 / 2) ^ 1075) ≤ maxDouble := by
  have e2 : ((1 : ℝ) / 2) ^ 1075 ≤ (1 / 2) ^ 1000 := pow_le_pow_of_le_one (by norm_num) (by norm_num) (by norm_num)
  have e3 : (2 : ℝ) ^ 971 = 2 ^ 71 * 2 ^ 900 := by rw [← pow_add]
  have e4 : (0 : ℝ) ≤ 2 ^ 900 := by positivity
  unfold maxDouble
  rw [e3]
  generalize (2 : ℝ) ^ 900 = B at *
  generalize ((1 : ℝ) / 2) ^ 1000 = b at *
  generalize ((1 : ℝ) / 2) ^ 1075 = c at *
  have e5 : (2 ^ 53 - 1) * (2 ^ 71 * B) = ((2 ^ 53 - 1) * 2 ^ 71) * B := by ring
  rw [e5]
  have e6 : 2 ^ 40 * (X + c) ≤ 2 ^ 41 * B := by
    clear e3 e5
    linarith
  refine e6.trans (mul_le_mul_of_nonneg_right (by norm_num) e4)

/-- **C82** for IEEE doubles: the error is at most `γ⁵ σ⁴ 2⁻³³` of the largest input. -/
theorem C82_double (fs : Dbl) (d : RBJ.Design Dbl) (hfs : fs.Finite) (h0 : fs.val ≠ 0) (hf : doubleRounds.FinArgs d) {σ : ℝ}
    (hs : SharpShelf σ (overRate fs.val (doubleRounds.valRBJ d))) (hσ : σ ≤ 2 ^ 10) (f : RBJ.Filter Dbl) :
    ∃ f', RBJ.Filter.setup fs d f = (.ok (), f') ∧ ∀ X x, doubleRounds.Input X x → (1 / 2) ^ 1000 ≤ X → X ≤ 2 ^ 900 →
      ∃ y', Returns (RBJ.Filter.filter (T := Dbl)) (RBJ.Filter.reset f').2 x y' ∧
        ∃ y, RBJRuns (finRBJ (overRate fs.val (doubleRounds.valRBJ d))) (fun n => (x n).val) y ∧
          ∀ n, (y' n).Finite ∧ |(y' n).val - y n| ≤ shelfGain (overRate fs.val (doubleRounds.valRBJ d)) ^ 5 * σ ^ 4 / 2 ^ 33 * X := by
  obtain ⟨f', h1, h2⟩ := C82_sampleRate doubleRounds doubleRounds_accurate fs d hfs h0 hf hs hσ f
  refine ⟨f', h1, fun X x hx hX1 hX2 => ?_⟩
  obtain ⟨-, r2⟩ := double_range hX1 hX2
  obtain ⟨y', h3, y, h4, h5⟩ := h2 X x hx (double_range40 hX1 hX2)
  refine ⟨y', h3, y, h4, fun n => ⟨(h5 n).1, (h5 n).2.trans ?_⟩⟩
  have hg : 0 ≤ shelfGain (overRate fs.val (doubleRounds.valRBJ d)) ^ 5 * σ ^ 4 / 2 ^ 34 := by
    have : 0 ≤ shelfGain (overRate fs.val (doubleRounds.valRBJ d)) := by
      unfold shelfGain; split <;> positivity
    positivity
  have e : ∀ c : ℝ, c / 2 ^ 33 * X = c / 2 ^ 34 * (2 * X) := fun c => by ring
  rw [e]
  exact mul_le_mul_of_nonneg_left r2 hg

/-- **C82** for samples of any type, as C81. -/
theorem C82_samples {T : Type} [Sample T Dbl] (cv : Converts T) (fs : Dbl) (d : RBJ.Design Dbl) (hfs : fs.Finite) (h0 : fs.val ≠ 0)
    (hf : doubleRounds.FinArgs d) {σ : ℝ} (hs : SharpShelf σ (overRate fs.val (doubleRounds.valRBJ d))) (hσ : σ ≤ 2 ^ 10)
    (f : RBJ.Filter Dbl) :
    ∃ f', RBJ.Filter.setup fs d f = (.ok (), f') ∧
      ∀ X x, (∀ n, cv.Ok (x n) ∧ |cv.num (x n)| ≤ X) → (1 / 2) ^ 1000 ≤ X → X ≤ 2 ^ 900 →
      ∃ y, RBJRuns (finRBJ (overRate fs.val (doubleRounds.valRBJ d))) (fun n => cv.num (x n)) y ∧
        Delivers cv (RBJ.Filter.filter (T := T)) (RBJ.Filter.reset f').2 x y
          (shelfGain (overRate fs.val (doubleRounds.valRBJ d)) ^ 5 * σ ^ 4 / 2 ^ 33 * X) := by
  obtain ⟨f', h1, h2⟩ := C82_double fs d hfs h0 hf hs hσ f
  refine ⟨f', h1, fun X x hx hX1 hX2 => ?_⟩
  have hw := fun n => cv.widen (x n) (hx n).1
  obtain ⟨y', h3, y, h4, h5⟩ := h2 X (fun n => Sample.toR (x n)) (fun n => ⟨(hw n).1, by
    show |Dbl.val _| ≤ X
    rw [(hw n).2]; exact (hx n).2⟩) hX1 hX2
  refine ⟨y, ?_, casts_rbj.delivers cv h3 h5⟩
  rwa [show (fun n => cv.num (x n)) = fun n => Dbl.val (Sample.toR (x n)) from funext fun n => (hw n).2.symm]

/-! ## `response` -/

/-- **C82** for `response`: it differs by at most `γ⁵ σ⁴ 2⁻³²` from that of the ideal section. -/
theorem C82_response {r : Rounds R u η Ω} (hl : r.Library) {d : RBJ.Design R} (hf : r.FinArgs d) {d0 : RBJ.Design ℝ}
    (hn : NearShelf (1 / 2 ^ 50) (r.valRBJ d) d0) {σ : ℝ} (hs : SharpShelf σ d0) (hσ : σ ≤ 2 ^ 10) (f : RBJ.Filter R) :
    ∃ f', RBJ.Filter.setupN d f = (.ok (), f') ∧ ∀ fr, r.Fin fr → 0 ≤ r.val fr → r.val fr ≤ 1 / 2 →
      ∃ v, f'.biquad.response fr = .ok v ∧ r.CFin v ∧ AfterRBJ (finRBJ d0) fun b =>
        ∃ H, SectionResponse b (r.val fr) H ∧ ‖r.cval v - H‖ ≤ shelfGain d0 ^ 5 * σ ^ 4 / 2 ^ 32 := by
  obtain ⟨k, hk⟩ := near_gain hl.toAccurate hf hn hs hσ
  exact NearGain.response hl hk hσ f

/-- **C82** for `response` in IEEE doubles, with a sampling rate. -/
theorem C82_response_double {fs : Dbl} {d : RBJ.Design Dbl} (hfs : fs.Finite) (h0 : fs.val ≠ 0)
    (hf : doubleRounds.FinArgs d) {σ : ℝ} (hs : SharpShelf σ (overRate fs.val (doubleRounds.valRBJ d))) (hσ : σ ≤ 2 ^ 10)
    (f : RBJ.Filter Dbl) :
    ∃ f', RBJ.Filter.setup fs d f = (.ok (), f') ∧ ∀ fr : Dbl, fr.Finite → 0 ≤ fr.val → fr.val ≤ 1 / 2 →
      ∃ v, f'.biquad.response fr = .ok v ∧ (v.re.Finite ∧ v.im.Finite) ∧
        AfterRBJ (finRBJ (overRate fs.val (doubleRounds.valRBJ d))) fun b =>
          ∃ H, SectionResponse b fr.val H ∧ ‖(⟨v.re.val, v.im.val⟩ : ℂ) - H‖ ≤
            shelfGain (overRate fs.val (doubleRounds.valRBJ d)) ^ 5 * σ ^ 4 / 2 ^ 32 := by
  have both := near_shelfRate (r := doubleRounds) doubleRounds_accurate hfs h0 hf hs
  exact C82_response (r := doubleRounds) doubleRounds_library (d := d.overFs fs) both.1 both.2 hs hσ f

/-! ## Cases -/

/-- a boost of 6 dB: `1.4 ≤ 10^(6/40) ≤ 1.42`, `10^(6/80) ≤ 1.2` -/
theorem six_dB : 1.4 ≤ (10 : ℝ) ^ ((6 : ℝ) / 40) ∧ (10 : ℝ) ^ ((6 : ℝ) / 40) ≤ 1.42 ∧ (10 : ℝ) ^ ((6 : ℝ) / 80) ≤ 1.2 := by
  have e1 : ((10 : ℝ) ^ ((6 : ℝ) / 40)) ^ 20 = 10 ^ 3 := by
    rw [← Real.rpow_natCast, ← Real.rpow_mul (by norm_num), ← Real.rpow_natCast]; norm_num
  have e2 : ((10 : ℝ) ^ ((6 : ℝ) / 80)) ^ 40 = 10 ^ 3 := by
    rw [← Real.rpow_natCast, ← Real.rpow_mul (by norm_num), ← Real.rpow_natCast]; norm_num
  refine ⟨?_, ?_, ?_⟩
  · refine le_of_pow_le_pow_left₀ (n := 20) (by norm_num) (by positivity) ?_
    rw [e1]; norm_num
  · refine le_of_pow_le_pow_left₀ (n := 20) (by norm_num) (by norm_num) ?_
    rw [e1]; norm_num
  · refine le_of_pow_le_pow_left₀ (n := 40) (by norm_num) (by norm_num) ?_
    rw [e2]; norm_num

/-- a low shelf at 6000 Hz with a sampling rate of 48000 Hz, 6 dB and slope 1 has sharpness at most 6: the error is at most
`5.8 · 1296 / 2 ^ 33`, less than a millionth of the largest input -/
theorem exLowShelf_sharp : SharpShelf 6 (overRate (Dbl.lit2 48000 0).val (doubleRounds.valRBJ (.lowShelf (.lit2 6000 0) (.lit2 6 0) (.lit2 1 0)))) := by
  obtain ⟨-, h2⟩ := Dbl.lit2_val (m := 6000) (e := 0) (by norm_num) (by norm_num) (by norm_num)
  obtain ⟨-, h3⟩ := Dbl.lit2_val (m := 6) (e := 0) (by norm_num) (by norm_num) (by norm_num)
  obtain ⟨-, h4⟩ := Dbl.lit2_val (m := 1) (e := 0) (by norm_num) (by norm_num) (by norm_num)
  obtain ⟨-, h6⟩ := Dbl.lit2_val (m := 48000) (e := 0) (by norm_num) (by norm_num) (by norm_num)
  show 0 < Dbl.val _ / Dbl.val _ ∧ Dbl.val _ / Dbl.val _ < 1 / 2 ∧ |Dbl.val _| ≤ 24 ∧ 0 < Dbl.val _ ∧ Dbl.val _ ≤ 1 ∧
    ((10 : ℝ) ^ (Dbl.val _ / 40) + (10 : ℝ) ^ (-Dbl.val _ / 40)) * (1 / Dbl.val _ - 1) ≤ 2 ∧
      3 * (10 : ℝ) ^ (|Dbl.val _| / 80) ≤ 6 * Real.sin (2 * Real.pi * (Dbl.val _ / Dbl.val _))
  rw [h2, h3, h4, h6]
  have e : 2 * Real.pi * (((6000 : ℤ) : ℝ) * 2 ^ (0 : ℤ) / (((48000 : ℤ) : ℝ) * 2 ^ (0 : ℤ))) = Real.pi / 4 := by
    norm_num; ring
  have e6 : |((6 : ℤ) : ℝ) * 2 ^ (0 : ℤ)| = 6 := by norm_num
  rw [e, e6, Real.sin_pi_div_four]
  have : (1.4 : ℝ) ≤ Real.sqrt 2 := Real.le_sqrt_of_sq_le (by norm_num)
  have h7 := six_dB.2.2
  refine ⟨by norm_num, by norm_num, by norm_num, by norm_num, by norm_num, by norm_num, ?_⟩
  linarith

/-- a boost of 6 dB in a band of one octave around a quarter of the sampling rate; a cut of 6 dB of the frequencies above -/
example : SharpShelf 4 (.bandShelf (1 / 4) 6 1) ∧ SharpShelf 6 (.highShelf (1 / 4) (-6) (2 / 3)) := by
  obtain ⟨h1, h2, h3⟩ := six_dB
  have e : 2 * Real.pi * (1 / 4) = Real.pi / 2 := by ring
  constructor
  · have l1 := Real.log_two_gt_d9
    have l2 := Real.log_two_lt_d9
    have p1 := Real.pi_gt_d2
    have p2 := Real.pi_lt_d2
    obtain ⟨x, hx⟩ : ∃ x, x = Real.log 2 / 2 * 1 * (Real.pi / 2) / 1 := ⟨_, rfl⟩
    have x1 : 0.54 ≤ x := by rw [hx]; nlinarith
    have x2 : x ≤ 1 := by rw [hx]; nlinarith
    have s1 : x ≤ Real.sinh x := Real.self_le_sinh_iff.2 (by linarith)
    have s2 : Real.sinh x ≤ 1.4 := by
      rw [Real.sinh_eq]
      have a := Real.exp_le_exp.2 x2
      have b := Real.exp_one_lt_d9
      have c := Real.exp_pos (-x)
      linarith
    show 0 < (1 / 4 : ℝ) ∧ (1 / 4 : ℝ) < 1 / 2 ∧ |(6 : ℝ)| ≤ 24 ∧ 0 < (1 : ℝ) ∧
      Real.sinh (Real.log 2 / 2 * 1 * (2 * Real.pi * (1 / 4)) / Real.sin (2 * Real.pi * (1 / 4))) ≤ (10 : ℝ) ^ ((6 : ℝ) / 40) ∧ _
    rw [e, Real.sin_pi_div_two, ← hx]
    refine ⟨by norm_num, by norm_num, by norm_num, by norm_num, by linarith, ?_⟩
    show (10 : ℝ) ^ ((6 : ℝ) / 40) + Real.sinh x ≤ 4 * 1 * Real.sinh x
    linarith
  · show 0 < (1 / 4 : ℝ) ∧ (1 / 4 : ℝ) < 1 / 2 ∧ |(-6 : ℝ)| ≤ 24 ∧ 0 < (2 / 3 : ℝ) ∧ (2 / 3 : ℝ) ≤ 1 ∧
      ((10 : ℝ) ^ ((-6 : ℝ) / 40) + (10 : ℝ) ^ (-(-6 : ℝ) / 40)) * (1 / (2 / 3) - 1) ≤ 2 ∧
        3 * (10 : ℝ) ^ (|(-6 : ℝ)| / 80) ≤ 6 * Real.sin (2 * Real.pi * (1 / 4))
    rw [e, Real.sin_pi_div_two, neg_div, Real.rpow_neg (by norm_num), neg_neg, abs_neg, abs_of_pos (by norm_num : (0 : ℝ) < 6)]
    refine ⟨by norm_num, by norm_num, by norm_num, by norm_num, by norm_num, ?_, by linarith⟩
    have : ((10 : ℝ) ^ ((6 : ℝ) / 40))⁻¹ ≤ 1 := inv_le_one_of_one_le₀ (by linarith)
    norm_num at *
    linarith

end Iir
