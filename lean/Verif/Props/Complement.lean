import Verif.Props.Forget

/-! # C56–C58: filters that complement or undo each other -/

set_option linter.unusedSectionVars false

namespace Iir
open FArith XR Spec Exec

/-! ## Statements -/

/-- Any RBJ filter, set up with `d` and reset, turns the samples `x` into `y`. -/
def Spec.RBJRuns (d : RBJ.Design XR) (x y : ℕ → ℝ) : Prop :=
  ∀ f : RBJ.Filter XR, ∃ f', RBJ.Filter.setupN d f = (.ok (), f') ∧
    Produces (RBJ.Filter.filter (T := XR)) (RBJ.Filter.reset f').2 x y

/-- Two objects are set up, whatever was done with them before; both succeed and then have property `P`. -/
def Spec.AfterBoth (S : Type → Type) [StateType S XR] (T : Type) [Sample T XR] (n n' : ℕ) (call call' : Call XR)
    (P : PoleFilter S XR → PoleFilter S XR → Prop) : Prop :=
  ∀ f f', Reach S T call.design.cls n f → Reach S T call'.design.cls n' f' →
    ∃ g g', PoleFilter.setup n call f = (.ok (), g) ∧ PoleFilter.setup n' call' f' = (.ok (), g') ∧ P g g'

/-- The same shelf with opposite gains. -/
inductive Spec.Opposite : Design XR → Design XR → Prop
  | bwLow (fc g : ℝ) : Opposite (.bwLowShelf (fin fc) (fin g)) (.bwLowShelf (fin fc) (fin (-g)))
  | bwHigh (fc g : ℝ) : Opposite (.bwHighShelf (fin fc) (fin g)) (.bwHighShelf (fin fc) (fin (-g)))
  | bwBand (fc fw g : ℝ) :
    Opposite (.bwBandShelf (fin fc) (fin fw) (fin g)) (.bwBandShelf (fin fc) (fin fw) (fin (-g)))
  | c1Low (fc g r : ℝ) :
    Opposite (.c1LowShelf (fin fc) (fin g) (fin r)) (.c1LowShelf (fin fc) (fin (-g)) (fin r))
  | c1High (fc g r : ℝ) :
    Opposite (.c1HighShelf (fin fc) (fin g) (fin r)) (.c1HighShelf (fin fc) (fin (-g)) (fin r))
  | c1Band (fc fw g r : ℝ) :
    Opposite (.c1BandShelf (fin fc) (fin fw) (fin g) (fin r)) (.c1BandShelf (fin fc) (fin fw) (fin (-g)) (fin r))
  | c2Low (fc g r : ℝ) :
    Opposite (.c2LowShelf (fin fc) (fin g) (fin r)) (.c2LowShelf (fin fc) (fin (-g)) (fin r))
  | c2High (fc g r : ℝ) :
    Opposite (.c2HighShelf (fin fc) (fin g) (fin r)) (.c2HighShelf (fin fc) (fin (-g)) (fin r))
  | c2Band (fc fw g r : ℝ) :
    Opposite (.c2BandShelf (fin fc) (fin fw) (fin g) (fin r)) (.c2BandShelf (fin fc) (fin fw) (fin (-g)) (fin r))

/-! ## Tools -/

theorem rbjRuns_iff {d : RBJ.Design XR} (k : Coeffs) (hk : k.a0 ≠ 0)
    (h : ∀ b, d.setupN b =
      Biquad.setCoefficients (fin k.a0) (fin k.a1) (fin k.a2) (fin k.b0) (fin k.b1) (fin k.b2) b)
    (x y : ℕ → ℝ) : RBJRuns d x y ↔ k.DiffEq x y := by
  have ha : AfterRBJ d fun b => HasCoeffs b k := afterRBJ_of k hk h fun b hb => hb
  constructor
  · intro hr
    obtain ⟨f', h1, h2⟩ := hr RBJ.Filter.init
    obtain ⟨f'', h3, -, h4⟩ := ha RBJ.Filter.init
    rw [h1] at h3
    obtain rfl := congrArg Prod.snd h3
    exact (C01_rbj h4 x y).1 h2
  · intro hd f
    obtain ⟨f', h1, -, h2⟩ := ha f
    exact ⟨f', h1, (C01_rbj h2 x y).2 hd⟩

theorem delayed_add (k : ℕ) (x y : ℕ → ℝ) (n : ℕ) :
    delayed k (fun n => x n + y n) n = delayed k x n + delayed k y n := by
  unfold delayed; split <;> simp

theorem delayed_mul (k : ℕ) (c : ℝ) (x : ℕ → ℝ) (n : ℕ) : delayed k (fun n => c * x n) n = c * delayed k x n := by
  unfold delayed; split <;> simp

theorem diffEq_self {a0 a1 a2 : ℝ} (h : a0 ≠ 0) (x : ℕ → ℝ) : Coeffs.DiffEq ⟨a0, a1, a2, a0, a1, a2⟩ x x := by
  intro n
  simp only
  field_simp
  ring

/-- sections with the same denominator in parallel -/
theorem diffEq_parallel {a0 a1 a2 b0 b1 b2 b0' b1' b2' d0 d1 d2 c c' : ℝ} {x y y' z : ℕ → ℝ}
    (h : Coeffs.DiffEq ⟨a0, a1, a2, b0, b1, b2⟩ x y) (h' : Coeffs.DiffEq ⟨a0, a1, a2, b0', b1', b2'⟩ x y')
    (hz : Coeffs.DiffEq ⟨a0, a1, a2, d0, d1, d2⟩ x z) (e0 : d0 = c * b0 + c' * b0') (e1 : d1 = c * b1 + c' * b1')
    (e2 : d2 = c * b2 + c' * b2') (n : ℕ) : z n = c * y n + c' * y' n := by
  subst e0 e1 e2
  refine congrFun (C01_unique (y' := fun n => c * y n + c' * y' n) hz fun n => ?_) n
  have e := h n
  have e' := h' n
  simp only [delayed_add, delayed_mul] at e e' ⊢
  rw [e, e']
  ring

/-- numerator and denominator exchanged (up to a factor): the section that undoes the first -/
theorem diffEq_inverse {k k' : Coeffs} (hk : k.a0 ≠ 0) {c : ℝ} (hc : c ≠ 0) (hk' : k.b0 ≠ 0) (ha0 : k'.a0 = c * k.b0)
    (ha1 : k'.a1 = c * k.b1) (ha2 : k'.a2 = c * k.b2) (hb0 : k'.b0 = c * k.a0) (hb1 : k'.b1 = c * k.a1)
    (hb2 : k'.b2 = c * k.a2) {x y : ℕ → ℝ} (h : k.DiffEq x y) : k'.DiffEq y x := by
  intro n
  have e := h n
  rw [eq_div_iff hk] at e
  rw [ha0, ha1, ha2, hb0, hb1, hb2, eq_div_iff (mul_ne_zero hc hk')]
  linear_combination (-c) * e

/-! ## C56 -/

section rbj
variable {f0 q : ℝ} (h0 : 0 < f0) (h1 : f0 < 1 / 2) (hq : 0 < q)
include h0 h1 hq

/-- leading coefficient of the RBJ filters -/
theorem rbj_lead : 1 + Real.sin (2 * Real.pi * f0) / (2 * q) ≠ 0 := by
  obtain ⟨hs, -⟩ := trig_facts h0 h1
  positivity

/-- **C56**: RBJ band stop and band pass (constant 0 dB peak) of the same frequency and width add up to the input,
sample for sample. -/
theorem C56_bandStop_bandPass {x y y' : ℕ → ℝ} (h : RBJRuns (.bandStop (fin f0) (fin q)) x y)
    (h' : RBJRuns (.bandPass2 (fin f0) (fin q)) x y') (n : ℕ) : y n + y' n = x n := by
  have hl := rbj_lead h0 h1 hq
  rw [rbjRuns_iff ⟨_, _, _, _, _, _⟩ hl (bandStop_setup hq)] at h
  rw [rbjRuns_iff ⟨_, _, _, _, _, _⟩ hl (bandPass2_setup hq)] at h'
  have := diffEq_parallel (c := 1) (c' := 1) h h' (diffEq_self hl x) (by ring) (by ring) (by ring) n
  linarith

/-- **C56**: RBJ low pass and high pass of the same frequency and quality add up to the band stop. -/
theorem C56_lowPass_highPass {x y y' z : ℕ → ℝ} (h : RBJRuns (.lowPass (fin f0) (fin q)) x y)
    (h' : RBJRuns (.highPass (fin f0) (fin q)) x y') (h'' : RBJRuns (.bandStop (fin f0) (fin q)) x z) (n : ℕ) :
    y n + y' n = z n := by
  have hl := rbj_lead h0 h1 hq
  rw [rbjRuns_iff ⟨_, _, _, _, _, _⟩ hl (lowPass_setup hq)] at h
  rw [rbjRuns_iff ⟨_, _, _, _, _, _⟩ hl (highPass_setup hq)] at h'
  rw [rbjRuns_iff ⟨_, _, _, _, _, _⟩ hl (bandStop_setup hq)] at h''
  have := diffEq_parallel (c := 1) (c' := 1) h h' h'' (by ring) (by ring) (by ring) n
  linarith

/-- **C56**: the RBJ all pass is the input minus twice the band pass. -/
theorem C56_allPass {x y z : ℕ → ℝ} (h : RBJRuns (.allPass (fin f0) (fin q)) x z)
    (h' : RBJRuns (.bandPass2 (fin f0) (fin q)) x y) (n : ℕ) : z n = x n - 2 * y n := by
  have hl := rbj_lead h0 h1 hq
  rw [rbjRuns_iff ⟨_, _, _, _, _, _⟩ hl (allPass_setup hq)] at h
  rw [rbjRuns_iff ⟨_, _, _, _, _, _⟩ hl (bandPass2_setup hq)] at h'
  have := diffEq_parallel (c := 1) (c' := 2) h h' (diffEq_self hl x) (by ring) (by ring) (by ring) n
  linarith

/-- **C56**: the two band passes differ by the factor `q`. -/
theorem C56_bandPass1 {x y y' : ℕ → ℝ} (h : RBJRuns (.bandPass1 (fin f0) (fin q)) x y)
    (h' : RBJRuns (.bandPass2 (fin f0) (fin q)) x y') (n : ℕ) : y n = q * y' n := by
  have hl := rbj_lead h0 h1 hq
  rw [rbjRuns_iff ⟨_, _, _, _, _, _⟩ hl (bandPass1_setup hq)] at h
  rw [rbjRuns_iff ⟨_, _, _, _, _, _⟩ hl (bandPass2_setup hq)] at h'
  have := diffEq_parallel (c := 0) (c' := q) h' h' h (by ring) (by ring) (by ring) n
  linarith

end rbj

/-- every input has an output: the hypotheses of C56 and C57 are met -/
theorem rbjRuns_total {d : RBJ.Design ℝ} (h : ValidRBJ d) (x : ℕ → ℝ) : ∃ y, RBJRuns (finRBJ d) x y := by
  obtain ⟨f, e, -, k, hk, -⟩ := C42_stable d h RBJ.Filter.init
  obtain ⟨y, hy⟩ := (C07_rbj hk).1 x
  refine ⟨y, fun g => ?_⟩
  obtain ⟨f', e', -⟩ := C42_stable d h g
  refine ⟨f', e', ?_⟩
  have := (C12_rbj (finRBJ d) RBJ.Filter.init g).2 (by rw [e])
  rw [e, e'] at this
  rw [C01_rbj hk] at hy
  exact (C01_rbj (this ▸ hk) x y).2 hy

/-- a case: crossover at a quarter of the sampling rate -/
example (x : ℕ → ℝ) : ∃ y y' z, RBJRuns (.lowPass (fin (1 / 4)) (fin 1)) x y ∧
    RBJRuns (.highPass (fin (1 / 4)) (fin 1)) x y' ∧ RBJRuns (.bandPass2 (fin (1 / 4)) (fin 1)) x z ∧
    ∀ n, y n + y' n + z n = x n := by
  have h0 : (0 : ℝ) < 1 / 4 := by norm_num
  have h1 : (1 / 4 : ℝ) < 1 / 2 := by norm_num
  obtain ⟨y, hy⟩ := rbjRuns_total (d := .lowPass (1 / 4) 1) ⟨h0, h1, one_pos⟩ x
  obtain ⟨y', hy'⟩ := rbjRuns_total (d := .highPass (1 / 4) 1) ⟨h0, h1, one_pos⟩ x
  obtain ⟨z, hz⟩ := rbjRuns_total (d := .bandPass2 (1 / 4) 1) ⟨h0, h1, one_pos⟩ x
  obtain ⟨w, hw⟩ := rbjRuns_total (d := .bandStop (1 / 4) 1) ⟨h0, h1, one_pos⟩ x
  refine ⟨y, y', z, hy, hy', hz, fun n => ?_⟩
  rw [C56_lowPass_highPass h0 h1 one_pos hy hy' hw, C56_bandStop_bandPass h0 h1 one_pos hw hz]

/-! ## C57 -/

theorem low_inverse {w c t : ℝ} (hw : 0 < w) (ha : w ^ 2 + 1 + (w ^ 2 - 1) * c + 2 * w * t ≠ 0)
    (hb : w ^ 2 + 1 - (w ^ 2 - 1) * c + 2 * w * t ≠ 0) {x y : ℕ → ℝ}
    (h : Coeffs.DiffEq ⟨w ^ 2 + 1 + (w ^ 2 - 1) * c + 2 * w * t, -2 * (w ^ 2 - 1 + (w ^ 2 + 1) * c),
      w ^ 2 + 1 + (w ^ 2 - 1) * c - 2 * w * t, w ^ 2 * (w ^ 2 + 1 - (w ^ 2 - 1) * c + 2 * w * t),
      2 * w ^ 2 * (w ^ 2 - 1 - (w ^ 2 + 1) * c), w ^ 2 * (w ^ 2 + 1 - (w ^ 2 - 1) * c - 2 * w * t)⟩ x y) :
    Coeffs.DiffEq ⟨w⁻¹ ^ 2 + 1 + (w⁻¹ ^ 2 - 1) * c + 2 * w⁻¹ * t, -2 * (w⁻¹ ^ 2 - 1 + (w⁻¹ ^ 2 + 1) * c),
      w⁻¹ ^ 2 + 1 + (w⁻¹ ^ 2 - 1) * c - 2 * w⁻¹ * t, w⁻¹ ^ 2 * (w⁻¹ ^ 2 + 1 - (w⁻¹ ^ 2 - 1) * c + 2 * w⁻¹ * t),
      2 * w⁻¹ ^ 2 * (w⁻¹ ^ 2 - 1 - (w⁻¹ ^ 2 + 1) * c),
      w⁻¹ ^ 2 * (w⁻¹ ^ 2 + 1 - (w⁻¹ ^ 2 - 1) * c - 2 * w⁻¹ * t)⟩ y x := by
  refine diffEq_inverse ha (c := w⁻¹ ^ 4) (by positivity) (mul_ne_zero (by positivity) hb) ?_ ?_ ?_ ?_ ?_ ?_ h <;>
    simp only <;> field_simp <;> ring

theorem high_inverse {w c t : ℝ} (hw : 0 < w) (ha : w ^ 2 + 1 - (w ^ 2 - 1) * c + 2 * w * t ≠ 0)
    (hb : w ^ 2 + 1 + (w ^ 2 - 1) * c + 2 * w * t ≠ 0) {x y : ℕ → ℝ}
    (h : Coeffs.DiffEq ⟨w ^ 2 + 1 - (w ^ 2 - 1) * c + 2 * w * t, 2 * (w ^ 2 - 1 - (w ^ 2 + 1) * c),
      w ^ 2 + 1 - (w ^ 2 - 1) * c - 2 * w * t, w ^ 2 * (w ^ 2 + 1 + (w ^ 2 - 1) * c + 2 * w * t),
      -2 * w ^ 2 * (w ^ 2 - 1 + (w ^ 2 + 1) * c), w ^ 2 * (w ^ 2 + 1 + (w ^ 2 - 1) * c - 2 * w * t)⟩ x y) :
    Coeffs.DiffEq ⟨w⁻¹ ^ 2 + 1 - (w⁻¹ ^ 2 - 1) * c + 2 * w⁻¹ * t, 2 * (w⁻¹ ^ 2 - 1 - (w⁻¹ ^ 2 + 1) * c),
      w⁻¹ ^ 2 + 1 - (w⁻¹ ^ 2 - 1) * c - 2 * w⁻¹ * t, w⁻¹ ^ 2 * (w⁻¹ ^ 2 + 1 + (w⁻¹ ^ 2 - 1) * c + 2 * w⁻¹ * t),
      -2 * w⁻¹ ^ 2 * (w⁻¹ ^ 2 - 1 + (w⁻¹ ^ 2 + 1) * c),
      w⁻¹ ^ 2 * (w⁻¹ ^ 2 + 1 + (w⁻¹ ^ 2 - 1) * c - 2 * w⁻¹ * t)⟩ y x := by
  refine diffEq_inverse ha (c := w⁻¹ ^ 4) (by positivity) (mul_ne_zero (by positivity) hb) ?_ ?_ ?_ ?_ ?_ ?_ h <;>
    simp only <;> field_simp <;> ring

theorem band_inverse {A c t : ℝ} (hA : 0 < A) (ha : 1 + t / A ≠ 0) (hb : 1 + t * A ≠ 0) {x y : ℕ → ℝ}
    (h : Coeffs.DiffEq ⟨1 + t / A, -2 * c, 1 - t / A, 1 + t * A, -2 * c, 1 - t * A⟩ x y) :
    Coeffs.DiffEq ⟨1 + t / A⁻¹, -2 * c, 1 - t / A⁻¹, 1 + t * A⁻¹, -2 * c, 1 - t * A⁻¹⟩ y x := by
  refine diffEq_inverse ha (c := 1) one_ne_zero hb ?_ ?_ ?_ ?_ ?_ ?_ h <;> simp only <;> field_simp

theorem pow_neg40 (g : ℝ) : (10 : ℝ) ^ (-g / 40) = (√((10 : ℝ) ^ (g / 40)))⁻¹ ^ 2 := by
  rw [inv_pow, Real.sq_sqrt (by positivity), neg_div, Real.rpow_neg (by norm_num)]

theorem pow40 (g : ℝ) : (10 : ℝ) ^ (g / 40) = √((10 : ℝ) ^ (g / 40)) ^ 2 := (Real.sq_sqrt (by positivity)).symm

theorem inv_rad {w : ℝ} (hw : 0 < w) : w⁻¹ ^ 2 + 1 / w⁻¹ ^ 2 = w ^ 2 + 1 / w ^ 2 := by
  field_simp; ring

section shelf
variable {f0 g : ℝ} (h0 : 0 < f0) (h1 : f0 < 1 / 2)
include h0 h1

theorem shelf_pos {A : ℝ} (hA : 0 < A) : 0 < A + 1 + (A - 1) * Real.cos (2 * Real.pi * f0) ∧
    0 < A + 1 - (A - 1) * Real.cos (2 * Real.pi * f0) := by
  obtain ⟨hs, hc1, hc2⟩ := trig_facts h0 h1
  constructor <;> nlinarith

/-- **C57**: a signal boosted by an RBJ low shelf and cut by the one with the opposite gain is restored sample for
sample. -/
theorem C57_rbj_lowShelf {S : ℝ} (hS0 : 0 < S) (hS1 : S ≤ 1) {x y : ℕ → ℝ}
    (h : RBJRuns (.lowShelf (fin f0) (fin g) (fin S)) x y) : RBJRuns (.lowShelf (fin f0) (fin (-g)) (fin S)) y x := by
  obtain ⟨hs, -⟩ := trig_facts h0 h1
  have hA : 0 < (10 : ℝ) ^ (g / 40) := by positivity
  have hw := Real.sqrt_pos.2 hA
  rw [rbjRuns_iff ⟨_, _, _, _, _, _⟩ (by have := (shelf_pos h0 h1 hA).1; positivity) (lowShelf_setup hS0 hS1)] at h
  rw [rbjRuns_iff ⟨_, _, _, _, _, _⟩ (by
    have := (shelf_pos h0 h1 (A := (10 : ℝ) ^ (-g / 40)) (by positivity)).1; positivity) (lowShelf_setup hS0 hS1)]
  have e1 := (shelf_pos h0 h1 (pow_pos hw 2)).1
  have e2 := (shelf_pos h0 h1 (pow_pos hw 2)).2
  rw [pow_neg40, Real.sqrt_sq (inv_pos.2 hw).le, inv_rad hw]
  rw [pow40 g, Real.sqrt_sq (Real.sqrt_nonneg _)] at h
  refine low_inverse hw ?_ ?_ h <;> positivity

/-- **C57**, RBJ high shelf. -/
theorem C57_rbj_highShelf {S : ℝ} (hS0 : 0 < S) (hS1 : S ≤ 1) {x y : ℕ → ℝ}
    (h : RBJRuns (.highShelf (fin f0) (fin g) (fin S)) x y) :
    RBJRuns (.highShelf (fin f0) (fin (-g)) (fin S)) y x := by
  obtain ⟨hs, -⟩ := trig_facts h0 h1
  have hA : 0 < (10 : ℝ) ^ (g / 40) := by positivity
  have hw := Real.sqrt_pos.2 hA
  rw [rbjRuns_iff ⟨_, _, _, _, _, _⟩ (by have := (shelf_pos h0 h1 hA).2; positivity) (highShelf_setup hS0 hS1)] at h
  rw [rbjRuns_iff ⟨_, _, _, _, _, _⟩ (by
    have := (shelf_pos h0 h1 (A := (10 : ℝ) ^ (-g / 40)) (by positivity)).2; positivity) (highShelf_setup hS0 hS1)]
  have e1 := (shelf_pos h0 h1 (pow_pos hw 2)).1
  have e2 := (shelf_pos h0 h1 (pow_pos hw 2)).2
  rw [pow_neg40, Real.sqrt_sq (inv_pos.2 hw).le, inv_rad hw]
  rw [pow40 g, Real.sqrt_sq (Real.sqrt_nonneg _)] at h
  refine high_inverse hw ?_ ?_ h <;> positivity

/-- **C57**, RBJ band shelf. -/
theorem C57_rbj_bandShelf {w : ℝ} (hw : 0 < w) {x y : ℕ → ℝ}
    (h : RBJRuns (.bandShelf (fin f0) (fin g) (fin w)) x y) :
    RBJRuns (.bandShelf (fin f0) (fin (-g)) (fin w)) y x := by
  obtain ⟨hs, -⟩ := trig_facts h0 h1
  have hA : 0 < (10 : ℝ) ^ (g / 40) := by positivity
  have ht : 0 < Real.sin (2 * Real.pi * f0) *
      Real.sinh (Real.log 2 / 2 * w * (2 * Real.pi * f0) / Real.sin (2 * Real.pi * f0)) := by
    refine mul_pos hs (Real.sinh_pos_iff.2 ?_)
    have := Real.log_pos (show (1 : ℝ) < 2 by norm_num)
    positivity
  rw [rbjRuns_iff ⟨_, _, _, _, _, _⟩ (by positivity) (bandShelf_setup hs w)] at h
  rw [rbjRuns_iff ⟨_, _, _, _, _, _⟩ (by positivity) (bandShelf_setup hs w)]
  rw [neg_div, Real.rpow_neg (by norm_num)]
  refine band_inverse hA ?_ ?_ h <;> positivity

end shelf

/-- a case: 6 dB up and down again at a quarter of the sampling rate -/
example (x : ℕ → ℝ) : ∃ y, RBJRuns (.lowShelf (fin (1 / 4)) (fin 6) (fin 1)) x y ∧
    RBJRuns (.lowShelf (fin (1 / 4)) (fin (-6)) (fin 1)) y x := by
  obtain ⟨y, hy⟩ := rbjRuns_total (d := .lowShelf (1 / 4) 6 1) ⟨by norm_num, by norm_num, one_pos, le_rfl⟩ x
  exact ⟨y, hy, C57_rbj_lowShelf (by norm_num) (by norm_num) one_pos le_rfl hy⟩

section pole
variable {S : Type → Type} [StateType S XR] {T : Type} [Sample T XR] {n n' o : ℕ} {call call' : Call XR}

theorem Spec.AfterSetup.both {P Q : PoleFilter S XR → Prop} (h : AfterSetup S T n call P)
    (h' : AfterSetup S T n' call' Q) : AfterBoth S T n n' call call' fun g g' => P g ∧ Q g' := by
  intro f f' hf hf'
  obtain ⟨g, e, -, hp⟩ := h f hf
  obtain ⟨g', e', -, hq⟩ := h' f' hf'
  exact ⟨g, g', e, e', hp, hq⟩

theorem Spec.AfterBoth.mono {P Q : PoleFilter S XR → PoleFilter S XR → Prop} (h : AfterBoth S T n n' call call' P)
    (hpq : ∀ g g', P g g' → Q g g') : AfterBoth S T n n' call call' Q := by
  intro f f' hf hf'
  obtain ⟨g, g', e, e', hp⟩ := h f f' hf hf'
  exact ⟨g, g', e, e', hpq _ _ hp⟩

theorem bwShelf_neg (g t : ℝ) : bwShelf o g t * bwShelf o (-g) t = 1 := by
  have hg := ofDb_pos g
  have ht : 0 ≤ t ^ (2 * o) := (even_two_mul o).pow_nonneg t
  rw [bwShelf, bwShelf, ofDb_neg_inv]
  have h1 : t ^ (2 * o) + ofDb g ≠ 0 := by positivity
  have h2 : t ^ (2 * o) + 1 / ofDb g ≠ 0 := by positivity
  rw [one_div_one_div]
  field_simp

theorem chebShelf_neg {G r : ℝ} (hr : 0 < r) (hG : r < |G|) (t : ℝ) :
    chebShelf o G r t * chebShelf o (-G) r t = 1 := by
  have hG0 : G ≠ 0 := fun h => by rw [h, abs_zero] at hG; linarith
  have he : shelfEdgeDb (-G) r = -shelfEdgeDb G r := by
    unfold shelfEdgeDb
    rcases lt_or_gt_of_ne hG0 with h | h
    · rw [if_pos (by linarith), if_neg (by linarith)]; ring
    · rw [if_neg (by linarith), if_pos h]; ring
  have hp := shelfEpsSq_pos hr hG
  have hg := ofDb_pos G
  have hE1 : ofDb (shelfEdgeDb G r) ^ 2 ≠ 1 := by
    intro h
    rw [shelfEpsSq, ofDb_neg_inv (shelfEdgeDb G r), div_pow, one_pow, h] at hp
    simp at hp
  have hE := ofDb_pos (shelfEdgeDb G r)
  have key : shelfEpsSq (-G) r = ofDb G ^ 2 * shelfEpsSq G r := by
    rw [shelfEpsSq, shelfEpsSq, he, neg_neg, neg_neg, ofDb_neg_inv, ofDb_neg_inv]
    have h1 : ofDb (shelfEdgeDb G r) ^ 2 - 1 ≠ 0 := sub_ne_zero.2 hE1
    have h2 : 1 - ofDb (shelfEdgeDb G r) ^ 2 ≠ 0 := sub_ne_zero.2 hE1.symm
    field_simp
    ring
  rw [chebShelf, chebShelf, key, neg_neg, ofDb_neg_inv]
  have hT := sq_nonneg (chebT o t)
  generalize chebT o t ^ 2 = X at *
  generalize shelfEpsSq G r = ε at *
  generalize ofDb G = u at *
  have h1 : 1 + ε * X ≠ 0 := by positivity
  have h2 : 1 + u ^ 2 * ε * X ≠ 0 := by positivity
  have h3 : (1 / u) ^ 2 + ε * X ≠ 0 := by positivity
  have h4 : u ^ 2 + u ^ 2 * ε * X ≠ 0 := by positivity
  rw [div_mul_div_comm, div_eq_one_iff_eq (mul_ne_zero h3 h4)]
  field_simp

/-- The squares of the gains of two filters multiply to 1 at every frequency from 0 to half the sampling rate. -/
def Spec.Cancel (g g' : PoleFilter S XR) : Prop :=
  ∀ fr, 0 ≤ fr → fr ≤ 1 / 2 → ∃ v v', GainSq g fr v ∧ GainSq g' fr v' ∧ v * v' = 1

theorem low_cancel {Φ Φ' : ℝ → ℝ} {l l' : ℕ} {fc : ℝ} {g g' : PoleFilter S XR} (h : LowShape Φ 1 l fc g)
    (h' : LowShape Φ' 1 l' fc g') (e : ∀ t, Φ t * Φ' t = 1) : Cancel g g' := by
  intro fr a b
  rcases b.eq_or_lt with rfl | b
  · exact ⟨_, _, h.nyquist, h'.nyquist, one_mul _⟩
  · exact ⟨_, _, h.gain fr a b, h'.gain fr a b, e _⟩

theorem high_cancel {Φ Φ' : ℝ → ℝ} {l l' : ℕ} {fc : ℝ} {g g' : PoleFilter S XR} (h : HighShape Φ 1 l fc g)
    (h' : HighShape Φ' 1 l' fc g') (e : ∀ t, Φ t * Φ' t = 1) : Cancel g g' := by
  intro fr a b
  rcases b.eq_or_lt with rfl | b
  · exact ⟨_, _, h.nyquist, h'.nyquist, e _⟩
  rcases a.eq_or_lt with rfl | a
  · exact ⟨_, _, h.dc, h'.dc, one_mul _⟩
  · exact ⟨_, _, h.gain fr a b, h'.gain fr a b, e _⟩

theorem band_cancel {Φ Φ' : ℝ → ℝ} {l l' : ℕ} {f1 f2 : ℝ} {g g' : PoleFilter S XR} (h : BandShape Φ 1 l f1 f2 g)
    (h' : BandShape Φ' 1 l' f1 f2 g') (e : ∀ t, Φ t * Φ' t = 1) : Cancel g g' := by
  intro fr a b
  rcases b.eq_or_lt with rfl | b
  · exact ⟨_, _, h.nyquist, h'.nyquist, one_mul _⟩
  rcases a.eq_or_lt with rfl | a
  · exact ⟨_, _, h.dc, h'.dc, one_mul _⟩
  · exact ⟨_, _, h.gain fr a b, h'.gain fr a b, e _⟩

/-- **C57** for the shelves of all three families: with opposite gains they cancel at every frequency, whatever
was done with both objects before. -/
theorem C57_shelves {d d' : Design XR} (h : Asks call n o d) (h' : Asks call' n' o d') (hd : Opposite d d')
    (hv : Valid o d) (hv' : Valid o d') : AfterBoth S T n n' call call' Cancel := by
  have ho := h.pos
  cases hd with
  | bwLow fc g =>
    exact ((C34_lowshelf h hv.1 hv.2).both (C34_lowshelf h' hv.1 hv.2)).mono fun _ _ e =>
      low_cancel e.1.1 e.2.1 (bwShelf_neg g)
  | bwHigh fc g =>
    exact ((C34_highshelf h hv.1 hv.2).both (C34_highshelf h' hv.1 hv.2)).mono fun _ _ e =>
      high_cancel e.1.1 e.2.1 (bwShelf_neg g)
  | bwBand fc fw g =>
    have key : ∀ g, Valid o (.bwBandShelf (fin fc) (fin fw) (fin g)) → o % 2 = 1 →
        Real.tan (Real.pi * (bandHi fc fw - bandLo fc fw)) ^ (2 * o) ≠ ofDb g ∧
        Real.tan (Real.pi * (bandHi fc fw - bandLo fc fw)) ^ (2 * o) ≠ 1 / ofDb g := fun g hv e => by
      have h2 := hv.2.2.2 e
      simp only [List.mem_cons, List.not_mem_nil, or_false, not_or] at h2
      refine ⟨pow_ne (tan_band_pos hv.2.2.1) ho h2.1, ?_⟩
      rw [← ofDb_neg_inv]
      exact pow_ne (tan_band_pos hv.2.2.1) ho (by rw [neg_div]; exact h2.2)
    exact ((C34_bandshelf h hv.1 hv.2.1 hv.2.2.1 (key g hv)).both
      (C34_bandshelf h' hv.1 hv.2.1 hv.2.2.1 (key (-g) hv'))).mono fun _ _ e =>
      band_cancel e.1.1 e.2.1 (bwShelf_neg g)
  | c1Low fc g r =>
    exact ((C37_c1LowShelf h hv.1.1 hv.1.2 hv.2.1 hv.2.2).both
      (C37_c1LowShelf h' hv.1.1 hv.1.2 hv.2.1 hv'.2.2)).mono fun _ _ e =>
      low_cancel e.1.shape e.2.shape (chebShelf_neg hv.2.1 hv.2.2)
  | c2Low fc g r =>
    exact ((C37_c2LowShelf h hv.1.1 hv.1.2 hv.2.1 hv.2.2).both
      (C37_c2LowShelf h' hv.1.1 hv.1.2 hv.2.1 hv'.2.2)).mono fun _ _ e =>
      low_cancel e.1.shape e.2.shape (chebShelf_neg hv.2.1 hv.2.2)
  | c1High fc g r =>
    exact ((C37_c1HighShelf h hv.1.1 hv.1.2 hv.2.1 hv.2.2).both
      (C37_c1HighShelf h' hv.1.1 hv.1.2 hv.2.1 hv'.2.2)).mono fun _ _ e =>
      high_cancel e.1.shape e.2.shape (chebShelf_neg hv.2.1 hv.2.2)
  | c2High fc g r =>
    exact ((C37_c2HighShelf h hv.1.1 hv.1.2 hv.2.1 hv.2.2).both
      (C37_c2HighShelf h' hv.1.1 hv.1.2 hv.2.1 hv'.2.2)).mono fun _ _ e =>
      high_cancel e.1.shape e.2.shape (chebShelf_neg hv.2.1 hv.2.2)
  | c1Band fc fw g r =>
    have key : ∀ g, Valid o (.c1BandShelf (fin fc) (fin fw) (fin g) (fin r)) → o % 2 = 1 →
        Real.tan (Real.pi * (bandHi fc fw - bandLo fc fw)) * shelfPole o g r ≠ 1 ∧
        Real.tan (Real.pi * (bandHi fc fw - bandLo fc fw)) * shelfZero o g r ≠ 1 := fun g hv e => by
      have h2 := hv.1.2.2.2 e
      simp only [List.mem_cons, List.not_mem_nil, or_false, not_or] at h2
      exact ⟨mul_ne_one h2.1, mul_ne_one h2.2⟩
    exact ((C37_c1BandShelf h hv.1.1 hv.1.2.1 hv.2.1 hv.2.2 hv.1.2.2.1 (key g hv)).both
      (C37_c1BandShelf h' hv.1.1 hv.1.2.1 hv.2.1 hv'.2.2 hv.1.2.2.1 (key (-g) hv'))).mono fun _ _ e =>
      band_cancel e.1.shape e.2.shape (chebShelf_neg hv.2.1 hv.2.2)
  | c2Band fc fw g r =>
    have key : ∀ g, Valid o (.c2BandShelf (fin fc) (fin fw) (fin g) (fin r)) → o % 2 = 1 →
        Real.tan (Real.pi * (bandHi fc fw - bandLo fc fw)) * shelfPole o g r ≠ 1 ∧
        Real.tan (Real.pi * (bandHi fc fw - bandLo fc fw)) * shelfZero o g r ≠ 1 := fun g hv e => by
      have h2 := hv.1.2.2.2 e
      simp only [List.mem_cons, List.not_mem_nil, or_false, not_or] at h2
      exact ⟨mul_ne_one h2.1, mul_ne_one h2.2⟩
    exact ((C37_c2BandShelf h hv.1.1 hv.1.2.1 hv.2.1 hv.2.2 hv.1.2.2.1 (key g hv)).both
      (C37_c2BandShelf h' hv.1.1 hv.1.2.1 hv.2.1 hv'.2.2 hv.1.2.2.1 (key (-g) hv'))).mono fun _ _ e =>
      band_cancel e.1.shape e.2.shape (chebShelf_neg hv.2.1 hv.2.2)

/-- a case: `ChebyshevI::LowShelf` of order 3 with 12 and -12 dB, on objects of different sizes -/
example : AfterBoth S T 3 5 (.setupN (.c1LowShelf (fin (1 / 8)) (fin 12) (fin 1)))
    (.setupNReq 3 (.c1LowShelf (fin (1 / 8)) (fin (-12)) (fin 1))) Cancel :=
  C57_shelves (o := 3) ⟨rfl, rfl, by norm_num, by norm_num, by norm_num⟩
    ⟨rfl, rfl, by norm_num, by norm_num, by norm_num⟩ (.c1Low _ _ _)
    ⟨⟨by norm_num, by norm_num⟩, by norm_num, by norm_num⟩ ⟨⟨by norm_num, by norm_num⟩, by norm_num, by norm_num⟩

/-! ## C58 -/

/-- The squares of the gains of two filters add up to 1 at every frequency from 0 to half the sampling rate. -/
def Spec.PowerComplementary (g g' : PoleFilter S XR) : Prop :=
  ∀ fr, 0 ≤ fr → fr ≤ 1 / 2 → ∃ v v', GainSq g fr v ∧ GainSq g' fr v' ∧ v + v' = 1

/-- **C58**: Butterworth low pass and high pass of the same order and cutoff are power complementary. -/
theorem C58_low_high {fc : ℝ} (h : Asks call n o (.bwLowPass (fin fc))) (h' : Asks call' n' o (.bwHighPass (fin fc)))
    (h0 : 0 < fc) (h1 : fc < 1 / 2) : AfterBoth S T n n' call call' PowerComplementary := by
  have ho := h.pos
  refine ((C30_lowpass h h0 h1).both (C31_highpass h' h0 h1)).mono fun g g' e fr a b => ?_
  rcases b.eq_or_lt with rfl | b
  · exact ⟨_, _, e.1.1.nyquist, e.2.1.nyquist, by simp; omega⟩
  rcases a.eq_or_lt with rfl | a
  · exact ⟨_, _, e.1.1.gain 0 le_rfl b, e.2.1.dc, by simp [lowRatio]; omega⟩
  refine ⟨_, _, e.1.1.gain fr a.le b, e.2.1.gain fr a b, ?_⟩
  have t1 := tan_pi_pos a b
  have t2 := tan_pi_pos h0 h1
  have hr : highRatio fc fr = 1 / lowRatio fc fr := by rw [highRatio, lowRatio, one_div_div]
  have hp : 0 < lowRatio fc fr ^ (2 * o) := pow_pos (div_pos t1 t2) _
  rw [hr, one_div_pow]
  generalize lowRatio fc fr ^ (2 * o) = X at *
  field_simp
  ring

/-- **C58**: Butterworth band pass and band stop of the same order and band are power complementary. -/
theorem C58_pass_stop {fc fw : ℝ} (h : Asks call n o (.bwBandPass (fin fc) (fin fw)))
    (h' : Asks call' n' o (.bwBandStop (fin fc) (fin fw))) (hv : ValidBand o fc fw [1]) :
    AfterBoth S T n n' call call' PowerComplementary := by
  have hq := fun e => quarter_ne (hv.2.2.2 e)
  refine ((C32_bandpass h hv.1 hv.2.1 hv.2.2.1 hq).both (C33_bandstop h' hv.1 hv.2.1 hv.2.2.1 hq)).mono
    fun g g' e fr a b => ?_
  rcases b.eq_or_lt with rfl | b
  · exact ⟨_, _, e.1.1.nyquist, e.2.1.nyquist, by norm_num⟩
  rcases a.eq_or_lt with rfl | a
  · exact ⟨_, _, e.1.1.dc, e.2.1.dc, by norm_num⟩
  refine ⟨_, _, e.1.1.gain fr a b, e.2.1.gain fr a b, ?_⟩
  have hp : 0 ≤ bandRatio (bandLo fc fw) (bandHi fc fw) fr ^ (2 * o) := (even_two_mul o).pow_nonneg _
  generalize bandRatio (bandLo fc fw) (bandHi fc fw) fr ^ (2 * o) = X at *
  have : 1 + X ≠ 0 := by positivity
  field_simp

/-- a case: a crossover of order 4 -/
example : AfterBoth S T 4 4 (.setupN (.bwLowPass (fin (1 / 8)))) (.setupN (.bwHighPass (fin (1 / 8))))
    PowerComplementary :=
  C58_low_high (o := 4) ⟨rfl, rfl, by norm_num, le_rfl, by norm_num⟩ ⟨rfl, rfl, by norm_num, le_rfl, by norm_num⟩
    (by norm_num) (by norm_num)

end pole

end Iir
