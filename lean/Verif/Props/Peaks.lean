import Verif.Props.RBJ

/-! # C62: the largest and smallest gains of the RBJ filters -/

namespace Iir
open FArith XR Spec Exec

/-! ## Statements -/

/-- The largest square of a gain that the parameters of an RBJ filter allow.  A low or high pass with `2 q² > 1` has a
resonance; `BandPass1` has the gain `q` in the middle of the band; the gain of `IIRNotch` away from the notch is more
than 1, most at the end of the spectrum that is farther from the notch; the gain of a shelf is between 1 and `10^(gainDb/20)`. -/
noncomputable def Spec.peakRBJ : RBJ.Design ℝ → ℝ
  | .lowPass _ q | .highPass _ q => if 2 * q ^ 2 ≤ 1 then 1 else 4 * q ^ 4 / (4 * q ^ 2 - 1)
  | .bandPass1 _ w => w ^ 2
  | .bandPass2 _ _ | .bandStop _ _ | .allPass _ _ => 1
  | .iirNotch f0 q =>
    let r := Real.exp (-Real.pi * f0 / q)
    let c := |Real.cos (2 * Real.pi * f0)|
    (2 * (1 + c) / (1 + r ^ 2 + 2 * r * c)) ^ 2
  | .lowShelf _ g _ | .highShelf _ g _ | .bandShelf _ g _ => max 1 ((10 ^ (g / 20)) ^ 2)

/-- The smallest square of a gain. -/
noncomputable def Spec.dipRBJ : RBJ.Design ℝ → ℝ
  | .lowShelf _ g _ | .highShelf _ g _ | .bandShelf _ g _ => min 1 ((10 ^ (g / 20)) ^ 2)
  | .allPass _ _ => 1
  | _ => 0

/-! ## Algebra -/

theorem quadSq_cos (c0 c1 c2 f : ℝ) : quadSq c0 c1 c2 f =
    (c1 + (c0 + c2) * Real.cos (2 * Real.pi * f)) ^ 2 + (c0 - c2) ^ 2 * (1 - Real.cos (2 * Real.pi * f) ^ 2) := by
  have h := Real.sin_sq_add_cos_sq (2 * Real.pi * f)
  rw [quadSq]
  linear_combination (c0 - c2) ^ 2 * h

/-- `N / D ≤ G` and `N / D ≥ m` on the unit circle bound the gain. -/
theorem gain_between {b : Biquad XR} {a0 a1 a2 b0 b1 b2 f m G : ℝ} (hb : HasCoeffs b ⟨a0, a1, a2, b0, b1, b2⟩)
    (hD : 0 < quadSq a0 a1 a2 f) (h1 : m * quadSq a0 a1 a2 f ≤ quadSq b0 b1 b2 f)
    (h2 : quadSq b0 b1 b2 f ≤ G * quadSq a0 a1 a2 f) : ∃ g, Gain b f g ∧ m ≤ g ^ 2 ∧ g ^ 2 ≤ G := by
  refine ⟨_, ⟨_, C25_response hb f ((quadSq_ne_zero_iff _ _ _ _).2 hD.ne'), rfl⟩, ?_⟩
  rw [Coeffs.transfer_normSq, le_div_iff₀ hD, div_le_iff₀ hD]
  exact ⟨h1, h2⟩

theorem shelf_alg {A R p r : ℝ} (hA : 0 < A) (hR : 2 ≤ R) (hp : 0 ≤ p) (hr : 0 ≤ r) :
    min 1 ((A ^ 2) ^ 2) * (4 * ((p - A * r) ^ 2 + A * R * (p * r))) ≤ 4 * (A ^ 2 * ((A * p - r) ^ 2 + A * R * (p * r))) ∧
    4 * (A ^ 2 * ((A * p - r) ^ 2 + A * R * (p * r))) ≤ max 1 ((A ^ 2) ^ 2) * (4 * ((p - A * r) ^ 2 + A * R * (p * r))) := by
  have hpr : 0 ≤ A * (R - 2) * (p * r) := mul_nonneg (mul_nonneg hA.le (by linarith)) (mul_nonneg hp hr)
  have e1 : A ^ 2 * ((A * p - r) ^ 2 + A * R * (p * r)) - ((p - A * r) ^ 2 + A * R * (p * r)) =
      (A ^ 2 - 1) * (p ^ 2 * (A ^ 2 + 1) + A * (R - 2) * (p * r)) := by ring
  have e2 : (A ^ 2) ^ 2 * ((p - A * r) ^ 2 + A * R * (p * r)) - A ^ 2 * ((A * p - r) ^ 2 + A * R * (p * r)) =
      A ^ 2 * ((A ^ 2 - 1) * (r ^ 2 * (A ^ 2 + 1) + A * (R - 2) * (p * r))) := by ring
  have q1 : 0 ≤ p ^ 2 * (A ^ 2 + 1) + A * (R - 2) * (p * r) := add_nonneg (by positivity) hpr
  have q2 : 0 ≤ r ^ 2 * (A ^ 2 + 1) + A * (R - 2) * (p * r) := add_nonneg (by positivity) hpr
  rcases le_total (A ^ 2) 1 with h | h
  · have h4 : (A ^ 2) ^ 2 ≤ 1 := pow_le_one₀ (by positivity) h
    rw [min_eq_right h4, max_eq_left h4]
    have t1 := mul_nonneg (sub_nonneg.2 h) q1
    have t2 := mul_nonneg (sq_nonneg A) (mul_nonneg (sub_nonneg.2 h) q2)
    constructor <;> linarith
  · have h4 : 1 ≤ (A ^ 2) ^ 2 := one_le_pow₀ h
    rw [min_eq_left h4, max_eq_right h4]
    have t1 := mul_nonneg (sub_nonneg.2 h) q1
    have t2 := mul_nonneg (sq_nonneg A) (mul_nonneg (sub_nonneg.2 h) q2)
    constructor <;> linarith

theorem shelf_den_pos {A R p r : ℝ} (hA : 0 < A) (hR : 2 ≤ R) (hp : 0 ≤ p) (hr : 0 ≤ r) (h : 0 < p + r) :
    0 < 4 * ((p - A * r) ^ 2 + A * R * (p * r)) := by
  have hR' : 0 < R := by linarith
  rcases hp.eq_or_lt with rfl | hp
  · have : 0 < r := by linarith
    have : 0 < (0 - A * r) ^ 2 := by rw [zero_sub, neg_sq]; positivity
    simpa using this
  rcases hr.eq_or_lt with rfl | hr
  · have : 0 < (p - A * 0) ^ 2 := by rw [mul_zero, sub_zero]; positivity
    simpa using this
  · have := sq_nonneg (p - A * r); positivity

theorem band_alg {A x y : ℝ} (hA : 0 < A) (hx : 0 ≤ x) (hy : 0 ≤ y) :
    min 1 ((A ^ 2) ^ 2) * (4 * (x + y / A ^ 2)) ≤ 4 * (x + y * A ^ 2) ∧
    4 * (x + y * A ^ 2) ≤ max 1 ((A ^ 2) ^ 2) * (4 * (x + y / A ^ 2)) := by
  have hy' : 0 ≤ y / A ^ 2 := by positivity
  have e : y * A ^ 2 = (A ^ 2) ^ 2 * (y / A ^ 2) := by field_simp
  rw [e]
  generalize y / A ^ 2 = z at *
  rcases le_total ((A ^ 2) ^ 2) 1 with h | h
  · rw [min_eq_right h, max_eq_left h]; constructor <;> nlinarith
  · rw [min_eq_left h, max_eq_right h]; constructor <;> nlinarith

theorem pass_alg {q p r : ℝ} (hq : 0 < q) (hp : 0 ≤ p) (hr : 0 ≤ r) :
    p ^ 2 ≤ (if 2 * q ^ 2 ≤ 1 then 1 else 4 * q ^ 4 / (4 * q ^ 2 - 1)) * ((p - r) ^ 2 + p * r / q ^ 2) := by
  have hpr : 0 ≤ p * r := mul_nonneg hp hr
  have e : p * r / q ^ 2 * q ^ 2 = p * r := by field_simp
  split_ifs with h
  · have hq2 : 0 < q ^ 2 := by positivity
    have hz : 0 ≤ p * r / q ^ 2 := by positivity
    generalize p * r / q ^ 2 = z at *
    nlinarith [sq_nonneg r, mul_nonneg hz (sub_nonneg.2 h)]
  · have h : 1 < 2 * q ^ 2 := not_le.1 h
    rw [div_mul_eq_mul_div, le_div_iff₀ (by linarith)]
    have : 4 * q ^ 4 * ((p - r) ^ 2 + p * r / q ^ 2) = 4 * q ^ 4 * (p - r) ^ 2 + 4 * q ^ 2 * (p * r) := by
      field_simp
    rw [this]
    nlinarith [sq_nonneg (2 * q ^ 2 * r - (2 * q ^ 2 - 1) * p)]

theorem notch_alg {r c C : ℝ} (hr0 : 0 < r) (hr1 : r < 1) (hc0 : 0 ≤ c) (hc1 : c < 1) (hC1 : -1 ≤ C) (hC2 : C ≤ 1) :
    (C - c) ^ 2 * (1 + r ^ 2 + 2 * r * c) ^ 2 ≤
      (1 + c) ^ 2 * (((1 + r ^ 2) * C - 2 * r * c) ^ 2 + (1 - r ^ 2) ^ 2 * (1 - C ^ 2)) := by
  have e : (1 + c) ^ 2 * (((1 + r ^ 2) * C - 2 * r * c) ^ 2 + (1 - r ^ 2) ^ 2 * (1 - C ^ 2)) -
      (C - c) ^ 2 * (1 + r ^ 2 + 2 * r * c) ^ 2 =
      (1 + C) * ((1 - r) ^ 2 * ((1 + r) ^ 2 + 4 * r * c) * (1 - C) +
        c * (1 - r) ^ 2 * ((1 + c) * (1 + r ^ 2 - 2 * r * c) + (1 - c) * (1 + r ^ 2 + 2 * r * c))) := by ring
  have h1 : 0 ≤ 1 + r ^ 2 - 2 * r * c := by nlinarith [sq_nonneg (1 - r), mul_nonneg hr0.le (sub_nonneg.2 hc1.le)]
  have h2 : 0 ≤ 1 - c := by linarith
  have h3 : 0 ≤ 1 - C := by linarith
  have h4 : 0 ≤ 1 + C := by linarith
  have : 0 ≤ (1 + C) * ((1 - r) ^ 2 * ((1 + r) ^ 2 + 4 * r * c) * (1 - C) +
        c * (1 - r) ^ 2 * ((1 + c) * (1 + r ^ 2 - 2 * r * c) + (1 - c) * (1 + r ^ 2 + 2 * r * c))) := by positivity
  linarith

theorem notch_alg_abs {r c C : ℝ} (hr0 : 0 < r) (hr1 : r < 1) (hc0 : -1 < c) (hc1 : c < 1) (hC1 : -1 ≤ C) (hC2 : C ≤ 1) :
    (C - c) ^ 2 * (1 + r ^ 2 + 2 * r * |c|) ^ 2 ≤
      (1 + |c|) ^ 2 * (((1 + r ^ 2) * C - 2 * r * c) ^ 2 + (1 - r ^ 2) ^ 2 * (1 - C ^ 2)) := by
  rcases le_total 0 c with h | h
  · rw [abs_of_nonneg h]; exact notch_alg hr0 hr1 h hc1 hC1 hC2
  · rw [abs_of_nonpos h]
    have := notch_alg (C := -C) hr0 hr1 (neg_nonneg.2 h) (by linarith) (by linarith) (by linarith)
    refine le_trans (le_of_eq ?_) (this.trans (le_of_eq ?_)) <;> ring

theorem notch_den_pos {r c C : ℝ} (hr0 : 0 < r) (hr1 : r < 1) (hc0 : -1 < c) (hc1 : c < 1) (hC1 : -1 ≤ C) (hC2 : C ≤ 1) :
    0 < ((1 + r ^ 2) * C - 2 * r * c) ^ 2 + (1 - r ^ 2) ^ 2 * (1 - C ^ 2) := by
  have hr : 0 < 1 - r ^ 2 := by nlinarith
  rcases hC1.eq_or_lt with rfl | hC1
  · have : 0 < (1 + r ^ 2) + 2 * r * c := by nlinarith [sq_nonneg (1 - r), mul_pos hr0 (by linarith : 0 < 1 + c)]
    have : 0 < ((1 + r ^ 2) + 2 * r * c) ^ 2 := by positivity
    linarith
  rcases hC2.eq_or_lt with rfl | hC2
  · have : 0 < (1 + r ^ 2) - 2 * r * c := by nlinarith [sq_nonneg (1 - r), mul_pos hr0 (by linarith : 0 < 1 - c)]
    have : 0 < ((1 + r ^ 2) - 2 * r * c) ^ 2 := by positivity
    linarith
  · have : 0 < 1 - C ^ 2 := by nlinarith
    positivity

theorem shelf_R {A S : ℝ} (hA : 0 < A) (hS0 : 0 < S) (hS1 : S ≤ 1) : 2 ≤ (A + 1 / A) * (1 / S - 1) + 2 := by
  have : 1 ≤ 1 / S := by rw [le_div_iff₀ hS0]; linarith
  have : 0 ≤ (A + 1 / A) * (1 / S - 1) := mul_nonneg (by positivity) (by linarith)
  linarith

section
variable {f0 A R : ℝ} (hA : 0 ≤ A) (hR : 0 ≤ R)
include hA hR

theorem sq_shelf : (2 * √A * (Real.sin (2 * Real.pi * f0) / 2 * √R)) ^ 2 =
    A * R * ((1 - Real.cos (2 * Real.pi * f0)) * (1 + Real.cos (2 * Real.pi * f0))) := by
  have h := Real.sin_sq_add_cos_sq (2 * Real.pi * f0)
  have e : (2 * √A * (Real.sin (2 * Real.pi * f0) / 2 * √R)) ^ 2 = √A ^ 2 * √R ^ 2 * Real.sin (2 * Real.pi * f0) ^ 2 := by
    ring
  rw [e, Real.sq_sqrt hA, Real.sq_sqrt hR]
  linear_combination A * R * h

theorem lowShelf_den (f : ℝ) :
    quadSq (A + 1 + (A - 1) * Real.cos (2 * Real.pi * f0) + 2 * √A * (Real.sin (2 * Real.pi * f0) / 2 * √R))
      (-2 * (A - 1 + (A + 1) * Real.cos (2 * Real.pi * f0)))
      (A + 1 + (A - 1) * Real.cos (2 * Real.pi * f0) - 2 * √A * (Real.sin (2 * Real.pi * f0) / 2 * √R)) f =
    4 * (((1 - Real.cos (2 * Real.pi * f0)) * (1 + Real.cos (2 * Real.pi * f)) -
        A * ((1 + Real.cos (2 * Real.pi * f0)) * (1 - Real.cos (2 * Real.pi * f)))) ^ 2 +
      A * R * ((1 - Real.cos (2 * Real.pi * f0)) * (1 + Real.cos (2 * Real.pi * f)) *
        ((1 + Real.cos (2 * Real.pi * f0)) * (1 - Real.cos (2 * Real.pi * f))))) := by
  rw [quadSq_cos]
  linear_combination 4 * (1 - Real.cos (2 * Real.pi * f) ^ 2) * sq_shelf (f0 := f0) hA hR

theorem lowShelf_num (f : ℝ) :
    quadSq (A * (A + 1 - (A - 1) * Real.cos (2 * Real.pi * f0) + 2 * √A * (Real.sin (2 * Real.pi * f0) / 2 * √R)))
      (2 * A * (A - 1 - (A + 1) * Real.cos (2 * Real.pi * f0)))
      (A * (A + 1 - (A - 1) * Real.cos (2 * Real.pi * f0) - 2 * √A * (Real.sin (2 * Real.pi * f0) / 2 * √R))) f =
    4 * (A ^ 2 * ((A * ((1 - Real.cos (2 * Real.pi * f0)) * (1 + Real.cos (2 * Real.pi * f))) -
        (1 + Real.cos (2 * Real.pi * f0)) * (1 - Real.cos (2 * Real.pi * f))) ^ 2 +
      A * R * ((1 - Real.cos (2 * Real.pi * f0)) * (1 + Real.cos (2 * Real.pi * f)) *
        ((1 + Real.cos (2 * Real.pi * f0)) * (1 - Real.cos (2 * Real.pi * f)))))) := by
  rw [quadSq_cos]
  linear_combination 4 * A ^ 2 * (1 - Real.cos (2 * Real.pi * f) ^ 2) * sq_shelf (f0 := f0) hA hR

theorem highShelf_den (f : ℝ) :
    quadSq (A + 1 - (A - 1) * Real.cos (2 * Real.pi * f0) + 2 * √A * (Real.sin (2 * Real.pi * f0) / 2 * √R))
      (2 * (A - 1 - (A + 1) * Real.cos (2 * Real.pi * f0)))
      (A + 1 - (A - 1) * Real.cos (2 * Real.pi * f0) - 2 * √A * (Real.sin (2 * Real.pi * f0) / 2 * √R)) f =
    4 * (((1 + Real.cos (2 * Real.pi * f0)) * (1 - Real.cos (2 * Real.pi * f)) -
        A * ((1 - Real.cos (2 * Real.pi * f0)) * (1 + Real.cos (2 * Real.pi * f)))) ^ 2 +
      A * R * ((1 + Real.cos (2 * Real.pi * f0)) * (1 - Real.cos (2 * Real.pi * f)) *
        ((1 - Real.cos (2 * Real.pi * f0)) * (1 + Real.cos (2 * Real.pi * f))))) := by
  rw [quadSq_cos]
  linear_combination 4 * (1 - Real.cos (2 * Real.pi * f) ^ 2) * sq_shelf (f0 := f0) hA hR

theorem highShelf_num (f : ℝ) :
    quadSq (A * (A + 1 + (A - 1) * Real.cos (2 * Real.pi * f0) + 2 * √A * (Real.sin (2 * Real.pi * f0) / 2 * √R)))
      (-2 * A * (A - 1 + (A + 1) * Real.cos (2 * Real.pi * f0)))
      (A * (A + 1 + (A - 1) * Real.cos (2 * Real.pi * f0) - 2 * √A * (Real.sin (2 * Real.pi * f0) / 2 * √R))) f =
    4 * (A ^ 2 * ((A * ((1 + Real.cos (2 * Real.pi * f0)) * (1 - Real.cos (2 * Real.pi * f))) -
        (1 - Real.cos (2 * Real.pi * f0)) * (1 + Real.cos (2 * Real.pi * f))) ^ 2 +
      A * R * ((1 + Real.cos (2 * Real.pi * f0)) * (1 - Real.cos (2 * Real.pi * f)) *
        ((1 - Real.cos (2 * Real.pi * f0)) * (1 + Real.cos (2 * Real.pi * f)))))) := by
  rw [quadSq_cos]
  linear_combination 4 * A ^ 2 * (1 - Real.cos (2 * Real.pi * f) ^ 2) * sq_shelf (f0 := f0) hA hR

end

/-! ## C62 -/

theorem core_sq {f0 q : ℝ} (hq : 0 < q) (f : ℝ) :
    quadSq (1 + Real.sin (2 * Real.pi * f0) / (2 * q)) (-2 * Real.cos (2 * Real.pi * f0))
      (1 - Real.sin (2 * Real.pi * f0) / (2 * q)) f =
    ((1 - Real.cos (2 * Real.pi * f0)) * (1 + Real.cos (2 * Real.pi * f)) -
      (1 + Real.cos (2 * Real.pi * f0)) * (1 - Real.cos (2 * Real.pi * f))) ^ 2 +
    (1 - Real.cos (2 * Real.pi * f0)) * (1 + Real.cos (2 * Real.pi * f)) *
      ((1 + Real.cos (2 * Real.pi * f0)) * (1 - Real.cos (2 * Real.pi * f))) / q ^ 2 := by
  have h := Real.sin_sq_add_cos_sq (2 * Real.pi * f0)
  have hs : Real.sin (2 * Real.pi * f0) ^ 2 = (1 - Real.cos (2 * Real.pi * f0)) * (1 + Real.cos (2 * Real.pi * f0)) := by
    linear_combination h
  rw [quadSq_cos]
  have e : (1 + Real.sin (2 * Real.pi * f0) / (2 * q) - (1 - Real.sin (2 * Real.pi * f0) / (2 * q))) ^ 2 =
      Real.sin (2 * Real.pi * f0) ^ 2 / q ^ 2 := by field_simp; ring
  rw [e, hs]
  ring

section
variable {f0 : ℝ} (h0 : 0 < f0) (h1 : f0 < 1 / 2)
include h0 h1

/-- `p` and `r` of the algebra above -/
theorem pr_facts (f : ℝ) :
    0 ≤ (1 - Real.cos (2 * Real.pi * f0)) * (1 + Real.cos (2 * Real.pi * f)) ∧
    0 ≤ (1 + Real.cos (2 * Real.pi * f0)) * (1 - Real.cos (2 * Real.pi * f)) ∧
    0 < (1 - Real.cos (2 * Real.pi * f0)) * (1 + Real.cos (2 * Real.pi * f)) +
      (1 + Real.cos (2 * Real.pi * f0)) * (1 - Real.cos (2 * Real.pi * f)) := by
  obtain ⟨-, hc1, hc2⟩ := trig_facts h0 h1
  have a := Real.neg_one_le_cos (2 * Real.pi * f)
  have b := Real.cos_le_one (2 * Real.pi * f)
  refine ⟨mul_nonneg (by linarith) (by linarith), mul_nonneg (by linarith) (by linarith), ?_⟩
  rcases lt_or_ge (Real.cos (2 * Real.pi * f)) 0 with hC | hC
  · exact add_pos_of_nonneg_of_pos (mul_nonneg (by linarith) (by linarith)) (mul_pos (by linarith) (by linarith))
  · exact add_pos_of_pos_of_nonneg (mul_pos (by linarith) (by linarith)) (mul_nonneg (by linarith) (by linarith))

theorem core_pos {q : ℝ} (hq : 0 < q) (f : ℝ) :
    0 < quadSq (1 + Real.sin (2 * Real.pi * f0) / (2 * q)) (-2 * Real.cos (2 * Real.pi * f0))
      (1 - Real.sin (2 * Real.pi * f0) / (2 * q)) f := by
  obtain ⟨hs, -, -⟩ := trig_facts h0 h1
  exact lt_of_le_of_ne (by unfold quadSq; positivity) (quadSq_core_ne (by positivity) h0 h1 f).symm

end

theorem peak_nonneg (d : RBJ.Design ℝ) : 0 ≤ peakRBJ d := by
  cases d with
  | lowPass f0 q | highPass f0 q =>
    simp only [peakRBJ]
    split_ifs with h
    · exact zero_le_one
    · have := not_le.1 h
      exact div_nonneg (by positivity) (by linarith)
  | _ => simp only [peakRBJ]; positivity

/-- **C62**: after the set-up of an RBJ filter with valid parameters the gain at every frequency lies between two
values that depend only on the parameters. -/
theorem C62_peak (d : RBJ.Design ℝ) (h : ValidRBJ d) :
    AfterRBJ (finRBJ d) fun b => ∀ f, ∃ g, Gain b f g ∧ dipRBJ d ≤ g ^ 2 ∧ g ^ 2 ≤ peakRBJ d := by
  cases d with
  | lowPass f0 q =>
    obtain ⟨h0, h1, hq⟩ := h
    obtain ⟨hs, hc1, hc2⟩ := trig_facts h0 h1
    have hal : 0 < Real.sin (2 * Real.pi * f0) / (2 * q) := by positivity
    refine afterRBJ_of ⟨_, _, _, _, _, _⟩ (by simp only; linarith) (lowPass_setup hq) fun b hb f => ?_
    refine gain_between hb (core_pos h0 h1 hq f) ?_ ?_
    · simp only [dipRBJ, zero_mul]; unfold quadSq; positivity
    · obtain ⟨p1, p2, -⟩ := pr_facts h0 h1 f
      have := pass_alg hq p1 p2
      rw [core_sq hq, peakRBJ]
      refine le_trans (le_of_eq ?_) this
      rw [quadSq_cos]; ring
  | highPass f0 q =>
    obtain ⟨h0, h1, hq⟩ := h
    obtain ⟨hs, hc1, hc2⟩ := trig_facts h0 h1
    have hal : 0 < Real.sin (2 * Real.pi * f0) / (2 * q) := by positivity
    refine afterRBJ_of ⟨_, _, _, _, _, _⟩ (by simp only; linarith) (highPass_setup hq) fun b hb f => ?_
    refine gain_between hb (core_pos h0 h1 hq f) ?_ ?_
    · simp only [dipRBJ, zero_mul]; unfold quadSq; positivity
    · obtain ⟨p1, p2, -⟩ := pr_facts h0 h1 f
      have := pass_alg hq p2 p1
      rw [core_sq hq, peakRBJ, sub_sq_comm, mul_comm ((1 - _) * _) ((1 + _) * _)]
      refine le_trans (le_of_eq ?_) this
      rw [quadSq_cos]; ring
  | bandPass1 f0 w =>
    obtain ⟨h0, h1, hq⟩ := h
    obtain ⟨hs, hc1, hc2⟩ := trig_facts h0 h1
    have hal : 0 < Real.sin (2 * Real.pi * f0) / (2 * w) := by positivity
    refine afterRBJ_of ⟨_, _, _, _, _, _⟩ (by simp only; linarith) (bandPass1_setup hq) fun b hb f => ?_
    refine gain_between hb (core_pos h0 h1 hq f) ?_ ?_
    · simp only [dipRBJ, zero_mul]; unfold quadSq; positivity
    · rw [quadSq_core, quadSq, peakRBJ]
      have := mul_nonneg (sq_nonneg w) (sq_nonneg (Real.cos (2 * Real.pi * f) - Real.cos (2 * Real.pi * f0)))
      linarith
  | bandPass2 f0 w =>
    obtain ⟨h0, h1, hq⟩ := h
    obtain ⟨hs, hc1, hc2⟩ := trig_facts h0 h1
    have hal : 0 < Real.sin (2 * Real.pi * f0) / (2 * w) := by positivity
    refine afterRBJ_of ⟨_, _, _, _, _, _⟩ (by simp only; linarith) (bandPass2_setup hq) fun b hb f => ?_
    refine gain_between hb (core_pos h0 h1 hq f) ?_ ?_
    · simp only [dipRBJ, zero_mul]; unfold quadSq; positivity
    · rw [quadSq_core, quadSq, peakRBJ]
      have := sq_nonneg (Real.cos (2 * Real.pi * f) - Real.cos (2 * Real.pi * f0))
      linarith
  | bandStop f0 w =>
    obtain ⟨h0, h1, hq⟩ := h
    obtain ⟨hs, hc1, hc2⟩ := trig_facts h0 h1
    have hal : 0 < Real.sin (2 * Real.pi * f0) / (2 * w) := by positivity
    refine afterRBJ_of ⟨_, _, _, _, _, _⟩ (by simp only; linarith) (bandStop_setup hq) fun b hb f => ?_
    refine gain_between hb (core_pos h0 h1 hq f) ?_ ?_
    · simp only [dipRBJ, zero_mul]; unfold quadSq; positivity
    · rw [quadSq_core, quadSq, peakRBJ]
      have := sq_nonneg (Real.sin (2 * Real.pi * f0) / (2 * w) * Real.sin (2 * Real.pi * f))
      linarith
  | allPass f0 q =>
    obtain ⟨h0, h1, hq⟩ := h
    obtain ⟨hs, hc1, hc2⟩ := trig_facts h0 h1
    have hal : 0 < Real.sin (2 * Real.pi * f0) / (2 * q) := by positivity
    refine afterRBJ_of ⟨_, _, _, _, _, _⟩ (by simp only; linarith) (allPass_setup hq) fun b hb f => ?_
    refine gain_between hb (core_pos h0 h1 hq f) ?_ ?_
    · rw [dipRBJ, one_mul, quadSq_cos, quadSq_cos]; exact le_of_eq (by ring)
    · rw [peakRBJ, one_mul, quadSq_cos, quadSq_cos]; exact le_of_eq (by ring)
  | iirNotch f0 q =>
    obtain ⟨h0, h1, hq⟩ := h
    obtain ⟨hs, hc1, hc2⟩ := trig_facts h0 h1
    obtain ⟨hr0, hr1⟩ := notch_r h0 hq
    refine afterRBJ_of ⟨_, _, _, _, _, _⟩ (by simp) (iirNotch_setup hq) fun b hb f => ?_
    have er : Real.exp (-Real.pi * f0 / q) = Real.exp (-(2 * Real.pi * f0 / 2) / q) := by congr 1; ring
    simp only [peakRBJ, er, dipRBJ]
    have k1 := Real.neg_one_le_cos (2 * Real.pi * f)
    have k2 := Real.cos_le_one (2 * Real.pi * f)
    refine gain_between hb ?_ ?_ ?_
    · have := notch_den_pos hr0 hr1 hc2 hc1 k1 k2
      rw [quadSq_cos]
      refine lt_of_lt_of_eq this (by ring)
    · rw [zero_mul]; unfold quadSq; positivity
    · have := notch_alg_abs hr0 hr1 hc2 hc1 k1 k2
      have hK : 0 < 1 + Real.exp (-(2 * Real.pi * f0 / 2) / q) ^ 2 +
        2 * Real.exp (-(2 * Real.pi * f0 / 2) / q) * |Real.cos (2 * Real.pi * f0)| := by positivity
      rw [quadSq_cos, quadSq_cos, div_pow, div_mul_eq_mul_div, le_div_iff₀ (by positivity)]
      linarith
  | lowShelf f0 g S =>
    obtain ⟨h0, h1, hS0, hS1⟩ := h
    obtain ⟨hs, hc1, hc2⟩ := trig_facts h0 h1
    have hA : 0 < (10 : ℝ) ^ (g / 40) := by positivity
    have hR := shelf_R hA hS0 hS1
    have hA2 := sq_pow40 g
    have hr := Real.sqrt_pos.2 (shelf_rad hA hS0 hS1)
    have h3 : 0 < 2 * √((10 : ℝ) ^ (g / 40)) * (Real.sin (2 * Real.pi * f0) / 2 *
      √(((10 : ℝ) ^ (g / 40) + 1 / (10 : ℝ) ^ (g / 40)) * (1 / S - 1) + 2)) := by positivity
    have h4 : 0 < (10 : ℝ) ^ (g / 40) + 1 + ((10 : ℝ) ^ (g / 40) - 1) * Real.cos (2 * Real.pi * f0) := by nlinarith
    refine afterRBJ_of ⟨_, _, _, _, _, _⟩ (by simp only; linarith) (lowShelf_setup hS0 hS1) fun b hb f => ?_
    obtain ⟨p1, p2, p3⟩ := pr_facts h0 h1 f
    obtain ⟨q1, q2⟩ := shelf_alg hA hR p1 p2
    have q3 := shelf_den_pos hA hR p1 p2 p3
    simp only [peakRBJ, dipRBJ, ← hA2]
    refine gain_between hb ?_ ?_ ?_
    · rwa [lowShelf_den hA.le (shelf_rad hA hS0 hS1).le]
    · rwa [lowShelf_den hA.le (shelf_rad hA hS0 hS1).le, lowShelf_num hA.le (shelf_rad hA hS0 hS1).le]
    · rwa [lowShelf_den hA.le (shelf_rad hA hS0 hS1).le, lowShelf_num hA.le (shelf_rad hA hS0 hS1).le]
  | highShelf f0 g S =>
    obtain ⟨h0, h1, hS0, hS1⟩ := h
    obtain ⟨hs, hc1, hc2⟩ := trig_facts h0 h1
    have hA : 0 < (10 : ℝ) ^ (g / 40) := by positivity
    have hR := shelf_R hA hS0 hS1
    have hA2 := sq_pow40 g
    have hr := Real.sqrt_pos.2 (shelf_rad hA hS0 hS1)
    have h3 : 0 < 2 * √((10 : ℝ) ^ (g / 40)) * (Real.sin (2 * Real.pi * f0) / 2 *
      √(((10 : ℝ) ^ (g / 40) + 1 / (10 : ℝ) ^ (g / 40)) * (1 / S - 1) + 2)) := by positivity
    have h4 : 0 < (10 : ℝ) ^ (g / 40) + 1 - ((10 : ℝ) ^ (g / 40) - 1) * Real.cos (2 * Real.pi * f0) := by nlinarith
    refine afterRBJ_of ⟨_, _, _, _, _, _⟩ (by simp only; linarith) (highShelf_setup hS0 hS1) fun b hb f => ?_
    obtain ⟨p1, p2, p3⟩ := pr_facts h0 h1 f
    obtain ⟨q1, q2⟩ := shelf_alg hA hR p2 p1
    have q3 := shelf_den_pos hA hR p2 p1 (by linarith)
    simp only [peakRBJ, dipRBJ, ← hA2]
    refine gain_between hb ?_ ?_ ?_
    · rwa [highShelf_den hA.le (shelf_rad hA hS0 hS1).le]
    · rwa [highShelf_den hA.le (shelf_rad hA hS0 hS1).le, highShelf_num hA.le (shelf_rad hA hS0 hS1).le]
    · rwa [highShelf_den hA.le (shelf_rad hA hS0 hS1).le, highShelf_num hA.le (shelf_rad hA hS0 hS1).le]
  | bandShelf f0 g w =>
    obtain ⟨h0, h1, hw⟩ := h
    obtain ⟨hs, hc1, hc2⟩ := trig_facts h0 h1
    have hA : 0 < (10 : ℝ) ^ (g / 40) := by positivity
    have hal := bandShelf_al h0 h1 hw
    have hA2 := sq_pow40 g
    have halA := div_pos hal hA
    refine afterRBJ_of ⟨_, _, _, _, _, _⟩ (by simp only; linarith) (bandShelf_setup hs w) fun b hb f => ?_
    simp only [peakRBJ, dipRBJ, ← hA2]
    generalize Real.sin (2 * Real.pi * f0) *
      Real.sinh (Real.log 2 / 2 * w * (2 * Real.pi * f0) / Real.sin (2 * Real.pi * f0)) = al at *
    generalize (10 : ℝ) ^ (g / 40) = A at *
    have q := band_alg hA (sq_nonneg (Real.cos (2 * Real.pi * f) - Real.cos (2 * Real.pi * f0)))
      (sq_nonneg (al * Real.sin (2 * Real.pi * f)))
    have eN : quadSq (1 + al * A) (-2 * Real.cos (2 * Real.pi * f0)) (1 - al * A) f =
        4 * ((Real.cos (2 * Real.pi * f) - Real.cos (2 * Real.pi * f0)) ^ 2 + (al * Real.sin (2 * Real.pi * f)) ^ 2 * A ^ 2) := by
      rw [quadSq]; ring
    have eD : quadSq (1 + al / A) (-2 * Real.cos (2 * Real.pi * f0)) (1 - al / A) f =
        4 * ((Real.cos (2 * Real.pi * f) - Real.cos (2 * Real.pi * f0)) ^ 2 + (al * Real.sin (2 * Real.pi * f)) ^ 2 / A ^ 2) := by
      rw [quadSq]; ring
    refine gain_between hb ?_ ?_ ?_
    · exact lt_of_le_of_ne (by unfold quadSq; positivity) (quadSq_core_ne halA.ne' h0 h1 f).symm
    · rw [eN, eD]; exact q.1
    · rw [eN, eD]; exact q.2

/-- the resonance: where `p` and `r` are in the ratio that makes the bound an equality -/
theorem resonance {q c : ℝ} (h : 1 < 2 * q ^ 2) (hc1 : c < 1) (hc2 : -1 < c) :
    ∃ f, (2 * q ^ 2 - 1) * ((1 - c) * (1 + Real.cos (2 * Real.pi * f))) = 2 * q ^ 2 * ((1 + c) * (1 - Real.cos (2 * Real.pi * f))) := by
  have u : 0 < 2 * q ^ 2 * (1 + c) := mul_pos (by linarith) (by linarith)
  have v : 0 < (2 * q ^ 2 - 1) * (1 - c) := mul_pos (by linarith) (by linarith)
  refine ⟨Real.arccos ((2 * q ^ 2 * (1 + c) - (2 * q ^ 2 - 1) * (1 - c)) / (2 * q ^ 2 * (1 + c) + (2 * q ^ 2 - 1) * (1 - c))) / (2 * Real.pi), ?_⟩
  rw [mul_div_cancel₀ _ (by positivity), Real.cos_arccos]
  · have h2 : ∀ u v : ℝ, u + v ≠ 0 → v * (1 + (u - v) / (u + v)) = u * (1 - (u - v) / (u + v)) := by
      intro u v h; field_simp; ring
    have := h2 _ _ (add_pos u v).ne'
    linarith
  · rw [le_div_iff₀ (by linarith)]; linarith
  · rw [div_le_iff₀ (by linarith)]; linarith

theorem resonance_alg {q p r : ℝ} (hq : 0 < q) (h : 1 < 2 * q ^ 2) (e : (2 * q ^ 2 - 1) * p = 2 * q ^ 2 * r) :
    p ^ 2 = 4 * q ^ 4 / (4 * q ^ 2 - 1) * ((p - r) ^ 2 + p * r / q ^ 2) := by
  have h1 : 4 * q ^ 2 - 1 ≠ 0 := by linarith
  rw [div_mul_eq_mul_div, eq_div_iff h1]
  have : 4 * q ^ 4 * ((p - r) ^ 2 + p * r / q ^ 2) = 4 * q ^ 4 * (p - r) ^ 2 + 4 * q ^ 2 * (p * r) := by field_simp
  rw [this]
  linear_combination (-(2 * q ^ 2 - 1) * p + 2 * q ^ 2 * r) * e

/-- **C62**: these values are gains of the filter at some frequency: the bounds are the best ones. -/
theorem C62_attained (d : RBJ.Design ℝ) (h : ValidRBJ d) :
    AfterRBJ (finRBJ d) fun b =>
      (∃ f g, Gain b f g ∧ g ^ 2 = peakRBJ d) ∧ (∃ f g, Gain b f g ∧ g ^ 2 = dipRBJ d) := by
  cases d with
  | lowPass f0 q =>
    obtain ⟨h0, h1, hq⟩ := h
    by_cases hr : 2 * q ^ 2 ≤ 1
    · intro f
      obtain ⟨f', e1, e2, g1, g2, -⟩ := C38_lowPass h0 h1 hq f
      exact ⟨f', e1, e2, ⟨_, _, g1, by simp [peakRBJ, hr]⟩, _, _, g2, by simp [dipRBJ]⟩
    · obtain ⟨hs, hc1, hc2⟩ := trig_facts h0 h1
      have hal : 0 < Real.sin (2 * Real.pi * f0) / (2 * q) := by positivity
      refine afterRBJ_of ⟨_, _, _, _, _, _⟩ (by simp only; linarith) (lowPass_setup hq) fun b hb => ⟨?_, ?_⟩
      · obtain ⟨f, hf⟩ := resonance (not_le.1 hr) hc1 hc2
        refine ⟨f, _, gain_of (g := √(peakRBJ (.lowPass f0 q))) hb (by positivity) (core_pos h0 h1 hq f).ne' ?_, ?_⟩
        · rw [Real.sq_sqrt (peak_nonneg _), core_sq hq, peakRBJ, if_neg hr, ← resonance_alg hq (not_le.1 hr) hf, quadSq_cos]
          ring
        · rw [Real.sq_sqrt (peak_nonneg _)]
      · refine ⟨1 / 2, 0, gain_of hb le_rfl (core_pos h0 h1 hq _).ne' ?_, by simp [dipRBJ]⟩
        simp only [quadSq_half]; ring
  | highPass f0 q =>
    obtain ⟨h0, h1, hq⟩ := h
    by_cases hr : 2 * q ^ 2 ≤ 1
    · intro f
      obtain ⟨f', e1, e2, g1, g2, -⟩ := C38_highPass h0 h1 hq f
      exact ⟨f', e1, e2, ⟨_, _, g2, by simp [peakRBJ, hr]⟩, _, _, g1, by simp [dipRBJ]⟩
    · obtain ⟨hs, hc1, hc2⟩ := trig_facts h0 h1
      have hal : 0 < Real.sin (2 * Real.pi * f0) / (2 * q) := by positivity
      refine afterRBJ_of ⟨_, _, _, _, _, _⟩ (by simp only; linarith) (highPass_setup hq) fun b hb => ⟨?_, ?_⟩
      · obtain ⟨f, hf⟩ := resonance (c := -Real.cos (2 * Real.pi * f0)) (not_le.1 hr) (by linarith) (by linarith)
        have hf' : Real.cos (2 * Real.pi * (f + 1 / 2)) = -Real.cos (2 * Real.pi * f) := by
          rw [← Real.cos_add_pi]; congr 1; ring
        refine ⟨f + 1 / 2, _, gain_of (g := √(peakRBJ (.highPass f0 q))) hb (by positivity) (core_pos h0 h1 hq _).ne' ?_, ?_⟩
        · rw [Real.sq_sqrt (peak_nonneg _), core_sq hq, peakRBJ, if_neg hr, quadSq_cos, hf']
          have := resonance_alg hq (not_le.1 hr) hf
          refine Eq.trans ?_ (this.trans ?_) <;> ring
        · rw [Real.sq_sqrt (peak_nonneg _)]
      · refine ⟨0, 0, gain_of hb le_rfl (core_pos h0 h1 hq _).ne' ?_, by simp [dipRBJ]⟩
        simp only [quadSq_zero]; ring
  | bandPass1 f0 w =>
    obtain ⟨h0, h1, hw⟩ := h
    intro f
    obtain ⟨f', e1, e2, g1, g2, g3⟩ := C39_bandPass1 h0 h1 hw f
    exact ⟨f', e1, e2, ⟨_, _, g3, by simp [peakRBJ]⟩, _, _, g1, by simp [dipRBJ]⟩
  | bandPass2 f0 w =>
    obtain ⟨h0, h1, hw⟩ := h
    intro f
    obtain ⟨f', e1, e2, g1, g2, g3, -⟩ := C39_bandPass2 h0 h1 hw f
    exact ⟨f', e1, e2, ⟨_, _, g3, by simp [peakRBJ]⟩, _, _, g1, by simp [dipRBJ]⟩
  | bandStop f0 w =>
    obtain ⟨h0, h1, hw⟩ := h
    intro f
    obtain ⟨f', e1, e2, g1, g2, g3, -⟩ := C39_bandStop h0 h1 hw f
    exact ⟨f', e1, e2, ⟨_, _, g1, by simp [peakRBJ]⟩, _, _, g3, by simp [dipRBJ]⟩
  | allPass f0 q =>
    obtain ⟨h0, h1, hw⟩ := h
    intro f
    obtain ⟨f', e1, e2, g1⟩ := C41_allPass h0 h1 hw f
    exact ⟨f', e1, e2, ⟨0, _, g1 0, by simp [peakRBJ]⟩, 0, _, g1 0, by simp [dipRBJ]⟩
  | lowShelf f0 g S =>
    obtain ⟨h0, h1, hS0, hS1⟩ := h
    intro f
    obtain ⟨f', e1, e2, g1, g2⟩ := C40_lowShelf (g := g) h0 h1 hS0 hS1 f
    refine ⟨f', e1, e2, ?_, ?_⟩
    · rcases max_choice 1 (((10 : ℝ) ^ (g / 20)) ^ 2) with e | e
      · exact ⟨_, _, g2, by simp only [peakRBJ, e]; norm_num⟩
      · exact ⟨_, _, g1, by simp only [peakRBJ, e]⟩
    · rcases min_choice 1 (((10 : ℝ) ^ (g / 20)) ^ 2) with e | e
      · exact ⟨_, _, g2, by simp only [dipRBJ, e]; norm_num⟩
      · exact ⟨_, _, g1, by simp only [dipRBJ, e]⟩
  | highShelf f0 g S =>
    obtain ⟨h0, h1, hS0, hS1⟩ := h
    intro f
    obtain ⟨f', e1, e2, g2, g1⟩ := C40_highShelf (g := g) h0 h1 hS0 hS1 f
    refine ⟨f', e1, e2, ?_, ?_⟩
    · rcases max_choice 1 (((10 : ℝ) ^ (g / 20)) ^ 2) with e | e
      · exact ⟨_, _, g2, by simp only [peakRBJ, e]; norm_num⟩
      · exact ⟨_, _, g1, by simp only [peakRBJ, e]⟩
    · rcases min_choice 1 (((10 : ℝ) ^ (g / 20)) ^ 2) with e | e
      · exact ⟨_, _, g2, by simp only [dipRBJ, e]; norm_num⟩
      · exact ⟨_, _, g1, by simp only [dipRBJ, e]⟩
  | bandShelf f0 g w =>
    obtain ⟨h0, h1, hw⟩ := h
    intro f
    obtain ⟨f', e1, e2, g2, -, g1⟩ := C40_bandShelf (g := g) h0 h1 hw f
    refine ⟨f', e1, e2, ?_, ?_⟩
    · rcases max_choice 1 (((10 : ℝ) ^ (g / 20)) ^ 2) with e | e
      · exact ⟨_, _, g2, by simp only [peakRBJ, e]; norm_num⟩
      · exact ⟨_, _, g1, by simp only [peakRBJ, e]⟩
    · rcases min_choice 1 (((10 : ℝ) ^ (g / 20)) ^ 2) with e | e
      · exact ⟨_, _, g2, by simp only [dipRBJ, e]; norm_num⟩
      · exact ⟨_, _, g1, by simp only [dipRBJ, e]⟩
  | iirNotch f0 q =>
    obtain ⟨h0, h1, hq⟩ := h
    obtain ⟨hs, hc1, hc2⟩ := trig_facts h0 h1
    obtain ⟨hr0, hr1⟩ := notch_r h0 hq
    have er : Real.exp (-Real.pi * f0 / q) = Real.exp (-(2 * Real.pi * f0 / 2) / q) := by congr 1; ring
    refine afterRBJ_of ⟨_, _, _, _, _, _⟩ (by simp) (iirNotch_setup hq) fun b hb => ?_
    have hne : ∀ f, quadSq 1 (-2 * Real.exp (-(2 * Real.pi * f0 / 2) / q) * Real.cos (2 * Real.pi * f0))
        (Real.exp (-(2 * Real.pi * f0 / 2) / q) * Real.exp (-(2 * Real.pi * f0 / 2) / q)) f ≠ 0 := by
      intro f
      have := notch_den_pos hr0 hr1 hc2 hc1 (Real.neg_one_le_cos (2 * Real.pi * f)) (Real.cos_le_one (2 * Real.pi * f))
      rw [quadSq_cos]
      exact (lt_of_lt_of_eq this (by ring)).ne'
    constructor
    · simp only [peakRBJ, er]
      have hK : 0 < 1 + Real.exp (-(2 * Real.pi * f0 / 2) / q) ^ 2 +
        2 * Real.exp (-(2 * Real.pi * f0 / 2) / q) * |Real.cos (2 * Real.pi * f0)| := by positivity
      rcases le_total 0 (Real.cos (2 * Real.pi * f0)) with h | h
      · refine ⟨1 / 2, _, gain_of hb (by positivity) (hne _) ?_, rfl⟩
        rw [abs_of_nonneg h] at hK ⊢
        simp only [quadSq_half]
        rw [div_pow, div_mul_eq_mul_div, eq_div_iff (pow_pos hK 2).ne']
        ring
      · refine ⟨0, _, gain_of hb (by positivity) (hne _) ?_, rfl⟩
        rw [abs_of_nonpos h] at hK ⊢
        simp only [quadSq_zero]
        rw [div_pow, div_mul_eq_mul_div, eq_div_iff (pow_pos hK 2).ne']
        ring
    · refine ⟨f0, 0, gain_of hb le_rfl (hne _) ?_, by simp [dipRBJ]⟩
      simp only [quadSq]; ring

/-- a case: a resonant low pass (`q = 2`), a notch and a shelf that cuts by 12 dB -/
example : ValidRBJ (.lowPass 0.1 2) ∧ peakRBJ (.lowPass 0.1 2) = 64 / 15 ∧ ValidRBJ (.iirNotch 0.1 10) ∧
    ValidRBJ (.highShelf 0.1 (-12) 0.5) := by
  simp only [ValidRBJ, peakRBJ]; norm_num

end Iir
