import Verif.Spec.CustomAccuracy
import Verif.Lemmas.RoundCustom
import Verif.Lemmas.DoubleUnits
import Verif.Math.Jury
import Verif.Props.DoubleDesign
import Verif.Props.Sections

/-! # C90, C91, C92: poles of Custom filters, getters and scipy sections in IEEE doubles -/

set_option linter.unusedSectionVars false

namespace Iir
open FArith Spec Cx Biquad Exec

variable {R : Type} [FArith R] {u η Ω : ℝ} {r : Rounds R u η Ω}

theorem coeffs_unit {a1 a2 b0 b1 b2 : Dbl} (h : ¬ AnyNaN 1 a1 a2 b0 b1 b2) (b : Biquad Dbl) :
    setCoefficients 1 a1 a2 b0 b1 b2 b = (.ok (), { a0 := 1, a1 := a1, a2 := a2, b0 := b0, b1 := b1, b2 := b2 }) := by
  rw [stores_setCoefficients, coeffsR, if_neg (by simpa [AnyNaN, or_assoc] using h)]
  simp only [Dbl.div_one]

theorem Dbl.isNan_lit : isNan (1 : Dbl) = false ∧ isNan (0 : Dbl) = false := by
  constructor
  · rw [Bool.eq_false_iff, ne_eq, isNan_iff, Dbl.lit_one]; simp
  · rw [Bool.eq_false_iff, ne_eq, isNan_iff, lit_zero]; simp [zero]

theorem Dbl.isNan_neg {a : Dbl} (h : isNan a = false) : isNan (-a) = false := by
  rw [Bool.eq_false_iff, ne_eq, isNan_iff] at *
  intro e
  apply h
  cases a with
  | nan => rfl
  | inf => cases e
  | num => cases e

/-! ## C90 -/

/-- **C90**, one pole: in IEEE doubles `OnePole::setup` stores pole and scale without any error, and the filter is stable
exactly if the pole is inside the unit circle. -/
theorem C90_onePole (s : Dbl) {p z : Dbl} (hp : p.Finite) (hz : isNan z = false) (b : Biquad Dbl) :
    Custom.onePole s p z b = (.ok (), { a0 := 1, a1 := -p, a2 := 0, b0 := s, b1 := -z * s, b2 := 0 * s }) ∧
    (doubleRounds.StableSection (Custom.onePole s p z b).2 ↔ |p.val| < 1) := by
  have h0 : fne (0 : Dbl) 0 = false := by
    have := (doubleRounds_library.feq (0 : Dbl) 0 doubleRounds.zero.1 doubleRounds.zero.1).2 rfl
    simp [fne, this]
  have e : Custom.onePole s p z b = (.ok (), { a0 := 1, a1 := -p, a2 := 0, b0 := s, b1 := -z * s, b2 := 0 * s }) := by
    have hn : ¬ AnyNaN 1 (-p) 0 1 (-z) (0 : Dbl) := by
      simp [AnyNaN, Dbl.isNan_lit, Dbl.isNan_neg hz, Dbl.isNan_neg (doubleRounds_accurate.not_nan p hp)]
    simp [Custom.onePole, setOnePole, ofR, bind_def, Exec.throwIf, h0, coeffs_unit hn, applyScale, Dbl.one_mul]
  refine ⟨e, ?_⟩
  rw [e]
  have v1 : doubleRounds.val (-p) = -p.val := Dbl.val_neg p
  have v2 : doubleRounds.val (0 : Dbl) = 0 := doubleRounds.zero.2
  constructor
  · rintro ⟨-, -, h⟩
    have := h p.val (by
      simp only [v1, v2]
      push_cast
      ring)
    rwa [Complex.norm_real, Real.norm_eq_abs] at this
  · refine fun h => ⟨Dbl.finite_neg hp, doubleRounds.zero.1, fun w hw => ?_⟩
    simp only [v1, v2] at hw
    push_cast at hw
    have : w * (w - p.val) = 0 := by rw [← hw]; ring
    rcases mul_eq_zero.1 this with h1 | h1
    · rw [h1, norm_zero]; exact one_pos
    · rw [sub_eq_zero.1 h1, Complex.norm_real, Real.norm_eq_abs]; exact h

/-- **C90**, two poles, what holds: in any arithmetic with the precision of doubles, poles of radius at most `1 - 2⁻¹⁹` give a
stable filter.  Missing: radii between that and one; false there, `C90_false`. -/
theorem C90_twoPole_partial (hl : r.Library) {s ρ θ σ φ : R} (hs : r.Scale s) (hρ : r.Fin ρ) (hθ : r.Fin θ) (hσ : r.Fin σ)
    (hφ : r.Fin φ) (hρ0 : 0 ≤ r.val ρ) (hρ1 : r.val ρ ≤ 1 - 1 / 2 ^ 19) (hσ0 : 0 ≤ r.val σ) (hσ1 : r.val σ ≤ 3 / 2)
    (b : Biquad R) : ∃ b', Custom.twoPole s ρ θ σ φ b = (.ok (), b') ∧ r.StableSection b' := by
  have ha := hl.toAccurate
  have weak : ∀ {x : R} {v δ γ : ℝ}, r.At x v δ → δ ≤ γ → r.At x v γ := fun h hle => ⟨h.1, h.2.trans hle⟩
  have hρ2 : r.val ρ ≤ 1 := by norm_num at hρ1 ⊢; linarith
  obtain ⟨zp, a, ep, ea, a1, a2⟩ := polar_pair hl .twoPolePoles hρ hθ hρ0 (by linarith)
  obtain ⟨zz, c, ez, ec, c1, c2⟩ := polar_pair hl .twoPoleZeros hσ hφ hσ0 hσ1
  have hcos : ∀ {q t m : ℝ}, 0 ≤ q → q ≤ m → |-(2 * q * Real.cos t)| ≤ 2 * m := fun {q t m} h0 h1 => by
    rw [abs_neg, abs_mul, abs_of_nonneg (by positivity : 0 ≤ 2 * q)]
    exact (mul_le_of_le_one_right (by positivity) (Real.abs_cos_le_one t)).trans (by linarith)
  have hsq : r.val ρ ^ 2 ≤ 1 := pow_le_one₀ hρ0 hρ2
  have hsq' : r.val σ ^ 2 ≤ 9 / 4 := by nlinarith
  obtain ⟨b', k', e, hv, hn⟩ := stored_scaled ha (weak a1 (by norm_num; linarith)) (weak a2 (by norm_num; linarith))
    (weak c1 (by norm_num; linarith)) (weak c2 (by norm_num; linarith)) ((hcos hρ0 hρ2).trans (by norm_num))
    (by rw [abs_of_nonneg (by positivity)]; linarith) ((hcos hσ0 hσ1).trans (by norm_num))
    (by rw [abs_of_nonneg (by positivity)]; linarith) hs.fin hs.lo hs.hi b
  refine ⟨b', ?_, hv.a1.1, hv.a2.1, ?_⟩
  · rw [← e]
    simp [Custom.twoPole, setTwoPole, bind_def, ep, ez, ea, ec, Exec.lift]
  · have n1 := abs_le.1 hn.a1
    have n2 := abs_le.1 hn.a2
    simp only at n1 n2
    have hc := abs_le.1 (hcos (t := r.val θ) hρ0 le_rfl)
    have hq : (1 / 2 ^ 19 : ℝ) ^ 2 ≤ (1 - r.val ρ) ^ 2 := pow_le_pow_left₀ (by positivity) (by linarith) 2
    have hq2 : r.val ρ ^ 2 ≤ (1 - 1 / 2 ^ 19) ^ 2 := pow_le_pow_left₀ hρ0 hρ1 2
    rw [hv.a1.2, hv.a2.2]
    have := Coeffs.stable_of_jury (k := k') (by rw [hv.a0]; norm_num) (by rw [hv.a0]; norm_num at *; nlinarith)
      (by rw [hv.a0]; norm_num at *; nlinarith) (by rw [hv.a0]; norm_num at *; nlinarith)
    intro w hw
    exact this w (by rw [hv.a0]; push_cast; rw [← hw]; ring)

/-- **C90** fails near the unit circle: `TwoPole::setup` with radius `1 - 2⁻⁵³`, the largest double below one, and angle 0
stores `a1 = -(2 - 2⁻⁵²)` without error, but `a2 = 1 - 2⁻⁵²` after rounding, so that `1 + a1 + a2 = 0`: a pole at 1.  Whatever
the scale and the zeros. -/
theorem C90_false {s σ φ : Dbl} (hσ : σ.Finite) (hφ : φ.Finite) (hσ0 : 0 ≤ σ.val) (hσ1 : σ.val ≤ 3 / 2) (b : Biquad Dbl) :
    let ρ : Dbl := .lit2 (2 ^ 53 - 1) (-53)
    (0 ≤ ρ.val ∧ ρ.val < 1) ∧ ∃ b', Custom.twoPole s ρ 0 σ φ b = (.ok (), b') ∧
      1 + b'.a1.val + b'.a2.val = 0 ∧ ¬ doubleRounds.StableSection b' := by
  intro ρ
  obtain ⟨h1, h2⟩ := Dbl.lit2_val (m := 2 ^ 53 - 1) (e := -53) (by norm_num) (by norm_num) (by norm_num)
  have hv : ρ.val = 1 - 1 / 2 ^ 53 := h2.trans (by norm_num)
  refine ⟨by rw [hv]; norm_num, ?_⟩
  obtain ⟨t, x, hx⟩ := Dbl.exists_num (show ρ.Finite from h1)
  have hpolar : polarC ρ (0 : Dbl) = .ok ⟨ρ, ρ * 0⟩ := by
    have e1 : Dbl.ofXR false (XR.cos (0 : Dbl).toXR) = 1 := by
      rw [Dbl.lit_zero, Dbl.toXR_zero]
      show Dbl.ofReal false (Real.cos 0) = Dbl.ofReal false ((1 : ℤ) : ℝ)
      simp
    have e2 : Dbl.ofXR (0 : Dbl).sign (XR.sin (0 : Dbl).toXR) = 0 := by
      rw [Dbl.lit_zero, Dbl.toXR_zero]
      show Dbl.ofReal false (Real.sin 0) = _
      rw [Real.sin_zero, Dbl.ofReal_zero]
    show Res.ok (⟨Dbl.mul ρ (Dbl.ofXR false (XR.cos (0 : Dbl).toXR)), Dbl.mul ρ (Dbl.ofXR (0 : Dbl).sign (XR.sin (0 : Dbl).toXR))⟩ : Cx Dbl) = _
    rw [e1, e2]
    have := Dbl.mul_one ρ
    rw [show Dbl.mul ρ 1 = ρ * 1 from rfl, this]
    rfl
  have z1 : doubleRounds.Fin (ρ * 0) ∧ doubleRounds.val (ρ * 0) = 0 := by
    refine ⟨?_, doubleRounds_library.mul_zero ρ 0 h1 doubleRounds.zero.1 (.inr doubleRounds.zero.2)⟩
    exact (doubleRounds.mul ρ 0 h1 doubleRounds.zero.1 (by rw [doubleRounds.zero.2, MulZeroClass.mul_zero, abs_zero]; exact maxDouble_ge.trans' (by positivity))).1
  have fz : ∀ {a : Dbl}, a.Finite → a.val = 0 → fne a 0 = false := fun {a} ha hv0 => by
    have := (doubleRounds_library.feq a 0 ha doubleRounds.zero.1).2 (hv0.trans doubleRounds.zero.2.symm)
    simp [fne, this]
  have hpair : pairCoeffs (R := Dbl) .twoPolePoles ⟨ρ, ρ * 0⟩ (conj ⟨ρ, ρ * 0⟩) = .ok (-(ρ + ρ), ρ * ρ) := by
    unfold pairCoeffs
    rw [if_neg (by rw [fz z1.1 z1.2]; simp)]
    have : fne (conj (⟨ρ, ρ * 0⟩ : Cx Dbl)).im 0 = false :=
      fz (Dbl.finite_neg z1.1) (by
        have := Dbl.val_neg (ρ * 0)
        rw [show (ρ * 0).val = 0 from z1.2, neg_zero] at this
        exact this)
    rw [if_neg (by rw [this]; simp)]
    rfl
  have hadd : (ρ + ρ).Finite ∧ (ρ + ρ).val = 2 - 1 / 2 ^ 52 := by
    rw [hx, Dbl.add_num, ← hx, hv]
    have := Dbl.ofReal_isDouble (t && t) (x := (1 - 1 / 2 ^ 53 : ℝ) + (1 - 1 / 2 ^ 53))
      ⟨2 ^ 53 - 1, -52, by norm_num, by norm_num, by norm_num, by norm_num⟩
    exact ⟨this.1, this.2.trans (by norm_num)⟩
  have hmul : (ρ * ρ).Finite ∧ (ρ * ρ).val = 1 - 1 / 2 ^ 52 := by
    rw [hx, Dbl.mul_num, ← hx, hv]
    refine Dbl.ofReal_round _ (by norm_num) ?_ (lt_of_lt_of_le (by norm_num : (1 - 1 / 2 ^ 52 : ℝ) < 1) (one_le_pow₀ (by norm_num)))
    rw [roundReal_eq (k := 2 ^ 53 - 2) (e := -53) (by norm_num) (by norm_num) (by norm_num) (by
      rw [abs_lt]; norm_num)]
    norm_num
  obtain ⟨zz, c, ez, ec, c1, c2⟩ := polar_pair doubleRounds_library .twoPoleZeros (show doubleRounds.Fin σ from hσ)
    (show doubleRounds.Fin φ from hφ) hσ0 hσ1
  have nn := doubleRounds_accurate.not_nan
  have hn : ¬ AnyNaN 1 (-(ρ + ρ)) (ρ * ρ) 1 c.1 c.2 := by
    simp [AnyNaN, Dbl.isNan_lit, nn _ (Dbl.finite_neg hadd.1), nn _ hmul.1, nn _ c1.1, nn _ c2.1]
  refine ⟨{ a0 := 1, a1 := -(ρ + ρ), a2 := ρ * ρ, b0 := 1 * s, b1 := c.1 * s, b2 := c.2 * s }, ?_, ?_, ?_⟩
  · simp [Custom.twoPole, setTwoPole, bind_def, hpolar, ez, hpair, ec, Exec.lift, coeffs_unit hn, applyScale]
  · show 1 + (-(ρ + ρ)).val + (ρ * ρ).val = 0
    rw [Dbl.val_neg, hadd.2, hmul.2]
    norm_num
  · rintro ⟨-, -, h⟩
    have := h 1 (by
      show (1 : ℂ) ^ 2 + ((-(ρ + ρ)).val : ℝ) * 1 + ((ρ * ρ).val : ℝ) = 0
      rw [Dbl.val_neg, hadd.2, hmul.2]
      push_cast
      norm_num)
    simp at this

/-! ## C91 -/

/-- **C91**, what holds: with `a0 = 1` the getters return, in IEEE doubles, exactly the numbers that were set, signed zeros and
infinities included.  Missing: other `a0`; false, `C91_false`. -/
theorem C91_unit_partial {a1 a2 b0 b1 b2 : Dbl} (h : ¬ AnyNaN 1 a1 a2 b0 b1 b2) (b : Biquad Dbl) :
    ∃ b', setCoefficients 1 a1 a2 b0 b1 b2 b = (.ok (), b') ∧ Getters b' 1 a1 a2 b0 b1 b2 :=
  ⟨_, coeffs_unit h b, rfl, Dbl.mul_one _, Dbl.mul_one _, Dbl.mul_one _, Dbl.mul_one _, Dbl.mul_one _⟩

/-- **C91**, what holds for every `a0`: after `setCoefficients` with a common factor `a0`, each getter is within two roundings of the
number that was set, in any arithmetic with the precision of doubles. -/
theorem C91_close_partial (ha : r.Accurate) {a0 x : R} (h0 : r.Fin a0) (hx : r.Fin x) (l0 : 1 / 2 ^ 90 ≤ |r.val a0|)
    (u0 : |r.val a0| ≤ 2 ^ 90) (ux : |r.val x| ≤ 2 ^ 90) :
    r.Fin (x / a0 * a0) ∧ |r.val (x / a0 * a0) - r.val x| ≤ |r.val x| / 2 ^ 51 + 4 * η * (1 + |r.val a0|) := by
  have hu := ha.u_le
  have hu0 := r.u_nonneg
  have hη0 := r.η_nonneg
  have hη1 : η ≤ 1 := ha.η_le.trans (by norm_num)
  have hΩ := ha.le_Ω
  have hA : 0 < |r.val a0| := lt_of_lt_of_le (by positivity) l0
  have hne : r.val a0 ≠ 0 := abs_pos.1 hA
  have hq : |r.val x / r.val a0| ≤ 2 ^ 180 := by
    rw [abs_div, div_le_iff₀ hA]
    calc |r.val x| ≤ 2 ^ 90 := ux
      _ = 2 ^ 180 * (1 / 2 ^ 90) := by norm_num
      _ ≤ 2 ^ 180 * |r.val a0| := mul_le_mul_of_nonneg_left l0 (by positivity)
  obtain ⟨f1, e1⟩ := ha.div x a0 hx h0 hne (hq.trans (le_trans (by norm_num) hΩ))
  have e2 : |r.val (x / a0) * r.val a0 - r.val x| ≤ u * |r.val x| + η * |r.val a0| := by
    have : r.val (x / a0) * r.val a0 - r.val x = (r.val (x / a0) - r.val x / r.val a0) * r.val a0 := by
      rw [sub_mul, div_mul_cancel₀ _ hne]
    rw [this, abs_mul]
    calc _ ≤ (u * |r.val x / r.val a0| + η) * |r.val a0| := mul_le_mul_of_nonneg_right e1 hA.le
      _ = _ := by rw [abs_div, add_mul, mul_assoc, div_mul_cancel₀ _ hA.ne']
  have e3 : |r.val (x / a0) * r.val a0| ≤ |r.val x| + (u * |r.val x| + η * |r.val a0|) := by
    have := abs_sub_abs_le_abs_sub (r.val (x / a0) * r.val a0) (r.val x)
    linarith
  have hX := abs_nonneg (r.val x)
  have e4 : u * |r.val x| ≤ 1 / 2 ^ 53 * |r.val x| := mul_le_mul_of_nonneg_right hu hX
  have e5 : η * |r.val a0| ≤ 1 * |r.val a0| := mul_le_mul_of_nonneg_right hη1 hA.le
  obtain ⟨f2, e6⟩ := r.mul (x / a0) a0 f1 h0 (by
    refine (e3.trans ?_).trans hΩ
    norm_num at *
    linarith)
  refine ⟨f2, ?_⟩
  have e7 := abs_sub_le (r.val (x / a0 * a0)) (r.val (x / a0) * r.val a0) (r.val x)
  have e8 : u * |r.val (x / a0) * r.val a0| ≤ 1 / 2 ^ 53 * (|r.val x| + (1 / 2 ^ 53 * |r.val x| + η * |r.val a0|)) :=
    mul_le_mul hu (by linarith) (abs_nonneg _) (by positivity)
  have e9 : 0 ≤ η * |r.val a0| := by positivity
  have : 4 * η * (1 + |r.val a0|) = 4 * η + 4 * (η * |r.val a0|) := by ring
  rw [this]
  clear e1 hq e3 e5 l0 u0 ux hΩ hη1 hu hA
  generalize η * |r.val a0| = Y at *
  generalize u * |r.val (x / a0) * r.val a0| = Z at *
  generalize |r.val (x / a0 * a0) - r.val (x / a0) * r.val a0| = D at *
  generalize |r.val (x / a0) * r.val a0 - r.val x| = D' at *
  generalize |r.val (x / a0 * a0) - r.val x| = D'' at *
  generalize u * |r.val x| = W at *
  generalize |r.val x| = V at *
  norm_num at *
  linarith

/-- What the getters compute after `setCoefficients` (so that `C91_close_partial` is about them). -/
theorem C91_getters {a0 a1 a2 b0 b1 b2 : R} (h : ¬ AnyNaN a0 a1 a2 b0 b1 b2) (b : Biquad R) :
    ∃ b', setCoefficients a0 a1 a2 b0 b1 b2 b = (.ok (), b') ∧
      Getters b' a0 (a1 / a0 * a0) (a2 / a0 * a0) (b0 / a0 * a0) (b1 / a0 * a0) (b2 / a0 * a0) := by
  refine ⟨_, Prod.ext (C20_no_nan_succeeds h b) rfl, ?_⟩
  rw [stores_setCoefficients, coeffsR, if_neg (by simpa [AnyNaN, or_assoc] using h)]
  exact ⟨rfl, rfl, rfl, rfl, rfl, rfl⟩

/-- **C91** fails: after `setCoefficients (49, 0, 0, 1, 0, 0)` the getter `getB0` returns `1 - 2⁻⁵³`, not 1. -/
theorem C91_false (b : Biquad Dbl) :
    ∃ b', setCoefficients (.lit2 49 0) 0 0 1 0 0 b = (.ok (), b') ∧ b'.getB0.Finite ∧ b'.getB0.val = 1 - 1 / 2 ^ 53 ∧
      b'.getB0 ≠ 1 := by
  obtain ⟨h1, h2⟩ := Dbl.lit2_val (m := 49) (e := 0) (by norm_num) (by norm_num) (by norm_num)
  obtain ⟨s, x, hx⟩ := Dbl.exists_num h1
  have hv : (Dbl.lit2 49 0).val = 49 := h2.trans (by norm_num)
  have hx49 : x.1 = 49 := by rw [← Dbl.abs_val s x, ← hx, hv]; norm_num
  have hdiv : ((1 : Dbl) / .lit2 49 0).Finite ∧ ((1 : Dbl) / .lit2 49 0).val = 5882252574524729 / 2 ^ 58 := by
    have : (1 : Dbl) / .lit2 49 0 = Dbl.ofReal (false ^^ s) (1 / 49) := by
      show Dbl.div 1 (.lit2 49 0) = _
      rw [Dbl.lit_one, hx]
      simp only [Dbl.div]
      rw [if_neg (by rw [hx49]; norm_num), ← hx, hv]
      simp [Dbl.val]
    rw [this]
    refine Dbl.ofReal_round _ (by norm_num) ?_ (lt_of_lt_of_le (by norm_num : (5882252574524729 / 2 ^ 58 : ℝ) < 1) (one_le_pow₀ (by norm_num)))
    rw [roundReal_eq (k := 5882252574524729) (e := -58) (by norm_num) (by norm_num) (by norm_num) (by rw [abs_lt]; norm_num)]
    norm_num
  have hmul : ((1 : Dbl) / .lit2 49 0 * .lit2 49 0).Finite ∧ ((1 : Dbl) / .lit2 49 0 * .lit2 49 0).val = 1 - 1 / 2 ^ 53 := by
    obtain ⟨hd1, hd2⟩ := hdiv
    obtain ⟨t, y, hy⟩ := Dbl.exists_num hd1
    rw [hy] at hd2 ⊢
    rw [hx, Dbl.mul_num, ← hx, hv, hd2]
    refine Dbl.ofReal_round _ (by norm_num) ?_ (lt_of_lt_of_le (by norm_num : (1 - 1 / 2 ^ 53 : ℝ) < 1) (one_le_pow₀ (by norm_num)))
    rw [roundReal_eq (k := 2 ^ 53 - 1) (e := -53) (by norm_num) (by norm_num) (by norm_num) (by rw [abs_lt]; norm_num)]
    norm_num
  have hn : ¬ AnyNaN (Dbl.lit2 49 0) 0 0 1 0 0 := by
    simp [AnyNaN, Dbl.isNan_lit, doubleRounds_accurate.not_nan _ h1]
  obtain ⟨b', e, g⟩ := C91_getters hn b
  refine ⟨b', e, ?_⟩
  rw [g.2.2.2.1]
  refine ⟨hmul.1, hmul.2, fun h => ?_⟩
  rw [h, Dbl.lit_one_val.2] at hmul
  norm_num at hmul

/-! ## C92 -/

theorem sos_unit (rows : List (CascadeStages.SosRow Dbl)) (h1 : ∀ w ∈ rows, w.c3 = 1)
    (hn : ∀ w ∈ rows, ¬ AnyNaN 1 w.c4 w.c5 w.c0 w.c1 w.c2) (bs : List (Biquad Dbl)) (hl : bs.length = rows.length) :
    CascadeStages.setup rows bs =
      (.ok (), rows.map fun w => { a0 := 1, a1 := w.c4, a2 := w.c5, b0 := w.c0, b1 := w.c1, b2 := w.c2 }) := by
  induction rows generalizing bs with
  | nil => cases bs with
    | nil => rfl
    | cons => simp at hl
  | cons w rows ih =>
    cases bs with
    | nil => simp at hl
    | cons b bs =>
      have hw := coeffs_unit (hn w List.mem_cons_self) b
      have h3 := h1 w List.mem_cons_self
      simp only [CascadeStages.setup, h3, hw, ih (fun w hw => h1 w (List.mem_cons_of_mem _ hw)) (fun w hw => hn w (List.mem_cons_of_mem _ hw))
        bs (by simpa using hl), List.map_cons]

/-- **C92**: `SOSCascade (sos)` with rows whose fourth entry is one, as scipy writes them, holds exactly these coefficients in IEEE
doubles, and its delay lines are empty. -/
theorem C92_import {S : Type → Type} [StateType S Dbl] (rows : List (CascadeStages.SosRow Dbl)) (h1 : ∀ w ∈ rows, w.c3 = 1)
    (hn : ∀ w ∈ rows, ¬ AnyNaN 1 w.c4 w.c5 w.c0 w.c1 w.c2) :
    Custom.SOS.ofCoefficients rows = .ok
      ({ stages := rows.map fun w => { a0 := 1, a1 := w.c4, a2 := w.c5, b0 := w.c0, b1 := w.c1, b2 := w.c2 },
         states := List.replicate rows.length StateType.init } : Custom.SOS S Dbl) := by
  have := sos_unit rows h1 hn (CascadeStages.initStages rows.length) (by simp [CascadeStages.initStages])
  simp [Custom.SOS.ofCoefficients, Custom.SOS.setup, Exec.zoom, Custom.SOS.init, this, CascadeStages.initStates]

/-- The real numbers of a row. -/
def Spec.valRow (w : CascadeStages.SosRow Dbl) : CascadeStages.SosRow ℝ := ⟨w.c0.val, w.c1.val, w.c2.val, w.c3.val, w.c4.val, w.c5.val⟩

/-- All entries are finite. -/
def Spec.FiniteRow (w : CascadeStages.SosRow Dbl) : Prop :=
  w.c0.Finite ∧ w.c1.Finite ∧ w.c2.Finite ∧ w.c3.Finite ∧ w.c4.Finite ∧ w.c5.Finite

/-- **C92**: and the samples it returns stay for ever within rounding errors of the output of exactly the sections that the rows
describe. -/
theorem C92_runs {S : Type → Type} [StateType S Dbl] [DelayLine Dbl S] (rows : List (CascadeStages.SosRow Dbl))
    (h1 : ∀ w ∈ rows, w.c3 = 1) (hf : ∀ w ∈ rows, FiniteRow w) (hst : ∀ w ∈ rows, (rowCoeffs (valRow w)).Stable)
    (hp : ∀ w ∈ rows, (rowCoeffs (valRow w)).Precise ((1 / 2) ^ 53)) :
    ∃ f : Custom.SOS S Dbl, Custom.SOS.ofCoefficients rows = .ok f ∧ ∃ C : ℝ, 0 < C ∧
      ∀ (X : ℝ) (x : ℕ → Dbl), doubleRounds.Input X x → C * (X + (1 / 2) ^ 1075) ≤ maxDouble →
        ∃ y', Returns (Custom.SOS.filter (T := Dbl)) f x y' ∧
          ∀ y, DiffChain (rows.map fun w => rowCoeffs (valRow w)) (fun n => (x n).val) y →
            ∀ n, (y' n).Finite ∧ |(y' n).val - y n| ≤ C * ((1 / 2) ^ 53 * X + (1 / 2) ^ 1075) := by
  have nn := doubleRounds_accurate.not_nan
  refine ⟨_, C92_import rows h1 fun w hw => ?_, ?_⟩
  · obtain ⟨a, b, c, d, e, f⟩ := hf w hw
    simp [AnyNaN, Dbl.isNan_lit, nn _ a, nn _ b, nn _ c, nn _ e, nn _ f]
  · obtain ⟨C, hC, h⟩ := C64_sos (ks := rows.map fun w => rowCoeffs (valRow w)) (by simpa using hst) (by simpa using hp)
    refine ⟨C, hC, fun X x hx hX => ?_⟩
    set f : Custom.SOS S Dbl := { stages := rows.map fun w => { a0 := 1, a1 := w.c4, a2 := w.c5, b0 := w.c0, b1 := w.c1, b2 := w.c2 }, states := List.replicate rows.length StateType.init } with hfd
    have hreset : (Custom.SOS.reset f).2 = f := by
      simp only [Custom.SOS.reset, modify_def, reset_states, hfd, List.length_replicate]
    have := h S f (by simp [hfd]) (by
      rw [hfd]
      simp only
      rw [List.forall₂_map_left_iff, List.forall₂_map_right_iff, List.forall₂_same]
      intro w hw
      obtain ⟨a, b, c, d, e, f⟩ := hf w hw
      exact ⟨by show w.c3.val = 1; rw [h1 w hw, Dbl.lit_one_val.2], ⟨e, rfl⟩, ⟨f, rfl⟩, ⟨a, rfl⟩, ⟨b, rfl⟩, ⟨c, rfl⟩⟩) X x hx hX
    rwa [hreset] at this

/-! ## Examples -/

/-- A pole at 1/2 gives a stable filter, one at -3 does not (C90). -/
example (b : Biquad Dbl) : doubleRounds.StableSection (Custom.onePole 1 (.lit2 1 (-1)) 0 b).2 ∧
    ¬ doubleRounds.StableSection (Custom.onePole 1 (.lit2 (-3) 0) 0 b).2 := by
  obtain ⟨h1, h2⟩ := Dbl.lit2_val (m := 1) (e := -1) (by norm_num) (by norm_num) (by norm_num)
  obtain ⟨h3, h4⟩ := Dbl.lit2_val (m := -3) (e := 0) (by norm_num) (by norm_num) (by norm_num)
  rw [(C90_onePole 1 h1 Dbl.isNan_lit.2 b).2, (C90_onePole 1 h3 Dbl.isNan_lit.2 b).2, h2, h4]
  norm_num

/-- Zeros at the origin (C90_false). -/
example : (0 : Dbl).Finite ∧ 0 ≤ (0 : Dbl).val ∧ (0 : Dbl).val ≤ 3 / 2 :=
  ⟨doubleRounds.zero.1, doubleRounds.zero.2.ge, by rw [show (0 : Dbl).val = 0 from doubleRounds.zero.2]; norm_num⟩

/-- Numbers that are not NaN, among them an infinity (C91). -/
example : ¬ AnyNaN 1 (0 : Dbl) 1 (.inf true) (-1) 0 := by
  have h : isNan (Dbl.inf true) = false := by rw [Bool.eq_false_iff, ne_eq, Dbl.isNan_iff]; simp
  simp [AnyNaN, Dbl.isNan_lit, h, Dbl.isNan_neg Dbl.isNan_lit.1]

/-- The coefficients 49 and 1 of `C91_false` are in the range of `C91_close_partial`. -/
example : doubleRounds.Fin (.lit2 49 0) ∧ doubleRounds.Fin 1 ∧ 1 / 2 ^ 90 ≤ |doubleRounds.val (.lit2 49 0)| ∧
    |doubleRounds.val (.lit2 49 0)| ≤ 2 ^ 90 ∧ |doubleRounds.val 1| ≤ 2 ^ 90 := by
  obtain ⟨h1, h2⟩ := Dbl.lit2_val (m := 49) (e := 0) (by norm_num) (by norm_num) (by norm_num)
  have e1 : doubleRounds.val (.lit2 49 0) = 49 := h2.trans (by norm_num)
  have e2 : doubleRounds.val 1 = 1 := Dbl.lit_one_val.2
  refine ⟨h1, Dbl.lit_one_val.1, ?_⟩
  rw [e1, e2]
  norm_num

/-- Two leaky integrators as scipy would write them (C92). -/
example : let w : CascadeStages.SosRow Dbl := ⟨1, 0, 0, 1, .lit2 (-1) (-1), 0⟩
    ∀ w' ∈ [w, w], w'.c3 = 1 ∧ FiniteRow w' ∧ (rowCoeffs (valRow w')).Stable ∧ (rowCoeffs (valRow w')).Precise ((1 / 2) ^ 53) := by
  intro w w' hw
  obtain ⟨h1, h2⟩ := Dbl.lit2_val (m := -1) (e := -1) (by norm_num) (by norm_num) (by norm_num)
  have e0 : (0 : Dbl).val = 0 := doubleRounds.zero.2
  have e1 : (Dbl.lit2 (-1) (-1)).val = -1 / 2 := h2.trans (by norm_num)
  have hk : rowCoeffs (valRow w) = exLeak := by
    simp only [w, rowCoeffs, valRow, exLeak, e0, e1, Dbl.lit_one_val.2]
  obtain rfl : w' = w := by simpa using hw
  rw [hk]
  exact ⟨rfl, ⟨Dbl.lit_one_val.1, doubleRounds.zero.1, doubleRounds.zero.1, Dbl.lit_one_val.1, h1, doubleRounds.zero.1⟩,
    exLeak_stable, exLeak_double⟩

end Iir
