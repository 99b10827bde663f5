import Verif.Spec.CustomAccuracy
import Verif.Lemmas.RoundCustom
import Verif.Lemmas.DoubleComplex
import Verif.Props.DoubleDesign

/-! # C89: Custom::OnePole and Custom::TwoPole stay close to the ideal filters -/

set_option linter.unusedSectionVars false

namespace Iir
open FArith Spec Cx Biquad Exec

variable {R : Type} [FArith R] {u η Ω : ℝ} {r : Rounds R u η Ω}

/-- **C89**, one pole: in any arithmetic with the precision of doubles, `OnePole::setup` with a pole of magnitude at most
`1 - 2⁻³⁸` succeeds, whatever the object held before, and every delay line, compiled in any way, then returns samples within
`|s| (1 + |z|) / (1 - |p|)² · 2⁻³⁷ X` of the ideal filter, at all times. -/
theorem C89_onePole (hl : r.Library) {s p z : R} (hs : r.Scale s) (hp : r.Fin p) (hz : r.Fin z)
    (hp1 : |r.val p| ≤ 1 - 1 / 2 ^ 38) (hz1 : |r.val z| ≤ 3) (b : Biquad R) :
    ∃ b', Custom.onePole s p z b = (.ok (), b') ∧
      ∀ (S : Type → Type) [StateType S R] [DelayLine R S] (F : Option (R → R → R → R)), (∀ fma ∈ F, r.Fused fma) →
        ∀ X x out y, r.Signal X x → SectionReturns F S b' x out →
          OnePoleRuns (r.val s) (r.val p) (r.val z) (fun n => r.val (x n)) y →
          r.Within (|r.val s| * (1 + |r.val z|) / (1 - |r.val p|) ^ 2 / 2 ^ 37 * X) out y := by
  have ha := hl.toAccurate
  have hzero : r.At (0 : R) 0 0 := ⟨r.zero.1, by simp [r.zero.2]⟩
  have hself : ∀ {x : R}, r.Fin x → r.At x (r.val x) 0 := fun h => ⟨h, by simp⟩
  have weak : ∀ {x : R} {v δ γ : ℝ}, r.At x v δ → δ ≤ γ → r.At x v γ := fun h hle => ⟨h.1, h.2.trans hle⟩
  obtain ⟨b', k', e, hv, hn⟩ := stored_scaled ha (weak (At.neg ha (hself hp)) (by norm_num)) (weak hzero (by norm_num))
    (weak (At.neg ha (hself hz)) (by norm_num)) (weak hzero (by norm_num)) (by rw [abs_neg]; norm_num at *; linarith)
    (by norm_num) (by rwa [abs_neg]) (by norm_num) hs.fin hs.lo hs.hi b
  refine ⟨b', ?_, fun S _ _ F hF X x out y hx hrun hy => ?_⟩
  · have h0 : fne (0 : R) 0 = false := by
      have := (hl.feq (0 : R) 0 r.zero.1 r.zero.1).2 rfl
      simp [fne, this]
    rw [← e]
    simp [Custom.onePole, setOnePole, ofR, bind_def, Exec.throwIf, h0]
  · generalize r.val p = P at *
    generalize r.val z = Z at *
    have hs1 := hs.lo
    have hs2 := hs.hi
    generalize r.val s = s' at *
    have hP := abs_nonneg P
    have hZ := abs_nonneg Z
    have hS := abs_nonneg s'
    have hpos : 0 < 1 - |P| := lt_of_lt_of_le (by norm_num) (by linarith : (1 : ℝ) / 2 ^ 38 ≤ 1 - |P|)
    have hf : Coeffs.forward ⟨1, -P, 0, s', s' * -Z, s' * 0⟩ = |s'| * (1 + |Z|) := by
      unfold Coeffs.forward; simp [abs_mul]; ring
    have hpole : Coeffs.StablePoles ⟨1, -P, 0, s', s' * -Z, s' * 0⟩ P 0 :=
      ⟨by simp, by simp, by rw [Complex.norm_real, Real.norm_eq_abs]; linarith, by simp⟩
    have hg := StablePoles_gain hpole
    have hK : poleGain P 0 = 1 / (1 - |P|) := by simp [poleGain]
    rw [hK] at hg
    have w := custom_run hl S hF hrun hv hg hn (by
        rw [div_le_iff₀ hpos]; norm_num at *; linarith) (by
        rw [hf]; refine hs1.trans ?_; nlinarith) (by
        rw [hf]
        calc |s'| * (1 + |Z|) ≤ 2 ^ 100 * 4 := mul_le_mul hs2 (by linarith) (by positivity) (by positivity)
          _ ≤ 2 ^ 110 := by norm_num) (by unfold Coeffs.back; simp; linarith) hx.input hx.lo hx.hi (y := y)
        (fun n => by rw [hy n]; simp only; ring)
    rw [hf] at w
    rwa [show |s'| * (1 + |Z|) / (1 - |P|) ^ 2 / 2 ^ 37 * X = (1 / (1 - |P|)) ^ 2 * (|s'| * (1 + |Z|)) / 2 ^ 37 * X by
      rw [div_pow, one_pow]; ring]

/-- **C89**, two poles: `TwoPole::setup` with poles of radius at most `1 - 2⁻¹⁹` succeeds, whatever the object held before,
and every delay line, compiled in any way, then returns samples within `|s| (1 + σ)² / (1 - ρ)⁴ · 2⁻³⁷ X` of the ideal
filter, at all times. -/
theorem C89_twoPole (hl : r.Library) {s ρ θ σ φ : R} (hs : r.Scale s) (hρ : r.Fin ρ) (hθ : r.Fin θ) (hσ : r.Fin σ)
    (hφ : r.Fin φ) (hρ0 : 0 ≤ r.val ρ) (hρ1 : r.val ρ ≤ 1 - 1 / 2 ^ 19) (hσ0 : 0 ≤ r.val σ) (hσ1 : r.val σ ≤ 3 / 2)
    (b : Biquad R) :
    ∃ b', Custom.twoPole s ρ θ σ φ b = (.ok (), b') ∧
      ∀ (S : Type → Type) [StateType S R] [DelayLine R S] (F : Option (R → R → R → R)), (∀ fma ∈ F, r.Fused fma) →
        ∀ X x out y, r.Signal X x → SectionReturns F S b' x out →
          TwoPoleRuns (r.val s) (r.val ρ) (r.val θ) (r.val σ) (r.val φ) (fun n => r.val (x n)) y →
          r.Within (|r.val s| * (1 + r.val σ) ^ 2 / (1 - r.val ρ) ^ 4 / 2 ^ 37 * X) out y := by
  have ha := hl.toAccurate
  have weak : ∀ {x : R} {v δ γ : ℝ}, r.At x v δ → δ ≤ γ → r.At x v γ := fun h hle => ⟨h.1, h.2.trans hle⟩
  have hρ2 : r.val ρ ≤ 1 := by norm_num at hρ1 ⊢; linarith
  obtain ⟨zp, a, ep, ea, a1, a2⟩ := polar_pair hl .twoPolePoles hρ hθ hρ0 (by linarith)
  obtain ⟨zz, c, ez, ec, c1, c2⟩ := polar_pair hl .twoPoleZeros hσ hφ hσ0 hσ1
  have hcos : ∀ {q t m : ℝ}, 0 ≤ q → q ≤ m → |-(2 * q * Real.cos t)| ≤ 2 * m := fun {q t m} h0 h1 => by
    rw [abs_neg, abs_mul, abs_of_nonneg (by positivity : 0 ≤ 2 * q)]
    exact (mul_le_of_le_one_right (by positivity) (Real.abs_cos_le_one t)).trans (by linarith)
  have hsq : r.val ρ ^ 2 ≤ 1 := pow_le_one₀ hρ0 hρ2
  have hsq' : r.val σ ^ 2 ≤ 9 / 4 := by nlinarith
  obtain ⟨b', k', e, hv, hn⟩ := stored_scaled ha (weak a1 (by norm_num; linarith)) (weak a2 (by norm_num; linarith))
    (weak c1 (by norm_num; linarith)) (weak c2 (by norm_num; linarith)) ((hcos hρ0 hρ2).trans (by norm_num))
    (by rw [abs_of_nonneg (by positivity)]; linarith) ((hcos hσ0 hσ1).trans (by norm_num))
    (by rw [abs_of_nonneg (by positivity)]; linarith) hs.fin hs.lo hs.hi b
  refine ⟨b', ?_, fun S _ _ F hF X x out y hx hrun hy => ?_⟩
  · rw [← e]
    simp [Custom.twoPole, setTwoPole, bind_def, ep, ez, ea, ec, Exec.lift]
  · clear ep ea a1 a2 ez ec c1 c2 e
    generalize r.val ρ = P at *
    generalize r.val θ = T at *
    generalize r.val σ = Z at *
    generalize r.val φ = U at *
    have hs1 := hs.lo
    have hs2 := hs.hi
    generalize r.val s = s' at *
    have hS := abs_nonneg s'
    have hpos : 0 < 1 - P := lt_of_lt_of_le (by norm_num) (by linarith : (1 : ℝ) / 2 ^ 19 ≤ 1 - P)
    set k : Coeffs := ⟨1, -(2 * P * Real.cos T), P ^ 2, s', s' * -(2 * Z * Real.cos U), s' * Z ^ 2⟩ with hk
    have hf0 : k.forward = |s'| * (1 + |-(2 * Z * Real.cos U)| + Z ^ 2) := by
      unfold Coeffs.forward
      simp only [hk, abs_mul s', abs_of_nonneg (sq_nonneg Z)]
      ring
    have hf1 : |s'| ≤ k.forward := by
      rw [hf0]
      have := abs_nonneg (-(2 * Z * Real.cos U))
      have := sq_nonneg Z
      nlinarith
    have hf2 : k.forward ≤ |s'| * (1 + Z) ^ 2 := by
      rw [hf0]
      refine mul_le_mul_of_nonneg_left ?_ hS
      have := hcos (t := U) hσ0 le_rfl
      nlinarith
    have e1 : ‖(P : ℂ) * Complex.exp (T * Complex.I)‖ = P := by
      rw [norm_mul, Complex.norm_exp_ofReal_mul_I, mul_one, Complex.norm_real, Real.norm_of_nonneg hρ0]
    have e2 : ‖(P : ℂ) * Complex.exp (-T * Complex.I)‖ = P := by
      have := Complex.norm_exp_ofReal_mul_I (-T)
      push_cast at this
      rw [norm_mul, this, mul_one, Complex.norm_real, Real.norm_of_nonneg hρ0]
    have hpole : k.StablePoles (P * Complex.exp (T * Complex.I)) (P * Complex.exp (-T * Complex.I)) := by
      refine ⟨?_, ?_, by rw [e1]; linarith, by rw [e2]; linarith⟩
      · simp only [hk]
        push_cast
        rw [Complex.cos]
        ring
      · simp only [hk]
        rw [mul_mul_mul_comm, ← Complex.exp_add]
        push_cast
        rw [show (T : ℂ) * Complex.I + -T * Complex.I = 0 by ring, Complex.exp_zero]
        ring
    have hg := StablePoles_gain hpole
    have hK : poleGain (P * Complex.exp (T * Complex.I)) (P * Complex.exp (-T * Complex.I)) = 1 / (1 - P) ^ 2 := by
      rw [poleGain, e1, e2, sq]
    rw [hK] at hg
    have hlow : (1 / 2 ^ 19 : ℝ) ^ 2 ≤ (1 - P) ^ 2 := pow_le_pow_left₀ (by positivity) (by linarith) 2
    have w := custom_run hl S hF hrun hv hg hn (by
        rw [div_le_iff₀ (by positivity)]; norm_num at *; linarith) (hs1.trans hf1) (hf2.trans (by
        calc |s'| * (1 + Z) ^ 2 ≤ 2 ^ 100 * (5 / 2) ^ 2 :=
              mul_le_mul hs2 (pow_le_pow_left₀ (by linarith) (by linarith) 2) (by positivity) (by positivity)
          _ ≤ 2 ^ 110 := by norm_num)) (by
        unfold Coeffs.back
        have := hcos (t := T) hρ0 hρ2
        simp only [hk, abs_of_nonneg (sq_nonneg P)]
        linarith) hx.input hx.lo hx.hi (y := y)
        (fun n => by rw [hy n]; simp only [hk]; ring)
    intro n
    refine ⟨(w n).1, (w n).2.trans (mul_le_mul_of_nonneg_right ?_ (le_trans (by positivity) hx.lo))⟩
    calc (1 / (1 - P) ^ 2) ^ 2 * k.forward / 2 ^ 37 ≤ (1 / (1 - P) ^ 2) ^ 2 * (|s'| * (1 + Z) ^ 2) / 2 ^ 37 := by gcongr
      _ = |s'| * (1 + Z) ^ 2 / (1 - P) ^ 4 / 2 ^ 37 := by rw [div_pow, one_pow, ← pow_mul]; ring

/-- The samples that `Biquad::filter (x, state)` returns one after the other are a possible run. -/
theorem C89_plain (F : Option (R → R → R → R)) (S : Type → Type) [StateType S R] [DelayLine R S] (b : Biquad R) (x : ℕ → R) :
    SectionReturns F S b x (outAt (fun x s => b.filter x s) (StateType.init : S R) x) :=
  SecC.plain b x

/-- **C89** for IEEE doubles: one pole. -/
theorem C89_onePole_double {s p z : Dbl} (hs : doubleRounds.Scale s) (hp : doubleRounds.Fin p) (hz : doubleRounds.Fin z)
    (hp1 : |doubleRounds.val p| ≤ 1 - 1 / 2 ^ 38) (hz1 : |doubleRounds.val z| ≤ 3) (b : Biquad Dbl) :
    ∃ b', Custom.onePole s p z b = (.ok (), b') ∧
      ∀ (S : Type → Type) [StateType S Dbl] [DelayLine Dbl S] (F : Option (Dbl → Dbl → Dbl → Dbl)),
        (∀ fma ∈ F, doubleRounds.Fused fma) → ∀ X x out y, doubleRounds.Signal X x → SectionReturns F S b' x out →
          OnePoleRuns (doubleRounds.val s) (doubleRounds.val p) (doubleRounds.val z) (fun n => doubleRounds.val (x n)) y →
          doubleRounds.Within (|doubleRounds.val s| * (1 + |doubleRounds.val z|) / (1 - |doubleRounds.val p|) ^ 2 / 2 ^ 37 * X)
            out y :=
  C89_onePole doubleRounds_library hs hp hz hp1 hz1 b

/-- **C89** for IEEE doubles: two poles. -/
theorem C89_twoPole_double {s ρ θ σ φ : Dbl} (hs : doubleRounds.Scale s) (hρ : doubleRounds.Fin ρ)
    (hθ : doubleRounds.Fin θ) (hσ : doubleRounds.Fin σ) (hφ : doubleRounds.Fin φ) (hρ0 : 0 ≤ doubleRounds.val ρ)
    (hρ1 : doubleRounds.val ρ ≤ 1 - 1 / 2 ^ 19) (hσ0 : 0 ≤ doubleRounds.val σ) (hσ1 : doubleRounds.val σ ≤ 3 / 2)
    (b : Biquad Dbl) :
    ∃ b', Custom.twoPole s ρ θ σ φ b = (.ok (), b') ∧
      ∀ (S : Type → Type) [StateType S Dbl] [DelayLine Dbl S] (F : Option (Dbl → Dbl → Dbl → Dbl)),
        (∀ fma ∈ F, doubleRounds.Fused fma) → ∀ X x out y, doubleRounds.Signal X x → SectionReturns F S b' x out →
          TwoPoleRuns (doubleRounds.val s) (doubleRounds.val ρ) (doubleRounds.val θ) (doubleRounds.val σ) (doubleRounds.val φ)
            (fun n => doubleRounds.val (x n)) y →
          doubleRounds.Within (|doubleRounds.val s| * (1 + doubleRounds.val σ) ^ 2 / (1 - doubleRounds.val ρ) ^ 4 / 2 ^ 37 * X)
            out y :=
  C89_twoPole doubleRounds_library hs hρ hθ hσ hφ hρ0 hρ1 hσ0 hσ1 b

/-- Every input has an ideal output, so the theorems are not about an empty set of signals. -/
theorem C89_ideal (s p z ρ θ σ φ : ℝ) (x : ℕ → ℝ) : (∃ y, OnePoleRuns s p z x y) ∧ ∃ y, TwoPoleRuns s ρ θ σ φ x y := by
  constructor
  · obtain ⟨y, hy⟩ := diffEq_exists ⟨1, -p, 0, s, -(s * z), 0⟩ x
    exact ⟨y, fun n => by rw [hy n]; simp only; ring⟩
  · obtain ⟨y, hy⟩ := diffEq_exists ⟨1, -(2 * ρ * Real.cos θ), ρ ^ 2, s, -(s * (2 * σ * Real.cos φ)), s * σ ^ 2⟩ x
    exact ⟨y, fun n => by rw [hy n]; simp only; ring⟩

/-- scale 1/4, poles of radius 3/4 at an angle of 1/2, zeros of radius 1 at an angle of 1; the input 1, 1, 1, … -/
example : doubleRounds.Scale (.lit2 1 (-2)) ∧ doubleRounds.Fin (.lit2 3 (-2)) ∧ doubleRounds.Fin (.lit2 1 (-1)) ∧
    doubleRounds.Fin (.lit2 1 0) ∧ 0 ≤ doubleRounds.val (.lit2 3 (-2)) ∧ doubleRounds.val (.lit2 3 (-2)) ≤ 1 - 1 / 2 ^ 19 ∧
    0 ≤ doubleRounds.val (.lit2 1 0) ∧ doubleRounds.val (.lit2 1 0) ≤ 3 / 2 ∧
    |doubleRounds.val (.lit2 3 (-2))| ≤ 1 - 1 / 2 ^ 38 ∧ |doubleRounds.val (.lit2 1 0)| ≤ 3 ∧
    doubleRounds.Signal 1 fun _ => .lit2 1 0 := by
  obtain ⟨h1, h2⟩ := Dbl.lit2_val (m := 1) (e := -2) (by norm_num) (by norm_num) (by norm_num)
  obtain ⟨h3, h4⟩ := Dbl.lit2_val (m := 3) (e := -2) (by norm_num) (by norm_num) (by norm_num)
  obtain ⟨h5, -⟩ := Dbl.lit2_val (m := 1) (e := -1) (by norm_num) (by norm_num) (by norm_num)
  obtain ⟨h7, h8⟩ := Dbl.lit2_val (m := 1) (e := 0) (by norm_num) (by norm_num) (by norm_num)
  have f1 : doubleRounds.val (.lit2 1 (-2)) = 1 / 4 := h2.trans (by norm_num)
  have f2 : doubleRounds.val (.lit2 3 (-2)) = 3 / 4 := h4.trans (by norm_num)
  have f3 : doubleRounds.val (.lit2 1 0) = 1 := h8.trans (by norm_num)
  refine ⟨⟨h1, ?_, ?_⟩, h3, h5, h7, ?_, ?_, ?_, ?_, ?_, ?_, fun _ => ⟨h7, ?_⟩, ?_, ?_⟩
  all_goals try simp only [f1, f2, f3]
  · rw [abs_of_pos (by norm_num)]; norm_num
  · rw [abs_of_pos (by norm_num)]; norm_num
  · norm_num
  · norm_num
  · norm_num
  · norm_num
  · rw [abs_of_pos (by norm_num)]; norm_num
  · norm_num
  · norm_num
  · rw [div_le_one (by positivity)]; exact one_le_pow₀ (by norm_num)
  · exact one_le_pow₀ (by norm_num)

end Iir
