import Verif.Lemmas.RoundAt
import Verif.Props.Complement

/-! # The seven RBJ filters without a gain: stored coefficients close to the ideal ones, and the margin of the poles -/

namespace Iir
open FArith XR Spec Exec

variable {R : Type} [FArith R] {u η Ω : ℝ} {r : Rounds R u η Ω}

/-- What remains to be shown for each filter: `k` is the ideal section. -/
structure NearIdeal (r : Rounds R u η Ω) (σ : ℝ) (d : RBJ.Design R) (d0 : RBJ.Design XR) (k : Coeffs) : Prop where
  a0 : 1 ≤ k.a0
  ideal : ∀ b, d0.setupN b = Biquad.setCoefficients (fin k.a0) (fin k.a1) (fin k.a2) (fin k.b0) (fin k.b1) (fin k.b2) b
  close : ∀ b, ∃ b' k', d.setupN b = (.ok (), b') ∧ r.Values b' k' ∧
    Coeffs.Close (1 / 2 ^ 41) k' ⟨1, k.a1 / k.a0, k.a2 / k.a0, k.b0 / k.a0, k.b1 / k.a0, k.b2 / k.a0⟩ ∧
    r.At b'.a0 k.a0 (1 / 4)
  a0_le : k.a0 ≤ 2
  pos : 0 < σ
  two : 2 ≤ σ
  m1 : 2 * k.a0 ≤ σ ^ 2 * (k.a0 + k.a1 + k.a2)
  m2 : 2 * k.a0 ≤ σ ^ 2 * (k.a0 - k.a1 + k.a2)
  m3 : 8 / 5 * k.a0 ≤ σ * (k.a0 - k.a2)
  a2 : 0 ≤ k.a2
  forward : |k.b0| + |k.b1| + |k.b2| ≤ 4 * k.a0

theorem NearIdeal.accurate {σ : ℝ} {d : RBJ.Design R} {d0 : RBJ.Design XR} {k : Coeffs} (h : NearIdeal r σ d d0 k)
    (hu : u ≤ 1 / 2 ^ 53) (hσ : σ ≤ 2 ^ 10) (f : RBJ.Filter R) :
    ∃ f', RBJ.Filter.setupN d f = (.ok (), f') ∧ ∀ X x, r.Input X x → 2 ^ 34 * (X + η) ≤ Ω →
      ∃ y, RBJRuns d0 (fun n => r.val (x n)) y ∧ ∀ F, (∀ fma ∈ F, r.Fused fma) → ∀ y', ChainC F DirectFormI [f'.biquad] x y' →
        r.Within (σ ^ 4 / 2 ^ 35 * (X + 2 ^ 70 * η)) y' y := by
  obtain ⟨b', k', e, hv, hc, -⟩ := h.close f.biquad
  have hpos : 0 < k.a0 := lt_of_lt_of_le one_pos h.a0
  have hσ0 := h.pos
  refine ⟨{ f with biquad := b' }, ?_, fun X x hx hΩ => ?_⟩
  · show ((d.setupN f.biquad).1, { f with biquad := (d.setupN f.biquad).2 }) = _
    rw [e]
  obtain ⟨y, hy⟩ : ∃ y, k.DiffEq (fun n => r.val (x n)) y := by
    obtain ⟨y', h⟩ : ∃ y', DiffChain [k] (fun n => r.val (x n)) y' := ⟨_, chain_diffChain [k] _⟩
    cases h with
    | cons h1 h2 => cases h2; exact ⟨_, h1⟩
  refine ⟨y, (rbjRuns_iff k hpos.ne' h.ideal _ y).2 hy, ?_⟩
  rintro F hfm y' ⟨_, hrun, rfl⟩
  have hd := Coeffs_normal hy
  have hσ2 : 0 < 2 * σ ^ 2 := by positivity
  have e1 : σ ^ 4 / 2 ^ 35 = (1 / (1 / (2 * σ ^ 2))) ^ 2 / 2 ^ 37 := by
    rw [one_div_one_div]; ring
  rw [e1]
  have ha2 : 1 - k.a2 / k.a0 = (k.a0 - k.a2) / k.a0 := by field_simp
  have h8 : 8 / 5 / σ ≤ 1 - k.a2 / k.a0 := by
    rw [ha2, div_le_div_iff₀ hσ0 hpos]
    linarith [h.m3]
  refine run_close DirectFormI hu hfm hrun hv rfl hc ?_ ?_ ?_ ?_ ?_ ?_ ?_ ?_ hx hΩ hd <;> try simp only
  · apply one_div_le_one_div_of_le hσ2
    have : σ ^ 2 ≤ (2 ^ 10) ^ 2 := pow_le_pow_left₀ hσ0.le hσ 2
    norm_num at *
    linarith
  · apply one_div_le_one_div_of_le (by norm_num)
    nlinarith [h.two]
  · rw [show 1 + k.a1 / k.a0 + k.a2 / k.a0 = (k.a0 + k.a1 + k.a2) / k.a0 by field_simp, mul_one_div,
      div_le_div_iff₀ hσ2 hpos]
    linarith [h.m1]
  · rw [show 1 - k.a1 / k.a0 + k.a2 / k.a0 = (k.a0 - k.a1 + k.a2) / k.a0 by field_simp, mul_one_div,
      div_le_div_iff₀ hσ2 hpos]
    linarith [h.m2]
  · have := pow_le_pow_left₀ (by positivity) h8 2
    refine le_trans ?_ this
    rw [div_pow, mul_one_div, div_le_div_iff₀ hσ2 (by positivity)]
    nlinarith
  · have : 0 < 8 / 5 / σ := by positivity
    linarith
  · exact div_nonneg h.a2 hpos.le
  · unfold Coeffs.forward
    simp only [abs_div, abs_of_pos hpos]
    rw [← add_div, ← add_div, div_le_iff₀ hpos]
    exact h.forward

/-- the denominator of six of the filters -/
theorem core_margin {s c q σ : ℝ} (hs : 0 < s) (hsc : s ^ 2 + c ^ 2 = 1) (hq : 1 / 2 ≤ q) (hσ : 2 * q + 1 ≤ σ * s) :
    0 < σ ∧ 2 ≤ σ ∧ q ≤ σ / 2 ∧ s ≤ 1 ∧ |c| ≤ 1 ∧ 0 < s / (2 * q) ∧ s / (2 * q) ≤ 1 ∧
      2 * (1 + s / (2 * q)) ≤ σ ^ 2 * ((1 + s / (2 * q)) + -2 * c + (1 - s / (2 * q))) ∧
      2 * (1 + s / (2 * q)) ≤ σ ^ 2 * ((1 + s / (2 * q)) - -2 * c + (1 - s / (2 * q))) ∧
      8 / 5 * (1 + s / (2 * q)) ≤ σ * ((1 + s / (2 * q)) - (1 - s / (2 * q))) := by
  have hq0 : 0 < q := by linarith
  have hs1 : s ≤ 1 := by nlinarith [sq_nonneg c]
  have hc1 : |c| ≤ 1 := abs_le_of_sq_le_sq (by nlinarith) (by norm_num)
  obtain ⟨c1, c2⟩ := abs_le.1 hc1
  have hσ0 : 0 < σ := by
    by_contra h
    have := mul_nonpos_of_nonpos_of_nonneg (not_lt.1 h) hs.le
    linarith
  have h3 : σ * s ≤ σ := by nlinarith
  have hal : 0 < s / (2 * q) := by positivity
  have hal1 : s / (2 * q) ≤ 1 := by rw [div_le_one (by positivity)]; linarith
  have h4 : (2 * q + 1) ^ 2 ≤ (σ * s) ^ 2 := pow_le_pow_left₀ (by linarith) hσ 2
  have h5 : 4 ≤ (2 * q + 1) ^ 2 := by nlinarith
  rw [mul_pow] at h4
  refine ⟨hσ0, by linarith, by linarith, hs1, hc1, hal, hal1, ?_, ?_, ?_⟩
  · have : s ^ 2 ≤ 2 * (1 - c) := by nlinarith
    have : σ ^ 2 * s ^ 2 ≤ σ ^ 2 * (2 * (1 - c)) := mul_le_mul_of_nonneg_left this (by positivity)
    linarith
  · have : s ^ 2 ≤ 2 * (1 + c) := by nlinarith
    have : σ ^ 2 * s ^ 2 ≤ σ ^ 2 * (2 * (1 + c)) := mul_le_mul_of_nonneg_left this (by positivity)
    linarith
  · have h6 : σ * ((1 + s / (2 * q)) - (1 - s / (2 * q))) = σ * s / q := by field_simp; ring
    have h7 : 1 + s / (2 * q) ≤ (2 * q + 1) / (2 * q) := by
      rw [add_div, div_self (by positivity)]
      exact add_le_add le_rfl (div_le_div_of_nonneg_right hs1 (by positivity))
    have h8 : (2 * q + 1) / q ≤ σ * s / q := div_le_div_of_nonneg_right hσ hq0.le
    have h9 : (2 * q + 1) / q = 2 * ((2 * q + 1) / (2 * q)) := by field_simp
    rw [h6]
    linarith

/-- the denominator of the notch -/
theorem ideal_notch {ρ c σ : ℝ} (h0 : 0 < ρ) (h1 : ρ < 1) (hσ : 2 ≤ σ * (1 - ρ)) (d1 : -ρ ≤ ρ * c) (d2 : ρ * c ≤ ρ) :
    0 < σ ∧ 2 ≤ σ ∧ 2 ≤ σ ^ 2 * (1 + -2 * ρ * c + ρ * ρ) ∧ 2 ≤ σ ^ 2 * (1 - -2 * ρ * c + ρ * ρ) ∧
      8 / 5 ≤ σ * (1 - ρ * ρ) ∧ 0 ≤ ρ * ρ ∧ ρ * ρ ≤ 1 := by
  have hσ0 : 0 < σ := by
    by_contra h
    have := mul_nonpos_of_nonpos_of_nonneg (not_lt.1 h) (by linarith : 0 ≤ 1 - ρ)
    linarith
  have hσ2 : 4 ≤ σ ^ 2 * (1 - ρ) ^ 2 := by
    have := pow_le_pow_left₀ (by norm_num) hσ 2
    rw [mul_pow] at this
    linarith
  have hσ3 : 0 ≤ σ * ρ := by positivity
  have hρρ : ρ * ρ ≤ ρ := by nlinarith
  refine ⟨hσ0, by linarith, ?_, ?_, ?_, by positivity, by linarith⟩
  · have : (1 - ρ) ^ 2 ≤ 1 + -2 * ρ * c + ρ * ρ := by nlinarith
    have := mul_le_mul_of_nonneg_left this (sq_nonneg σ)
    linarith
  · have : (1 - ρ) ^ 2 ≤ 1 - -2 * ρ * c + ρ * ρ := by nlinarith
    have := mul_le_mul_of_nonneg_left this (sq_nonneg σ)
    linarith
  · have : 1 - ρ ≤ 1 - ρ * ρ := by linarith
    have := mul_le_mul_of_nonneg_left this hσ0.le
    linarith

section near
variable (ha : r.Accurate)
include ha

omit ha in
/-- what the six filters have in common -/
structure QFacts (r : Rounds R u η Ω) (σ : ℝ) (f q : R) (f0 q0 s c al : ℝ) : Prop where
  pos : 0 < q0
  s0 : 0 < s
  s1 : s ≤ 1
  c0 : -1 < c
  c1 : c < 1
  al0 : 0 < al
  al1 : al ≤ 1
  qal : q0 * al = s / 2
  g1 : 0 < σ
  g2 : 2 ≤ σ
  g8 : 2 * (1 + al) ≤ σ ^ 2 * ((1 + al) + -2 * c + (1 - al))
  g9 : 2 * (1 + al) ≤ σ ^ 2 * ((1 + al) - -2 * c + (1 - al))
  g10 : 8 / 5 * (1 + al) ≤ σ * ((1 + al) - (1 - al))
  at_m2 : r.At (-2 * FArith.cos (2 * pi * f)) (-2 * c) (2.5 / 2 ^ 44)
  at_al : r.At (FArith.sin (2 * pi * f) / (2 * q)) al (2.5 / 2 ^ 44)
  at_qal : r.At (q * (FArith.sin (2 * pi * f) / (2 * q))) (q0 * al) (2.5 / 2 ^ 44)
  at_mqal : r.At (-q * (FArith.sin (2 * pi * f) / (2 * q))) (-q0 * al) (2.5 / 2 ^ 44)
  at_a0 : r.At (1 + FArith.sin (2 * pi * f) / (2 * q)) (1 + al) (1.4 / 2 ^ 44)
  at_a0' : r.At (1 + FArith.sin (2 * pi * f) / (2 * q)) (1 + al) (2.5 / 2 ^ 44)
  at_a2 : r.At (1 - FArith.sin (2 * pi * f) / (2 * q)) (1 - al) (2.5 / 2 ^ 44)
  at_cm : r.At (1 - FArith.cos (2 * pi * f)) (1 - c) (2.5 / 2 ^ 44)
  at_cm2 : r.At ((1 - FArith.cos (2 * pi * f)) / 2) ((1 - c) / 2) (2.5 / 2 ^ 44)
  at_cp : r.At (1 + FArith.cos (2 * pi * f)) (1 + c) (2.5 / 2 ^ 44)
  at_cp2 : r.At ((1 + FArith.cos (2 * pi * f)) / 2) ((1 + c) / 2) (2.5 / 2 ^ 44)

theorem q_facts {f q : R} {f0 q0 σ : ℝ} (hf : r.Fin f) (hq : r.Fin q) (hn : |r.val f - f0| ≤ 1 / 2 ^ 50) (eq : r.val q = q0)
    (h0 : 0 < f0) (h1 : f0 < 1 / 2) (h2 : 1 / 2 ≤ q0) (hσ : 2 * q0 + 1 ≤ σ * Real.sin (2 * Real.pi * f0)) (hσ' : σ ≤ 2 ^ 10) :
    QFacts r σ f q f0 q0 (Real.sin (2 * Real.pi * f0)) (Real.cos (2 * Real.pi * f0)) (Real.sin (2 * Real.pi * f0) / (2 * q0)) := by
  obtain ⟨hs, hc1, hc2⟩ := trig_facts h0 h1
  obtain ⟨g1, g2, g3, g4, g5, g6, g7, g8, g9, g10⟩ := core_margin hs (Real.sin_sq_add_cos_sq _) h2 hσ
  have hq0 : 0 < q0 := by linarith
  have hw := At.w0 ha ⟨hf, hn⟩ h0.le h1.le
  have hc := At.cos ha hw
  have hsn := At.sin ha hw
  have hq10 : q0 ≤ 2 ^ 10 := by norm_num at *; linarith
  have hal := At.al' ha hsn hq eq h2 hq10 hs.le g4
  have hqal := At.qal ha hsn hq eq h2 hq10 hs.le g4
  have wk : (1.4 : ℝ) / 2 ^ 44 ≤ 2.5 / 2 ^ 44 := by norm_num
  have wk' : (1.3 : ℝ) / 2 ^ 44 ≤ 2.5 / 2 ^ 44 := by norm_num
  have hal0 := At.one_add ha hal (abs_le.2 ⟨by linarith, by linarith⟩)
  have hcm := At.one_sub ha (At.mono hc (by norm_num)) g5
  have hcp := At.one_add ha (At.mono hc (by norm_num)) g5
  exact { pos := hq0, s0 := hs, s1 := g4, c0 := hc2, c1 := hc1, al0 := g6, al1 := g7, qal := by field_simp
          g1 := g1, g2 := g2, g8 := g8, g9 := g9, g10 := g10
          at_m2 := At.m2 ha hc g5, at_al := At.mono hal wk', at_qal := At.mono hqal.1 wk', at_mqal := At.mono hqal.2 wk'
          at_a0 := hal0, at_a0' := At.mono hal0 wk
          at_a2 := At.mono (At.one_sub ha hal (abs_le.2 ⟨by linarith, by linarith⟩)) wk
          at_cm := At.mono hcm wk, at_cp := At.mono hcp wk
          at_cm2 := At.mono (At.half ha hcm (abs_le.2 ⟨by linarith, by linarith⟩)) wk
          at_cp2 := At.mono (At.half ha hcp (abs_le.2 ⟨by linarith, by linarith⟩)) wk }

omit ha in
theorem QFacts.bounds {σ : ℝ} {f q : R} {f0 q0 s c al : ℝ} (h : QFacts r σ f q f0 q0 s c al) :
    1 ≤ 1 + al ∧ |-2 * c| ≤ 2 ∧ |1 - al| ≤ 2 ∧ 0 ≤ 1 - al ∧ |(1 - c) / 2| ≤ 1 ∧ |1 - c| ≤ 2 ∧ |(1 + c) / 2| ≤ 1 ∧
      |-(1 + c)| ≤ 2 ∧ |q0 * al| ≤ 1 ∧ |-q0 * al| ≤ 1 ∧ |al| ≤ 1 ∧ |-al| ≤ 1 ∧ |1 + al| = 1 + al ∧ |1 - al| = 1 - al := by
  have h1 := h.al0
  have h2 := h.al1
  have h3 := h.c0
  have h4 := h.c1
  have h5 := h.qal
  have h6 := h.s0
  have h7 := h.s1
  rw [neg_mul, h5]
  refine ⟨by linarith, abs_le.2 ⟨by linarith, by linarith⟩, abs_le.2 ⟨by linarith, by linarith⟩, by linarith,
    abs_le.2 ⟨by linarith, by linarith⟩, abs_le.2 ⟨by linarith, by linarith⟩, abs_le.2 ⟨by linarith, by linarith⟩,
    abs_le.2 ⟨by linarith, by linarith⟩, abs_le.2 ⟨by linarith, by linarith⟩, abs_le.2 ⟨by linarith, by linarith⟩,
    abs_le.2 ⟨by linarith, by linarith⟩, abs_le.2 ⟨by linarith, by linarith⟩, abs_of_pos (by linarith),
    abs_of_nonneg (by linarith)⟩

theorem near_q {f q : R} {f0 q0 σ : ℝ} (hf : r.Fin f) (hq : r.Fin q) (hn : |r.val f - f0| ≤ 1 / 2 ^ 50) (eq : r.val q = q0)
    (h0 : 0 < f0) (h1 : f0 < 1 / 2) (h2 : 1 / 2 ≤ q0) (hσ : 2 * q0 + 1 ≤ σ * Real.sin (2 * Real.pi * f0)) (hσ' : σ ≤ 2 ^ 10)
    {d : RBJ.Design R} {d0 : RBJ.Design XR}
    (hd : (d = .lowPass f q ∧ d0 = .lowPass (fin f0) (fin q0)) ∨ (d = .highPass f q ∧ d0 = .highPass (fin f0) (fin q0)) ∨
      (d = .bandPass1 f q ∧ d0 = .bandPass1 (fin f0) (fin q0)) ∨ (d = .bandPass2 f q ∧ d0 = .bandPass2 (fin f0) (fin q0)) ∨
      (d = .bandStop f q ∧ d0 = .bandStop (fin f0) (fin q0)) ∨ (d = .allPass f q ∧ d0 = .allPass (fin f0) (fin q0))) :
    ∃ k, NearIdeal r σ d d0 k := by
  have h := q_facts ha hf hq hn eq h0 h1 h2 hσ hσ'
  obtain ⟨e1, e2, e3, e4, e5, e6, e7, e8, e9, e10, e11, e12, e13, e14⟩ := h.bounds
  have b1 := At.mono (At.one ha) (γ := 2.5 / 2 ^ 44) (by norm_num)
  have b0 := At.mono (At.zero ha) (γ := 2.5 / 2 ^ 44) (by norm_num)
  have z : |(0 : ℝ)| ≤ 2 := by norm_num
  have z' : |(0 : ℝ)| = 0 := abs_zero
  have o : |(1 : ℝ)| ≤ 2 := by norm_num
  have o' : |(1 : ℝ)| = 1 := abs_one
  have w : (2.5 : ℝ) / 2 ^ 44 + 2 * (1.4 / 2 ^ 44) ≤ 7 / 2 ^ 44 := by norm_num
  rcases hd with ⟨rfl, rfl⟩ | ⟨rfl, rfl⟩ | ⟨rfl, rfl⟩ | ⟨rfl, rfl⟩ | ⟨rfl, rfl⟩ | ⟨rfl, rfl⟩
  · exact ⟨⟨_, _, _, _, _, _⟩, e1, lowPass_setup h.pos, fun b => stored_close ha b h.at_a0 h.at_m2 h.at_a2 h.at_cm2 h.at_cm h.at_cm2
      e1 e2 e3 (e5.trans one_le_two) e6 (e5.trans one_le_two) w, by linarith [h.al1], h.g1, h.g2, h.g8, h.g9, h.g10, e4, by simp only; linarith⟩
  · exact ⟨⟨_, _, _, _, _, _⟩, e1, highPass_setup h.pos, fun b => stored_close ha b h.at_a0 h.at_m2 h.at_a2 h.at_cp2 (At.neg ha h.at_cp)
      h.at_cp2 e1 e2 e3 (e7.trans one_le_two) e8 (e7.trans one_le_two) w, by linarith [h.al1], h.g1, h.g2, h.g8, h.g9, h.g10, e4, by simp only; linarith⟩
  · exact ⟨⟨_, _, _, _, _, _⟩, e1, bandPass1_setup h.pos, fun b => stored_close ha b h.at_a0 h.at_m2 h.at_a2 h.at_qal b0 h.at_mqal
      e1 e2 e3 (e9.trans one_le_two) z (e10.trans one_le_two) w, by linarith [h.al1], h.g1, h.g2, h.g8, h.g9, h.g10, e4, by simp only; linarith⟩
  · exact ⟨⟨_, _, _, _, _, _⟩, e1, bandPass2_setup h.pos, fun b => stored_close ha b h.at_a0 h.at_m2 h.at_a2 h.at_al b0
      (At.neg ha h.at_al) e1 e2 e3 (e11.trans one_le_two) z (e12.trans one_le_two) w, by linarith [h.al1], h.g1, h.g2, h.g8, h.g9, h.g10, e4,
      by simp only; linarith⟩
  · exact ⟨⟨_, _, _, _, _, _⟩, e1, bandStop_setup h.pos, fun b => stored_close ha b h.at_a0 h.at_m2 h.at_a2 b1 h.at_m2 b1
      e1 e2 e3 o e2 o w, by linarith [h.al1], h.g1, h.g2, h.g8, h.g9, h.g10, e4, by simp only; linarith⟩
  · exact ⟨⟨_, _, _, _, _, _⟩, e1, allPass_setup h.pos, fun b => stored_close ha b h.at_a0 h.at_m2 h.at_a2 h.at_a2 h.at_m2 h.at_a0'
      e1 e2 e3 e3 e2 (by linarith [h.al1]) w, by linarith [h.al1], h.g1, h.g2, h.g8, h.g9, h.g10, e4, by simp only; linarith⟩

theorem near_notch {f q : R} {f0 q0 σ : ℝ} (hf : r.Fin f) (hq : r.Fin q) (hn : |r.val f - f0| ≤ 1 / 2 ^ 50) (eq : r.val q = q0)
    (h0 : 0 < f0) (h1 : f0 < 1 / 2) (h2 : 1 / 2 ≤ q0) (hσ : 2 ≤ σ * (1 - Real.exp (-(Real.pi * f0 / q0)))) :
    ∃ k, NearIdeal r σ (.iirNotch f q) (.iirNotch (fin f0) (fin q0)) k := by
  have hq0 : 0 < q0 := by linarith
  have hp := Real.pi_gt_d2
  have hp' := Real.pi_lt_d2
  have hw := At.w0 ha ⟨hf, hn⟩ h0.le h1.le
  have hc := At.cos ha hw
  have hc1 := Real.abs_cos_le_one (2 * Real.pi * f0)
  have hpf : Real.pi * f0 ≤ 1.575 := by nlinarith
  have hpf0 : 0 < Real.pi * f0 := by positivity
  have hpq : Real.pi * f0 / q0 ≤ 3.15 := by rw [div_le_iff₀ hq0]; linarith
  have hpq0 : 0 < Real.pi * f0 / q0 := by positivity
  have e1 : 2 * Real.pi * f0 / 2 = Real.pi * f0 := by ring
  have hh : r.At (2 * pi * f / 2) (Real.pi * f0) (0.35 / 2 ^ 44) := by
    rw [← e1]
    refine At.div ha hw (At.two ha) (ω := 2) (V := 1.6) (e := 0.33 / 2 ^ 44) le_rfl (by norm_num) ?_ (by norm_num)
      (by norm_num) (by norm_num)
    rw [e1, abs_of_pos hpf0]
    linarith
  have hv : r.At (-(2 * pi * f / 2) / q) (-(Real.pi * f0 / q0)) (0.72 / 2 ^ 44) := by
    have hqa : r.At q q0 0 := ⟨hq, by rw [eq]; simp⟩
    have hva : r.At (-(2 * pi * f / 2) / q) (-(Real.pi * f0) / q0) (0.72 / 2 ^ 44) := by
      refine At.div ha (At.neg ha hh) hqa (ω := 1 / 2) (V := 3.15) (e := 0.7 / 2 ^ 44) h2 (by norm_num) ?_ (by norm_num)
        (by norm_num) (by norm_num)
      rw [neg_div, abs_neg, abs_of_pos hpq0]
      exact hpq
    rwa [neg_div] at hva
  have hρ1 : Real.exp (-(Real.pi * f0 / q0)) < 1 := by rw [Real.exp_lt_one_iff]; linarith
  have hρ0 := Real.exp_pos (-(Real.pi * f0 / q0))
  have hρ : r.At (FArith.exp (-(2 * pi * f / 2) / q)) (Real.exp (-(Real.pi * f0 / q0))) (2 / 2 ^ 44) := by
    have t1 := hv.2
    have t2 : Real.exp (r.val (-(2 * pi * f / 2) / q)) - Real.exp (-(Real.pi * f0 / q0)) =
        Real.exp (-(Real.pi * f0 / q0)) * (Real.exp (r.val (-(2 * pi * f / 2) / q) - -(Real.pi * f0 / q0)) - 1) := by
      rw [mul_sub, mul_one, ← Real.exp_add]
      congr 2
      ring
    have t3 := Real.abs_exp_sub_one_le (x := r.val (-(2 * pi * f / 2) / q) - -(Real.pi * f0 / q0)) (t1.trans (by norm_num))
    have t4 : |Real.exp (r.val (-(2 * pi * f / 2) / q)) - Real.exp (-(Real.pi * f0 / q0))| ≤ 1.44 / 2 ^ 44 := by
      rw [t2, abs_mul, abs_of_pos hρ0]
      have := abs_nonneg (Real.exp (r.val (-(2 * pi * f / 2) / q) - -(Real.pi * f0 / q0)) - 1)
      nlinarith
    obtain ⟨t5, t6⟩ := abs_le.1 t4
    have t7 : Real.exp (r.val (-(2 * pi * f / 2) / q)) ≤ 1.01 := by
      have : (1.44 : ℝ) / 2 ^ 44 ≤ 0.01 := by norm_num
      linarith
    obtain ⟨t8, t9⟩ := ha.exp _ hv.1 (by have := ha.le_Ω; norm_num at *; linarith)
    refine ⟨t8, ?_⟩
    have := abs_sub_le (r.val (FArith.exp (-(2 * pi * f / 2) / q))) (Real.exp (r.val (-(2 * pi * f / 2) / q)))
      (Real.exp (-(Real.pi * f0 / q0)))
    have := ha.η_le
    have : (1.44 : ℝ) / 2 ^ 44 + 1.01 / 2 ^ 45 + 1 / 2 ^ 200 ≤ 2 / 2 ^ 44 := by norm_num
    linarith
  have eρ : Real.exp (-(2 * Real.pi * f0 / 2) / q0) = Real.exp (-(Real.pi * f0 / q0)) := by rw [e1, neg_div]
  have hset := iirNotch_setup (f0 := f0) hq0
  rw [eρ] at hset
  have hm2 := At.m2 ha hc hc1
  generalize Real.exp (-(Real.pi * f0 / q0)) = ρ at *
  obtain ⟨c1, c2⟩ := abs_le.1 hc1
  have hρa : |ρ| ≤ 1 := by rw [abs_of_pos hρ0]; exact hρ1.le
  have hρc : |ρ * Real.cos (2 * Real.pi * f0)| ≤ ρ := by
    rw [abs_mul, abs_of_pos hρ0]; nlinarith
  obtain ⟨d1, d2⟩ := abs_le.1 hρc
  have s1 : r.At (-2 * FArith.exp (-(2 * pi * f / 2) / q)) (-2 * ρ) (4.02 / 2 ^ 44) := by
    refine At.mul ha (At.negTwo ha) hρ (V := 2) (W := 1) (M := 2) (e := 4 / 2 ^ 44) (by norm_num) hρa ?_ (by norm_num)
      (by norm_num) (by norm_num)
    rw [abs_mul]; norm_num; exact hρa
  have s2 : r.At (-2 * FArith.exp (-(2 * pi * f / 2) / q) * FArith.cos (2 * pi * f)) (-2 * ρ * Real.cos (2 * Real.pi * f0)) (6.5 / 2 ^ 44) := by
    refine At.mul ha s1 hc (V := 2) (W := 1) (M := 2) (e := 6.45 / 2 ^ 44) ?_ hc1 ?_ (by norm_num)
      (by norm_num) (by norm_num)
    · rw [abs_mul]; norm_num; exact hρa
    · rw [mul_assoc]; apply abs_le.2; constructor <;> linarith
  have s3 : r.At (FArith.exp (-(2 * pi * f / 2) / q) * FArith.exp (-(2 * pi * f / 2) / q)) (ρ * ρ) (6.5 / 2 ^ 44) := by
    refine At.mul ha hρ hρ (V := 1) (W := 1) (M := 1) (e := 4.1 / 2 ^ 44) hρa hρa ?_ (by norm_num)
      (by norm_num) (by norm_num)
    rw [abs_mul]; nlinarith [abs_nonneg ρ]
  have b1 := At.mono (At.one ha) (γ := 6.5 / 2 ^ 44) (by norm_num)
  obtain ⟨g1, g2, g3, g4, g5, g6, g7⟩ := ideal_notch hρ0 hρ1 hσ d1 d2
  refine ⟨⟨_, _, _, _, _, _⟩, ?_, hset, fun b => ?_, one_le_two, g1, g2, ?_, ?_, ?_, ?_, ?_⟩ <;> simp only
  · rfl
  · refine stored_close ha b (At.one ha) s2 s3 b1 (At.mono hm2 (by norm_num)) b1
        ?_ ?_ ?_ ?_ ?_ ?_ (by norm_num) <;> first | linarith | (apply abs_le.2; constructor <;> linarith)
  · linarith
  · linarith
  · linarith
  · linarith
  · rw [abs_mul, abs_one, abs_neg, abs_two]; linarith

end near
end Iir
