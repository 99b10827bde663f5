import Verif.Spec.Ripple
import Verif.Props.Course

/-! # C95: the ripple of the Chebyshev filters -/

set_option linter.unusedSectionVars false

namespace Iir
open Spec XR

/-! ## Chebyshev polynomials between `-1` and `1` -/

theorem rippleAngle_nonneg (o k : ℕ) : 0 ≤ rippleAngle o k := by unfold rippleAngle; positivity

theorem rippleAngle_le {o k : ℕ} (ho : 1 ≤ o) (hk : k ≤ 2 * o) : rippleAngle o k ≤ Real.pi := by
  have h1 : (0 : ℝ) < o := by exact_mod_cast ho
  have h2 : (k : ℝ) ≤ 2 * o := by exact_mod_cast hk
  have hp := Real.pi_pos
  unfold rippleAngle
  rw [mul_div_assoc', div_le_iff₀ (by positivity)]
  nlinarith

theorem rippleAngle_lt {o k l : ℕ} (ho : 1 ≤ o) (h : k < l) : rippleAngle o k < rippleAngle o l := by
  have h1 : (0 : ℝ) < o := by exact_mod_cast ho
  have h2 : (k : ℝ) < l := by exact_mod_cast h
  have hp := Real.pi_pos
  unfold rippleAngle
  exact mul_lt_mul_of_pos_right h2 (by positivity)

theorem chebT_cos (o : ℕ) (θ : ℝ) : chebT o (Real.cos θ) = Real.cos (o * θ) := by
  rw [chebT, Polynomial.Chebyshev.T_real_cos]; norm_cast

theorem chebT_sq_cos (o q : ℕ) (ho : 1 ≤ o) (s : ℝ) :
    chebT o (Real.cos (rippleAngle o q + s)) ^ 2 = 1 / 2 + (-1) ^ q * Real.cos (2 * o * s) / 2 := by
  have h1 : (0 : ℝ) < o := by exact_mod_cast ho
  rw [chebT_cos, Real.cos_sq, ← Real.cos_add_nat_mul_pi]
  congr 3
  unfold rippleAngle
  field_simp
  ring

theorem chebT_sq_angle (o q : ℕ) (ho : 1 ≤ o) : chebT o (Real.cos (rippleAngle o q)) ^ 2 = if q % 2 = 0 then 1 else 0 := by
  have := chebT_sq_cos o q ho 0
  rw [add_zero, MulZeroClass.mul_zero, Real.cos_zero] at this
  rw [this]
  split_ifs with h
  · rw [(Nat.even_iff.2 h).neg_one_pow]; norm_num
  · rw [(Nat.odd_iff.2 (by omega)).neg_one_pow]; norm_num

theorem chebT_sq_between {o q : ℕ} (ho : 1 ≤ o) (hq : q + 1 ≤ 2 * o) {x y : ℝ} (hx : Real.cos (rippleAngle o (q + 1)) ≤ x)
    (hxy : x < y) (hy : y ≤ Real.cos (rippleAngle o q)) :
    (q % 2 = 0 → chebT o x ^ 2 < chebT o y ^ 2) ∧ (q % 2 = 1 → chebT o y ^ 2 < chebT o x ^ 2) := by
  have h1 : (0 : ℝ) < o := by exact_mod_cast ho
  have hp := Real.pi_pos
  have hx1 : -1 ≤ x := (Real.neg_one_le_cos _).trans hx
  have hy1 : y ≤ 1 := hy.trans (Real.cos_le_one _)
  have ax : Real.arccos x ≤ rippleAngle o (q + 1) := by
    have := Real.arccos_le_arccos hx
    rwa [Real.arccos_cos (rippleAngle_nonneg _ _) (rippleAngle_le ho hq)] at this
  have ay : rippleAngle o q ≤ Real.arccos y := by
    have := Real.arccos_le_arccos hy
    rwa [Real.arccos_cos (rippleAngle_nonneg _ _) (rippleAngle_le ho (by omega))] at this
  have axy : Real.arccos y < Real.arccos x := Real.arccos_lt_arccos hx1 hxy hy1
  have step : rippleAngle o (q + 1) = rippleAngle o q + Real.pi / (2 * o) := by unfold rippleAngle; push_cast; ring
  have ex := chebT_sq_cos o q ho (Real.arccos x - rippleAngle o q)
  have ey := chebT_sq_cos o q ho (Real.arccos y - rippleAngle o q)
  rw [add_sub_cancel, Real.cos_arccos hx1 (by linarith)] at ex
  rw [add_sub_cancel, Real.cos_arccos (by linarith) hy1] at ey
  have key : Real.cos (2 * o * (Real.arccos x - rippleAngle o q)) < Real.cos (2 * o * (Real.arccos y - rippleAngle o q)) := by
    refine Real.cos_lt_cos_of_nonneg_of_le_pi (mul_nonneg (by positivity) (by linarith)) ?_ (mul_lt_mul_of_pos_left (by linarith) (by positivity))
    calc 2 * (o : ℝ) * (Real.arccos x - rippleAngle o q) ≤ 2 * o * (Real.pi / (2 * o)) :=
          mul_le_mul_of_nonneg_left (by linarith) (by positivity)
      _ = Real.pi := by field_simp
  rw [ex, ey]
  refine ⟨fun h => ?_, fun h => ?_⟩
  · rw [(Nat.even_iff.2 h).neg_one_pow]; linarith
  · rw [(Nat.odd_iff.2 h).neg_one_pow]; linarith

/-! ## Ripples from a monotone prewarping -/

/-- `ρ` falls from the cosine of the `j`-th angle at `x0` to the cosine of the `j + m`-th at `x1`. -/
structure Sweep (ρ : ℝ → ℝ) (x0 x1 : ℝ) (o j m : ℕ) : Prop where
  le : x0 ≤ x1
  anti : ∀ fr fr', x0 ≤ fr → fr < fr' → fr' ≤ x1 → ρ fr' < ρ fr
  cont : ContinuousOn ρ (Set.Icc x0 x1)
  start : ρ x0 = Real.cos (rippleAngle o j)
  stop : ρ x1 = Real.cos (rippleAngle o (j + m))
  small : j + m ≤ 2 * o

variable {G : ℝ → ℝ → Prop} {ρ F : ℝ → ℝ} {x0 x1 : ℝ} {o j m : ℕ}

theorem Sweep.le_iff (hs : Sweep ρ x0 x1 o j m) {a b : ℝ} (ha : x0 ≤ a) (ha' : a ≤ x1) (hb : x0 ≤ b) (hb' : b ≤ x1) :
    ρ a < ρ b ↔ b < a := by
  constructor
  · intro h
    by_contra hh
    rcases (not_lt.1 hh).eq_or_lt with rfl | hh
    · exact lt_irrefl _ h
    · exact lt_asymm h (hs.anti a b ha hh hb')
  · intro h
    exact hs.anti b a hb h ha'

theorem Sweep.points (hs : Sweep ρ x0 x1 o j m) (ho : 1 ≤ o) : ∃ p : ℕ → ℝ, p 0 = x0 ∧ p m = x1 ∧
    ∀ k ≤ m, x0 ≤ p k ∧ p k ≤ x1 ∧ ρ (p k) = Real.cos (rippleAngle o (j + k)) := by
  have mono : ∀ {k l : ℕ}, k ≤ l → l ≤ 2 * o → Real.cos (rippleAngle o l) ≤ Real.cos (rippleAngle o k) := by
    intro k l h h'
    rcases h.eq_or_lt with rfl | h
    · exact le_rfl
    · exact Real.cos_le_cos_of_nonneg_of_le_pi (rippleAngle_nonneg _ _) (rippleAngle_le ho h') (rippleAngle_lt ho h).le
  have ex : ∀ k, ∃ x, k ≤ m → x0 ≤ x ∧ x ≤ x1 ∧ ρ x = Real.cos (rippleAngle o (j + k)) := by
    intro k
    by_cases hk : k ≤ m
    · obtain ⟨x, hx, e⟩ := intermediate_value_Icc' hs.le hs.cont
        (show Real.cos (rippleAngle o (j + k)) ∈ Set.Icc (ρ x1) (ρ x0) by
          rw [hs.start, hs.stop]
          exact ⟨mono (by omega) hs.small, mono (by omega) (by have := hs.small; omega)⟩)
      exact ⟨x, fun _ => ⟨hx.1, hx.2, e⟩⟩
    · exact ⟨0, fun h => absurd h hk⟩
  choose p hp using ex
  refine ⟨p, ?_, ?_, hp⟩
  · obtain ⟨a, b, e⟩ := hp 0 (Nat.zero_le _)
    rcases a.eq_or_lt with h | h
    · exact h.symm
    · have := hs.anti x0 (p 0) le_rfl h b
      rw [e, hs.start, Nat.add_zero] at this
      exact absurd this (lt_irrefl _)
  · obtain ⟨a, b, e⟩ := hp m le_rfl
    rcases b.eq_or_lt with h | h
    · exact h
    · have := hs.anti (p m) x1 a h le_rfl
      rw [e, hs.stop] at this
      exact absurd this (lt_irrefl _)

/-- The quantity is a strictly monotone function of the square of the Chebyshev polynomial. -/
def Monotonic (F : ℝ → ℝ) : Prop :=
  (∀ x y, 0 ≤ x → x < y → y ≤ 1 → F x < F y) ∨ (∀ x y, 0 ≤ x → x < y → y ≤ 1 → F y < F x)

theorem Sweep.ripples (hs : Sweep ρ x0 x1 o j m) (ho : 1 ≤ o) (hF : Monotonic F)
    (hG : ∀ fr, x0 ≤ fr → fr ≤ x1 → ∀ v, G fr v ↔ v = F (chebT o (ρ fr) ^ 2)) :
    ∃ p : ℕ → ℝ, p 0 = x0 ∧ p m = x1 ∧ (∀ k ≤ m, ρ (p k) = Real.cos (rippleAngle o (j + k))) ∧
      Ripples G p m j (F 1) (F 0) := by
  obtain ⟨p, e0, em, hp⟩ := hs.points ho
  have hlt : ∀ k < m, p k < p (k + 1) := by
    intro k hk
    obtain ⟨a, b, e⟩ := hp k hk.le
    obtain ⟨a', b', e'⟩ := hp (k + 1) hk
    rw [← hs.le_iff a' b' a b, e, e']
    exact Real.cos_lt_cos_of_nonneg_of_le_pi (rippleAngle_nonneg _ _) (rippleAngle_le ho (by have := hs.small; omega)) (rippleAngle_lt ho (by omega))
  have hv : ∀ k ≤ m, F (chebT o (ρ (p k)) ^ 2) = turn j (F 1) (F 0) k := by
    intro k hk
    rw [(hp k hk).2.2, chebT_sq_angle _ _ ho, turn]
    split_ifs <;> rfl
  have hle : ∀ fr, x0 ≤ fr → fr ≤ x1 → chebT o (ρ fr) ^ 2 ≤ 1 := by
    intro fr a b
    refine chebT_sq_le (abs_le.2 ⟨?_, ?_⟩)
    · rcases b.eq_or_lt with rfl | b
      · rw [hs.stop]; exact Real.neg_one_le_cos _
      · exact (Real.neg_one_le_cos (rippleAngle o (j + m))).trans (hs.stop ▸ (hs.anti fr x1 a b le_rfl).le)
    · rcases a.eq_or_lt with rfl | a
      · rw [hs.start]; exact Real.cos_le_one _
      · exact (hs.start ▸ (hs.anti x0 fr le_rfl a b).le).trans (Real.cos_le_one (rippleAngle o j))
  refine ⟨p, e0, em, fun k hk => (hp k hk).2.2, hlt, fun k hk v => ?_, fun k hk => ?_⟩
  · rw [hG _ (hp k hk).1 (hp k hk).2.1, hv k hk]
  · obtain ⟨a, b, e⟩ := hp k hk.le
    obtain ⟨a', b', e'⟩ := hp (k + 1) hk
    have hex : ∀ fr, p k ≤ fr → fr ≤ p (k + 1) → ∃ v, G fr v := fun fr c d =>
      ⟨_, (hG fr (a.trans c) (d.trans b') _).2 rfl⟩
    have hT : ∀ fr fr', p k ≤ fr → fr < fr' → fr' ≤ p (k + 1) →
        ((j + k) % 2 = 0 → chebT o (ρ fr') ^ 2 < chebT o (ρ fr) ^ 2) ∧ ((j + k) % 2 = 1 → chebT o (ρ fr) ^ 2 < chebT o (ρ fr') ^ 2) := by
      intro fr fr' c d f
      refine chebT_sq_between ho (by have := hs.small; omega) ?_ (hs.anti fr fr' (a.trans c) d (f.trans b')) ?_
      · rcases f.eq_or_lt with rfl | f
        · rw [e']; exact le_rfl
        · have := hs.anti fr' (p (k + 1)) (a.trans (c.trans d.le)) f b'
          rw [e'] at this; exact this.le
      · rcases c.eq_or_lt with rfl | c
        · rw [e]
        · have := hs.anti (p k) fr a c (d.le.trans (f.trans b'))
          rw [e] at this; exact this.le
    rcases Nat.mod_two_eq_zero_or_one (j + k) with hpar | hpar
    · have t0 : turn j (F 1) (F 0) k = F 1 := if_pos hpar
      have t1 : turn j (F 1) (F 0) (k + 1) = F 0 := if_neg (by omega)
      rw [t0, t1]
      rcases hF with hF | hF
      · refine .inr ⟨hF 0 1 le_rfl one_pos le_rfl, hex, fun fr fr' v v' c d f g g' => ?_⟩
        rw [(hG fr (a.trans c) (d.le.trans (f.trans b')) v).1 g, (hG fr' (a.trans (c.trans d.le)) (f.trans b') v').1 g']
        exact hF _ _ (sq_nonneg _) ((hT fr fr' c d f).1 hpar) (hle _ (a.trans c) (d.le.trans (f.trans b')))
      · refine .inl ⟨hF 0 1 le_rfl one_pos le_rfl, hex, fun fr fr' v v' c d f g g' => ?_⟩
        rw [(hG fr (a.trans c) (d.le.trans (f.trans b')) v).1 g, (hG fr' (a.trans (c.trans d.le)) (f.trans b') v').1 g']
        exact hF _ _ (sq_nonneg _) ((hT fr fr' c d f).1 hpar) (hle _ (a.trans c) (d.le.trans (f.trans b')))
    · have t0 : turn j (F 1) (F 0) k = F 0 := if_neg (by omega)
      have t1 : turn j (F 1) (F 0) (k + 1) = F 1 := if_pos (by omega)
      rw [t0, t1]
      rcases hF with hF | hF
      · refine .inl ⟨hF 0 1 le_rfl one_pos le_rfl, hex, fun fr fr' v v' c d f g g' => ?_⟩
        rw [(hG fr (a.trans c) (d.le.trans (f.trans b')) v).1 g, (hG fr' (a.trans (c.trans d.le)) (f.trans b') v').1 g']
        exact hF _ _ (sq_nonneg _) ((hT fr fr' c d f).2 hpar) (hle _ (a.trans (c.trans d.le)) (f.trans b'))
      · refine .inr ⟨hF 0 1 le_rfl one_pos le_rfl, hex, fun fr fr' v v' c d f g g' => ?_⟩
        rw [(hG fr (a.trans c) (d.le.trans (f.trans b')) v).1 g, (hG fr' (a.trans (c.trans d.le)) (f.trans b') v').1 g']
        exact hF _ _ (sq_nonneg _) ((hT fr fr' c d f).2 hpar) (hle _ (a.trans (c.trans d.le)) (f.trans b'))

/-! ## The five sweeps -/

theorem rippleAngle_zero (o : ℕ) : rippleAngle o 0 = 0 := by simp [rippleAngle]
theorem rippleAngle_half (ho : 1 ≤ o) : rippleAngle o o = Real.pi / 2 := by
  have h1 : (0 : ℝ) < o := by exact_mod_cast ho
  unfold rippleAngle; field_simp
theorem rippleAngle_full (ho : 1 ≤ o) : rippleAngle o (2 * o) = Real.pi := by
  have h1 : (0 : ℝ) < o := by exact_mod_cast ho
  unfold rippleAngle; push_cast; field_simp
theorem rippleAngle_add (ho : 1 ≤ o) (k : ℕ) : rippleAngle o (o + k) = rippleAngle o k + Real.pi / 2 := by
  rw [← rippleAngle_half ho]; unfold rippleAngle; push_cast; ring

variable {fc f1 f2 : ℝ}

theorem Sweep.low (h0 : 0 < fc) (h1 : fc < 1 / 2) (ho : 1 ≤ o) : Sweep (fun f => -lowRatio fc f) 0 fc o o o where
  le := h0.le
  anti fr fr' a b c := neg_lt_neg (lowRatio_lt h0 h1 a b (c.trans_lt h1))
  cont := by
    unfold lowRatio
    simp only [Real.tan_eq_sin_div_cos (Real.pi * _)]
    refine ((ContinuousOn.div (by fun_prop) (by fun_prop) fun x hx => ?_).div_const _).neg
    exact (cospi_pos hx.1 (hx.2.trans_lt h1)).ne'
  start := by rw [lowRatio_zero, rippleAngle_half ho, Real.cos_pi_div_two, neg_zero]
  stop := by rw [lowRatio_self h0 h1, ← two_mul, rippleAngle_full ho, Real.cos_pi]
  small := by omega

theorem highRatio_cot (fc fr : ℝ) : highRatio fc fr = Real.tan (Real.pi * fc) * Real.cos (Real.pi * fr) / Real.sin (Real.pi * fr) := by
  rw [highRatio, Real.tan_eq_sin_div_cos (Real.pi * fr), div_div_eq_mul_div]

theorem Sweep.high (h0 : 0 < fc) (h1 : fc < 1 / 2) (ho : 1 ≤ o) : Sweep (highRatio fc) fc (1 / 2) o 0 o where
  le := h1.le
  anti fr fr' a b c := by
    rcases c.eq_or_lt with rfl | c
    · rw [highRatio_half]; exact highRatio_pos h0 h1 (h0.trans_le a) b
    · exact highRatio_lt h0 h1 (h0.trans_le a) b c
  cont := by
    have : highRatio fc = fun fr => Real.tan (Real.pi * fc) * Real.cos (Real.pi * fr) / Real.sin (Real.pi * fr) :=
      funext (highRatio_cot fc)
    rw [this]
    refine ContinuousOn.div (by fun_prop) (by fun_prop) fun x hx => ?_
    exact (sinpi_pos (h0.trans_le hx.1) (by linarith [hx.2])).ne'
  start := by rw [highRatio_self h0 h1, rippleAngle_zero, Real.cos_zero]
  stop := by rw [highRatio_half, Nat.zero_add, rippleAngle_half ho, Real.cos_pi_div_two]
  small := by omega

theorem Sweep.band (h : Band f1 f2) (ho : 1 ≤ o) : Sweep (fun f => -bandRatio f1 f2 f) f1 f2 o 0 (2 * o) where
  le := h.lt.le
  anti fr fr' a b c := neg_lt_neg (h.ratio_lt (h.pos.trans_le a) b (c.trans_lt h.half))
  cont := by
    unfold bandRatio
    refine (ContinuousOn.div (by fun_prop) (by fun_prop) fun x hx => ?_).neg
    exact mul_ne_zero h.sin_pos.ne' (sin_2pi_pos (h.pos.trans_le hx.1) (hx.2.trans_lt h.half)).ne'
  start := by rw [h.ratio_lo, rippleAngle_zero, Real.cos_zero, neg_neg]
  stop := by rw [h.ratio_hi, Nat.zero_add, rippleAngle_full ho, Real.cos_pi]
  small := by omega

theorem bandRatio_inv (f1 f2 fr : ℝ) : (bandRatio f1 f2 fr)⁻¹ = Real.sin (Real.pi * (f2 - f1)) * Real.sin (2 * Real.pi * fr) /
    (Real.cos (Real.pi * (f1 + f2)) - Real.cos (Real.pi * (f2 - f1)) * Real.cos (2 * Real.pi * fr)) := by
  rw [bandRatio, inv_div]

theorem bandRatio_zero (f1 f2 : ℝ) : bandRatio f1 f2 0 = 0 := by simp [bandRatio]
theorem bandRatio_half (f1 f2 : ℝ) : bandRatio f1 f2 (1 / 2) = 0 := by
  rw [bandRatio, show 2 * Real.pi * (1 / 2) = Real.pi by ring, Real.sin_pi, MulZeroClass.mul_zero, div_zero]

theorem Band.le_neg_one (h : Band f1 f2) {fr : ℝ} (a : 0 < fr) (b : fr ≤ f1) : bandRatio f1 f2 fr ≤ -1 := by
  rcases b.eq_or_lt with rfl | b
  · exact h.ratio_lo.le
  · exact (h.ratio_below a b).le

theorem Band.one_le (h : Band f1 f2) {fr : ℝ} (a : f2 ≤ fr) (b : fr < 1 / 2) : 1 ≤ bandRatio f1 f2 fr := by
  rcases a.eq_or_lt with rfl | a
  · exact h.ratio_hi.ge
  · exact (h.ratio_above a b).le

theorem Band.num_ne (h : Band f1 f2) {fr : ℝ} (a : 0 ≤ fr) (b : fr ≤ 1 / 2) (c : fr ≤ f1 ∨ f2 ≤ fr) :
    Real.cos (Real.pi * (f1 + f2)) - Real.cos (Real.pi * (f2 - f1)) * Real.cos (2 * Real.pi * fr) ≠ 0 := by
  have hc := abs_lt.1 h.cos_lt
  rcases a.eq_or_lt with rfl | a
  · rw [MulZeroClass.mul_zero, Real.cos_zero]; intro hh; linarith
  rcases b.eq_or_lt with rfl | b
  · rw [show 2 * Real.pi * (1 / 2) = Real.pi by ring, Real.cos_pi]; intro hh; linarith
  intro hh
  have e : bandRatio f1 f2 fr = 0 := by rw [bandRatio, hh, zero_div]
  rcases c with c | c
  · have := h.le_neg_one a c; linarith
  · have := h.one_le c b; linarith

theorem Band.ratio_ne (h : Band f1 f2) {fr : ℝ} (a : 0 < fr) (b : fr < 1 / 2) (c : fr ≤ f1 ∨ f2 ≤ fr) : bandRatio f1 f2 fr ≠ 0 := by
  rcases c with c | c
  · have := h.le_neg_one a c; intro hh; linarith
  · have := h.one_le c b; intro hh; linarith

theorem Sweep.below (h : Band f1 f2) (ho : 1 ≤ o) : Sweep (fun f => (bandRatio f1 f2 f)⁻¹) 0 f1 o o o where
  le := h.pos.le
  anti fr fr' a b c := by
    have h2 := h.le_neg_one (a.trans_lt b) c
    rcases a.eq_or_lt with rfl | a
    · show _ < (bandRatio f1 f2 0)⁻¹
      rw [bandRatio_zero, inv_zero]; exact inv_lt_zero.2 (by linarith)
    · have h3 := h.ratio_lt a b (c.trans_lt (h.lt.trans h.half))
      exact (inv_lt_inv_of_neg (by linarith) (by linarith)).2 h3
  cont := by
    have : (fun f => (bandRatio f1 f2 f)⁻¹) = _ := funext (bandRatio_inv f1 f2)
    rw [this]
    exact ContinuousOn.div (by fun_prop) (by fun_prop) fun x hx => h.num_ne hx.1 (by linarith [hx.2, h.lt, h.half]) (.inl hx.2)
  start := by rw [bandRatio_zero, inv_zero, rippleAngle_half ho, Real.cos_pi_div_two]
  stop := by rw [h.ratio_lo, ← two_mul, rippleAngle_full ho, Real.cos_pi]; norm_num
  small := by omega

theorem Sweep.above (h : Band f1 f2) (ho : 1 ≤ o) : Sweep (fun f => (bandRatio f1 f2 f)⁻¹) f2 (1 / 2) o 0 o where
  le := h.half.le
  anti fr fr' a b c := by
    have h2 := h.one_le a (b.trans_le c)
    rcases c.eq_or_lt with rfl | c
    · show (bandRatio f1 f2 (1 / 2))⁻¹ < _
      rw [bandRatio_half, inv_zero]; exact inv_pos.2 (by linarith)
    · have h3 := h.ratio_lt (h.pos.trans (h.lt.trans_le a)) b c
      exact (inv_lt_inv₀ (by linarith) (by linarith)).2 h3
  cont := by
    have : (fun f => (bandRatio f1 f2 f)⁻¹) = _ := funext (bandRatio_inv f1 f2)
    rw [this]
    exact ContinuousOn.div (by fun_prop) (by fun_prop) fun x hx => h.num_ne (by linarith [hx.1, h.lt, h.pos]) hx.2 (.inr hx.1)
  start := by rw [h.ratio_hi, rippleAngle_zero, Real.cos_zero, inv_one]
  stop := by rw [bandRatio_half, inv_zero, Nat.zero_add, rippleAngle_half ho, Real.cos_pi_div_two]
  small := by omega

/-! ## Filters -/

variable {S : Type → Type} [StateType S XR] {T : Type} [Sample T XR] {n : ℕ} {call : Call XR} {f : PoleFilter S XR}

theorem Spec.GainSq.iff {fr v w : ℝ} (h : GainSq f fr w) : GainSq f fr v ↔ v = w :=
  ⟨fun e => e.unique h, fun e => e ▸ h⟩

theorem lowRipples_of (ho : 1 ≤ o) (h0 : 0 < fc) (h1 : fc < 1 / 2) (hF : Monotonic F)
    (hG : ∀ fr, 0 ≤ fr → fr ≤ fc → GainSq f fr (F (chebT o (lowRatio fc fr) ^ 2))) : LowRipples f fc o (F 1) (F 0) := by
  obtain ⟨p, a, b, c, d⟩ := (Sweep.low h0 h1 ho).ripples (G := GainSq f) ho hF fun fr a b v => by
    rw [(hG fr a b).iff, chebT_neg_sq]
  refine ⟨p, a, b, fun k hk => ?_, d⟩
  have := c k hk
  rw [rippleAngle_add ho, Real.cos_add_pi_div_two] at this
  exact neg_inj.1 this

theorem highRipples_of (ho : 1 ≤ o) (h0 : 0 < fc) (h1 : fc < 1 / 2) (hF : Monotonic F)
    (hG : ∀ fr, fc ≤ fr → fr ≤ 1 / 2 → GainSq f fr (F (chebT o (highRatio fc fr) ^ 2))) : HighRipples f fc o (F 1) (F 0) := by
  obtain ⟨p, a, b, c, d⟩ := (Sweep.high h0 h1 ho).ripples (G := GainSq f) ho hF fun fr a b v => (hG fr a b).iff
  refine ⟨p, a, b, fun k hk => ?_, d⟩
  rw [c k hk, Nat.zero_add]

theorem bandRipples_of (ho : 1 ≤ o) (h : Band f1 f2) (hF : Monotonic F)
    (hG : ∀ fr, f1 ≤ fr → fr ≤ f2 → GainSq f fr (F (chebT o (bandRatio f1 f2 fr) ^ 2))) : BandRipples f f1 f2 o (F 1) (F 0) := by
  obtain ⟨p, a, b, c, d⟩ := (Sweep.band h ho).ripples (G := GainSq f) ho hF fun fr a b v => by
    rw [(hG fr a b).iff, chebT_neg_sq]
  refine ⟨p, a, b, fun k hk => ?_, d⟩
  have := c k hk
  rw [Nat.zero_add] at this
  rw [← this, neg_neg]

theorem outerRipples_of (ho : 1 ≤ o) (h : Band f1 f2) (hF : Monotonic F)
    (hG : ∀ fr, 0 < fr → fr < 1 / 2 → (fr ≤ f1 ∨ f2 ≤ fr) → GainSq f fr (F (chebT o (bandRatio f1 f2 fr)⁻¹ ^ 2)))
    (hdc : GainSq f 0 (F (chebT o 0 ^ 2))) (hny : GainSq f (1 / 2) (F (chebT o 0 ^ 2))) :
    OuterRipples f f1 f2 o (F 1) (F 0) := by
  constructor
  · obtain ⟨p, a, b, c, d⟩ := (Sweep.below h ho).ripples (G := GainSq f) ho hF fun fr a b v => by
      rcases a.eq_or_lt with rfl | a
      · rw [bandRatio_zero, inv_zero]; exact hdc.iff
      · exact (hG fr a (by linarith [h.lt, h.half]) (.inl b)).iff
    refine ⟨p, a, b, fun k hk _ => ?_, d⟩
    have := c k hk
    rw [rippleAngle_add ho, Real.cos_add_pi_div_two] at this
    rw [← inv_inv (bandRatio _ _ _), this, one_div, inv_neg]
  · obtain ⟨p, a, b, c, d⟩ := (Sweep.above h ho).ripples (G := GainSq f) ho hF fun fr a b v => by
      rcases b.eq_or_lt with rfl | b
      · rw [bandRatio_half, inv_zero]; exact hny.iff
      · exact (hG fr (by linarith [h.lt, h.pos]) b (.inr a)).iff
    refine ⟨p, a, b, fun k hk => ?_, d⟩
    have := c k hk.le
    rw [Nat.zero_add] at this
    rw [← inv_inv (bandRatio _ _ _), this, one_div]

variable {r fw gainDb : ℝ}

/-- The gain of a Chebyshev I filter as a function of `T²`. -/
noncomputable def c1Of (r x : ℝ) : ℝ := 1 / (1 + ((10 : ℝ) ^ (r / 10) - 1) * x)
noncomputable def c2Of (r x : ℝ) : ℝ := x / (x + ((10 : ℝ) ^ (r / 10) - 1))
noncomputable def shelfOf (G r x : ℝ) : ℝ := (1 + shelfEpsSq G r * x) / (ofDb (-G) ^ 2 + shelfEpsSq G r * x)

theorem c1Of_one (r : ℝ) : c1Of r 1 = ofDb (-r) ^ 2 := by
  rw [c1Of, ofDb_neg_sq]; congr 1; ring
theorem c1Of_zero (r : ℝ) : c1Of r 0 = 1 := by simp [c1Of]
theorem c2Of_one (r : ℝ) : c2Of r 1 = ofDb (-r) ^ 2 := by
  rw [c2Of, ofDb_neg_sq]; congr 1; ring
theorem c2Of_zero (r : ℝ) : c2Of r 0 = 0 := by simp [c2Of]

theorem c1Of_mono (hr : 0 < r) : Monotonic (c1Of r) := by
  have h := pow10_gt hr
  refine .inr fun x y hx hxy _ => one_div_lt_one_div_of_lt (by nlinarith) (by nlinarith)

theorem c2Of_mono (hr : 0 < r) : Monotonic (c2Of r) := by
  have h := pow10_gt hr
  refine .inl fun x y hx hxy _ => ?_
  rw [c2Of, c2Of, div_lt_div_iff₀ (by linarith) (by linarith)]
  nlinarith

variable {G : ℝ}

theorem shelfOf_zero (G r : ℝ) : shelfOf G r 0 = ofDb G ^ 2 := by
  rw [shelfOf, MulZeroClass.mul_zero, add_zero, add_zero, ofDb_inv_sq]
theorem shelfOf_one (hr : 0 < r) (hG : r < |G|) : shelfOf G r 1 = ofDb (shelfEdgeDb G r) ^ 2 := by
  rw [← chebShelf_edge (o := 1) hr hG abs_one, chebShelf, chebT_one_sq abs_one, shelfOf]

theorem shelfOf_mono (hr : 0 < r) (hG : r < |G|) : Monotonic (shelfOf G r) := by
  have he := shelfEpsSq_pos hr hG
  have ha : 0 < ofDb (-G) ^ 2 := by have := ofDb_pos (-G); positivity
  rcases lt_trichotomy G 0 with h | h | h
  · have := one_lt_ofDb_sq (x := -G) (by linarith)
    exact .inl fun x y hx hxy _ => (shelf_frac_lt ha he hx hxy).2 this
  · rw [h, abs_zero] at hG; linarith
  · have := ofDb_sq_lt_one (x := -G) (by linarith)
    exact .inr fun x y hx hxy _ => (shelf_frac_lt ha he hx hxy).1 this

/-- **C95**, Chebyshev I low pass: from frequency 0 to `fc` the gain is `-ripple` dB and 0 dB in turn at the `o + 1`
frequencies with `tan πf = tan πfc · sin (kπ / 2o)`, `-ripple` dB at the last, `fc`, and moves strictly in between. -/
theorem C95_c1LowPass (h : Asks call n o (.c1LowPass (fin fc) (fin r))) (h0 : 0 < fc) (h1 : fc < 1 / 2) (hr : 0 < r) :
    AfterSetup S T n call fun f => LowRipples f fc o (ofDb (-r) ^ 2) 1 := by
  refine (C35_lowpass h h0 h1 hr).mono fun f hf => ?_
  rw [← c1Of_zero r, ← c1Of_one]
  exact lowRipples_of h.pos h0 h1 (c1Of_mono hr) fun fr a b => hf.1.gain fr a (b.trans_lt h1)

example : AfterSetup S T 5 (.setupN (.c1LowPass (fin (1 / 8)) (fin 3))) fun f => ∃ p : ℕ → ℝ,
    0 < p 1 ∧ p 1 < p 2 ∧ GainSq f (p 1) (ofDb (-3) ^ 2) ∧ GainSq f (p 2) 1 ∧ Rises (GainSq f) (p 1) (p 2) := by
  refine (C95_c1LowPass (o := 5) (fc := 1 / 8) ⟨rfl, rfl, by norm_num, le_rfl, by norm_num⟩ (by norm_num) (by norm_num)
    (by norm_num)).mono fun f h => ?_
  obtain ⟨p, e0, -, -, h⟩ := h
  refine ⟨p, e0 ▸ h.order 0 (by norm_num), h.order 1 (by norm_num), (h.value 1 (by norm_num) _).2 (by simp [turn]),
    (h.value 2 (by norm_num) _).2 (by simp [turn]), ?_⟩
  rcases h.moves 1 (by norm_num) with h | h
  · exact h.2
  · have := h.1
    have h3 := ofDb_sq_lt_one (x := -3) (by norm_num)
    rw [show turn 5 (ofDb (-3) ^ 2) 1 (1 + 1) = 1 by simp [turn], show turn 5 (ofDb (-3) ^ 2) 1 1 = ofDb (-3) ^ 2 by simp [turn]] at this
    linarith

/-- **C95**, Chebyshev I high pass. -/
theorem C95_c1HighPass (h : Asks call n o (.c1HighPass (fin fc) (fin r))) (h0 : 0 < fc) (h1 : fc < 1 / 2) (hr : 0 < r) :
    AfterSetup S T n call fun f => HighRipples f fc o (ofDb (-r) ^ 2) 1 := by
  refine (C35_highpass h h0 h1 hr).mono fun f hf => ?_
  rw [← c1Of_zero r, ← c1Of_one]
  exact highRipples_of h.pos h0 h1 (c1Of_mono hr) fun fr a b => hf.1.gain' (h0.trans_le a) b

example : AfterSetup S T 4 (.setupN (.c1HighPass (fin (1 / 8)) (fin 3))) fun f => HighRipples f (1 / 8) 4 (ofDb (-3) ^ 2) 1 :=
  C95_c1HighPass ⟨rfl, rfl, by norm_num, le_rfl, by norm_num⟩ (by norm_num) (by norm_num) (by norm_num)

/-- **C95**, Chebyshev I band pass: `2 o + 1` extrema between the edges. -/
theorem C95_c1BandPass (h : Asks call n o (.c1BandPass (fin fc) (fin fw) (fin r))) (h0 : 0 ≤ fc) (h1 : fc < 1 / 2)
    (hr : 0 < r) (he : bandLo fc fw < bandHi fc fw)
    (hodd : o % 2 = 1 → Real.tan (Real.pi * (bandHi fc fw - bandLo fc fw)) * cheb1Pole o r ≠ 1) :
    AfterSetup S T n call fun f => BandRipples f (bandLo fc fw) (bandHi fc fw) o (ofDb (-r) ^ 2) 1 := by
  have hB := band_of he
  refine (C35_bandpass h h0 h1 hr he hodd).mono fun f hf => ?_
  rw [← c1Of_zero r, ← c1Of_one]
  exact bandRipples_of h.pos hB (c1Of_mono hr) fun fr a b => hf.1.gain fr (hB.pos.trans_le a) (b.trans_lt hB.half)

/-- **C95**, Chebyshev I band stop: `o + 1` extrema in each of the two pass bands. -/
theorem C95_c1BandStop (h : Asks call n o (.c1BandStop (fin fc) (fin fw) (fin r))) (h0 : 0 ≤ fc) (h1 : fc < 1 / 2)
    (hr : 0 < r) (he : bandLo fc fw < bandHi fc fw)
    (hodd : o % 2 = 1 → Real.tan (Real.pi * (bandHi fc fw - bandLo fc fw)) ≠ cheb1Pole o r) :
    AfterSetup S T n call fun f => OuterRipples f (bandLo fc fw) (bandHi fc fw) o (ofDb (-r) ^ 2) 1 := by
  have hB := band_of he
  refine (C35_bandstop h h0 h1 hr he hodd).mono fun f hf => ?_
  rw [← c1Of_zero r, ← c1Of_one]
  refine outerRipples_of h.pos hB (c1Of_mono hr) (fun fr a b c => ?_) hf.1.dc hf.1.nyquist
  have := hf.1.gain fr a b
  rwa [if_neg (hB.ratio_ne a b c), one_div] at this

/-- **C95**, Chebyshev II low pass: from `fc` to half the sampling rate the gain is `-stopBandDb` dB and 0 in turn at the
`o + 1` frequencies with `tan πf = tan πfc / cos (kπ / 2o)`. -/
theorem C95_c2LowPass (h : Asks call n o (.c2LowPass (fin fc) (fin r))) (h0 : 0 < fc) (h1 : fc < 1 / 2) (hr : 0 < r) :
    AfterSetup S T n call fun f => HighRipples f fc o (ofDb (-r) ^ 2) 0 := by
  refine (C36_lowpass h h0 h1 hr).mono fun f hf => ?_
  rw [← c2Of_one, ← c2Of_zero r]
  refine highRipples_of h.pos h0 h1 (c2Of_mono hr) fun fr a b => ?_
  rcases b.eq_or_lt with rfl | b
  · rw [highRatio_half]; exact hf.1.nyquist
  · have := hf.1.gain fr (h0.le.trans a) b
    rwa [if_neg (lowRatio_pos h0 h1 (h0.trans_le a) b).ne', one_div, ← highRatio_eq_inv] at this

example : AfterSetup S T 5 (.setupN (.c2LowPass (fin (1 / 8)) (fin 40))) fun f => ∃ p : ℕ → ℝ,
    1 / 8 < p 1 ∧ p 1 < p 2 ∧ GainSq f (p 1) 0 ∧ GainSq f (p 2) (ofDb (-40) ^ 2) ∧ Rises (GainSq f) (p 1) (p 2) := by
  refine (C95_c2LowPass (o := 5) (fc := 1 / 8) ⟨rfl, rfl, by norm_num, le_rfl, by norm_num⟩ (by norm_num) (by norm_num)
    (by norm_num)).mono fun f h => ?_
  obtain ⟨p, e0, -, -, h⟩ := h
  refine ⟨p, e0 ▸ h.order 0 (by norm_num), h.order 1 (by norm_num), (h.value 1 (by norm_num) _).2 (by simp [turn]),
    (h.value 2 (by norm_num) _).2 (by simp [turn]), ?_⟩
  rcases h.moves 1 (by norm_num) with h | h
  · exact h.2
  · have := h.1
    have h3 := ofDb_pos (-40)
    norm_num [turn] at this
    nlinarith

/-- **C95**, Chebyshev II high pass. -/
theorem C95_c2HighPass (h : Asks call n o (.c2HighPass (fin fc) (fin r))) (h0 : 0 < fc) (h1 : fc < 1 / 2) (hr : 0 < r) :
    AfterSetup S T n call fun f => LowRipples f fc o (ofDb (-r) ^ 2) 0 := by
  refine (C36_highpass h h0 h1 hr).mono fun f hf => ?_
  rw [← c2Of_one, ← c2Of_zero r]
  refine lowRipples_of h.pos h0 h1 (c2Of_mono hr) fun fr a b => ?_
  rcases a.eq_or_lt with rfl | a
  · rw [lowRatio_zero]; exact hf.1.dc
  · have := hf.1.gain fr a (b.trans_lt h1)
    rwa [if_neg (highRatio_pos h0 h1 a (b.trans_lt h1)).ne', one_div, highRatio_eq_inv, inv_inv] at this

example : AfterSetup S T 4 (.setupN (.c2HighPass (fin (1 / 8)) (fin 40))) fun f => LowRipples f (1 / 8) 4 (ofDb (-40) ^ 2) 0 :=
  C95_c2HighPass ⟨rfl, rfl, by norm_num, le_rfl, by norm_num⟩ (by norm_num) (by norm_num) (by norm_num)

/-- **C95**, Chebyshev II band pass. -/
theorem C95_c2BandPass (h : Asks call n o (.c2BandPass (fin fc) (fin fw) (fin r))) (h0 : 0 ≤ fc) (h1 : fc < 1 / 2)
    (hr : 0 < r) (he : bandLo fc fw < bandHi fc fw)
    (hodd : o % 2 = 1 → Real.tan (Real.pi * (bandHi fc fw - bandLo fc fw)) ≠ cheb2Pole o r) :
    AfterSetup S T n call fun f => OuterRipples f (bandLo fc fw) (bandHi fc fw) o (ofDb (-r) ^ 2) 0 := by
  have hB := band_of he
  refine (C36_bandpass h h0 h1 hr he hodd).mono fun f hf => ?_
  rw [← c2Of_one, ← c2Of_zero r]
  refine outerRipples_of h.pos hB (c2Of_mono hr) (fun fr a b c => ?_) hf.1.dc hf.1.nyquist
  have := hf.1.gain fr a b
  rwa [if_neg (hB.ratio_ne a b c), one_div] at this

/-- **C95**, Chebyshev II band stop. -/
theorem C95_c2BandStop (h : Asks call n o (.c2BandStop (fin fc) (fin fw) (fin r))) (h0 : 0 ≤ fc) (h1 : fc < 1 / 2)
    (hr : 0 < r) (he : bandLo fc fw < bandHi fc fw)
    (hodd : o % 2 = 1 → Real.tan (Real.pi * (bandHi fc fw - bandLo fc fw)) * cheb2Pole o r ≠ 1) :
    AfterSetup S T n call fun f => BandRipples f (bandLo fc fw) (bandHi fc fw) o (ofDb (-r) ^ 2) 0 := by
  have hB := band_of he
  refine (C36_bandstop h h0 h1 hr he hodd).mono fun f hf => ?_
  rw [← c2Of_one, ← c2Of_zero r]
  exact bandRipples_of h.pos hB (c2Of_mono hr) fun fr a b => hf.1.gain fr (hB.pos.trans_le a) (b.trans_lt hB.half)

/-- The hypotheses of the band filters are met. -/
theorem c95_band_ex : bandLo (1 / 4) (1 / 8) < bandHi (1 / 4) (1 / 8) := by rw [band_ex.1, band_ex.2]; norm_num

example : AfterSetup S T 4 (.setupN (.c1BandPass (fin (1 / 4)) (fin (1 / 8)) (fin 3))) fun f => BandRipples f (bandLo (1 / 4) (1 / 8)) (bandHi (1 / 4) (1 / 8)) 4 (ofDb (-3) ^ 2) 1 :=
  C95_c1BandPass ⟨rfl, rfl, by norm_num, le_rfl, by norm_num⟩ (by norm_num) (by norm_num) (by norm_num) c95_band_ex (fun h => by norm_num at h)
example : AfterSetup S T 4 (.setupN (.c1BandStop (fin (1 / 4)) (fin (1 / 8)) (fin 3))) fun f => OuterRipples f (bandLo (1 / 4) (1 / 8)) (bandHi (1 / 4) (1 / 8)) 4 (ofDb (-3) ^ 2) 1 :=
  C95_c1BandStop ⟨rfl, rfl, by norm_num, le_rfl, by norm_num⟩ (by norm_num) (by norm_num) (by norm_num) c95_band_ex (fun h => by norm_num at h)
example : AfterSetup S T 4 (.setupN (.c2BandPass (fin (1 / 4)) (fin (1 / 8)) (fin 40))) fun f => OuterRipples f (bandLo (1 / 4) (1 / 8)) (bandHi (1 / 4) (1 / 8)) 4 (ofDb (-40) ^ 2) 0 :=
  C95_c2BandPass ⟨rfl, rfl, by norm_num, le_rfl, by norm_num⟩ (by norm_num) (by norm_num) (by norm_num) c95_band_ex (fun h => by norm_num at h)
example : AfterSetup S T 4 (.setupN (.c2BandStop (fin (1 / 4)) (fin (1 / 8)) (fin 40))) fun f => BandRipples f (bandLo (1 / 4) (1 / 8)) (bandHi (1 / 4) (1 / 8)) 4 (ofDb (-40) ^ 2) 0 :=
  C95_c2BandStop ⟨rfl, rfl, by norm_num, le_rfl, by norm_num⟩ (by norm_num) (by norm_num) (by norm_num) c95_band_ex (fun h => by norm_num at h)

/-! ## Shelves -/

theorem lowShelf_ripples (ho : 1 ≤ o) (h0 : 0 < fc) (h1 : fc < 1 / 2) (hr : 0 < r) (hG : r < |G|) (hf : Spec.LowShelf o fc G r f) :
    LowRipples f fc o (ofDb (shelfEdgeDb G r) ^ 2) (ofDb G ^ 2) := by
  rw [← shelfOf_one hr hG, ← shelfOf_zero G r]
  exact lowRipples_of ho h0 h1 (shelfOf_mono hr hG) fun fr a b => hf.shape.gain fr a (b.trans_lt h1)

theorem highShelf_ripples (ho : 1 ≤ o) (h0 : 0 < fc) (h1 : fc < 1 / 2) (hr : 0 < r) (hG : r < |G|) (hf : Spec.HighShelf o fc G r f) :
    HighRipples f fc o (ofDb (shelfEdgeDb G r) ^ 2) (ofDb G ^ 2) := by
  rw [← shelfOf_one hr hG, ← shelfOf_zero G r]
  exact highRipples_of ho h0 h1 (shelfOf_mono hr hG) fun fr a b => hf.shape.gain' (h0.trans_le a) b

theorem bandShelf_ripples (ho : 1 ≤ o) (hB : Band f1 f2) (hr : 0 < r) (hG : r < |G|) (hf : Spec.BandShelf o f1 f2 G r f) :
    BandRipples f f1 f2 o (ofDb (shelfEdgeDb G r) ^ 2) (ofDb G ^ 2) := by
  rw [← shelfOf_one hr hG, ← shelfOf_zero G r]
  exact bandRipples_of ho hB (shelfOf_mono hr hG) fun fr a b => hf.shape.gain fr (hB.pos.trans_le a) (b.trans_lt hB.half)

/-- **C95**, Chebyshev low shelves: up to `fc` the gain is `gainDb` and that of the edge in turn. -/
theorem C95_lowShelf (h : Asks call n o (.c1LowShelf (fin fc) (fin G) (fin r)) ∨ Asks call n o (.c2LowShelf (fin fc) (fin G) (fin r)))
    (h0 : 0 < fc) (h1 : fc < 1 / 2) (hr : 0 < r) (hG : r < |G|) :
    AfterSetup S T n call fun f => LowRipples f fc o (ofDb (shelfEdgeDb G r) ^ 2) (ofDb G ^ 2) := by
  rcases h with h | h
  · exact (C37_c1LowShelf h h0 h1 hr hG).mono fun f => lowShelf_ripples h.pos h0 h1 hr hG
  · exact (C37_c2LowShelf h h0 h1 hr hG).mono fun f => lowShelf_ripples h.pos h0 h1 hr hG

/-- **C95**, Chebyshev high shelves. -/
theorem C95_highShelf (h : Asks call n o (.c1HighShelf (fin fc) (fin G) (fin r)) ∨ Asks call n o (.c2HighShelf (fin fc) (fin G) (fin r)))
    (h0 : 0 < fc) (h1 : fc < 1 / 2) (hr : 0 < r) (hG : r < |G|) :
    AfterSetup S T n call fun f => HighRipples f fc o (ofDb (shelfEdgeDb G r) ^ 2) (ofDb G ^ 2) := by
  rcases h with h | h
  · exact (C37_c1HighShelf h h0 h1 hr hG).mono fun f => highShelf_ripples h.pos h0 h1 hr hG
  · exact (C37_c2HighShelf h h0 h1 hr hG).mono fun f => highShelf_ripples h.pos h0 h1 hr hG

/-- **C95**, Chebyshev band shelves. -/
theorem C95_bandShelf (h : Asks call n o (.c1BandShelf (fin fc) (fin fw) (fin G) (fin r)) ∨ Asks call n o (.c2BandShelf (fin fc) (fin fw) (fin G) (fin r)))
    (h0 : 0 ≤ fc) (h1 : fc < 1 / 2) (hr : 0 < r) (hG : r < |G|) (he : bandLo fc fw < bandHi fc fw)
    (hodd : o % 2 = 1 → Real.tan (Real.pi * (bandHi fc fw - bandLo fc fw)) * shelfPole o G r ≠ 1 ∧
      Real.tan (Real.pi * (bandHi fc fw - bandLo fc fw)) * shelfZero o G r ≠ 1) :
    AfterSetup S T n call fun f => BandRipples f (bandLo fc fw) (bandHi fc fw) o (ofDb (shelfEdgeDb G r) ^ 2) (ofDb G ^ 2) := by
  rcases h with h | h
  · exact (C37_c1BandShelf h h0 h1 hr hG he hodd).mono fun f => bandShelf_ripples h.pos (band_of he) hr hG
  · exact (C37_c2BandShelf h h0 h1 hr hG he hodd).mono fun f => bandShelf_ripples h.pos (band_of he) hr hG

example : AfterSetup S T 4 (.setupN (.c1LowShelf (fin (1 / 8)) (fin 12) (fin 1))) fun f => LowRipples f (1 / 8) 4 (ofDb (shelfEdgeDb 12 1) ^ 2) (ofDb 12 ^ 2) :=
  C95_lowShelf (.inl ⟨rfl, rfl, by norm_num, le_rfl, by norm_num⟩) (by norm_num) (by norm_num) (by norm_num) (by norm_num)
example : AfterSetup S T 4 (.setupN (.c2HighShelf (fin (1 / 8)) (fin (-12)) (fin 1))) fun f => HighRipples f (1 / 8) 4 (ofDb (shelfEdgeDb (-12) 1) ^ 2) (ofDb (-12) ^ 2) :=
  C95_highShelf (.inr ⟨rfl, rfl, by norm_num, le_rfl, by norm_num⟩) (by norm_num) (by norm_num) (by norm_num) (by norm_num)
example : AfterSetup S T 4 (.setupN (.c1BandShelf (fin (1 / 4)) (fin (1 / 8)) (fin 12) (fin 1))) fun f => BandRipples f (bandLo (1 / 4) (1 / 8)) (bandHi (1 / 4) (1 / 8)) 4 (ofDb (shelfEdgeDb 12 1) ^ 2) (ofDb 12 ^ 2) :=
  C95_bandShelf (.inl ⟨rfl, rfl, by norm_num, le_rfl, by norm_num⟩) (by norm_num) (by norm_num) (by norm_num) (by norm_num) c95_band_ex (fun h => by norm_num at h)

end Iir
