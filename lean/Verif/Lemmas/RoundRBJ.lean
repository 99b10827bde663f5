import Verif.Lemmas.RoundDesign
import Mathlib.Analysis.Complex.ExponentialBounds

/-! # Rounding errors in the RBJ designs -/

namespace Iir
open FArith Spec Exec

variable {R : Type} [FArith R] {u η Ω : ℝ} {r : Rounds R u η Ω} {x y : R}

theorem sin_lower {x δ : ℝ} (h0 : 0 ≤ δ) (h1 : δ ≤ x) (h2 : x ≤ Real.pi - δ) : δ / 2 ≤ Real.sin x := by
  have hpi := Real.pi_pos
  have hpi4 := Real.pi_le_four
  have h3 : (1 : ℝ) / 2 ≤ 2 / Real.pi := by rw [div_le_div_iff₀ (by norm_num) hpi]; linarith
  rcases le_total x (Real.pi / 2) with h | h
  · have := Real.mul_le_sin (h0.trans h1) h
    nlinarith
  · rw [← Real.sin_pi_sub]
    have := Real.mul_le_sin (x := Real.pi - x) (by linarith) (by linarith)
    nlinarith

theorem cos_upper {x δ : ℝ} (h0 : 0 ≤ δ) (h1 : δ ≤ x) (h2 : x ≤ Real.pi - δ) : |Real.cos x| ≤ 1 - δ ^ 2 / 8 := by
  have h3 := sin_lower h0 h1 h2
  have h4 := Real.sin_sq_add_cos_sq x
  have h5 : (δ / 2) ^ 2 ≤ Real.sin x ^ 2 := pow_le_pow_left₀ (by linarith) h3 2
  have h6 : Real.sin x ^ 2 ≤ 1 := by nlinarith [sq_nonneg (Real.cos x)]
  apply abs_le_of_sq_le_sq
  · nlinarith [sq_nonneg (δ ^ 2)]
  · nlinarith

theorem notch_margin {ρ : ℝ} (hρ : |ρ| ≤ 1) (c : ℝ) (hc : |c| ≤ 1 - 1 / 2 ^ 40) :
    1 / 2 ^ 41 ≤ 1 - 2 * ρ * c + ρ * ρ := by
  have a1 := abs_nonneg ρ
  have a2 : ρ * c ≤ |ρ| * (1 - 1 / 2 ^ 40) := by
    refine (le_abs_self _).trans ?_
    rw [abs_mul]
    exact mul_le_mul_of_nonneg_left hc a1
  rw [← abs_mul_abs_self ρ]
  generalize |ρ| = t at *
  rcases le_total t (1 / 2) with h | h
  · norm_num at *; nlinarith
  · norm_num at *; nlinarith [sq_nonneg (1 - t)]

theorem notch_radius {ρ : ℝ} (h1 : -(1 / 2 ^ 200) ≤ ρ) (h2 : ρ ≤ 1 - 1 / 2 ^ 33) : ρ * ρ ≤ 1 - 1 / 2 ^ 34 := by
  have h3 : |ρ| ≤ 1 - 1 / 2 ^ 33 := abs_le.2 ⟨le_trans (by norm_num) h1, h2⟩
  rw [← abs_mul_abs_self ρ]
  have := abs_nonneg ρ
  norm_num at *
  nlinarith

section rbj
variable (ha : r.Accurate)
include ha

theorem in_pi : r.In (pi : R) (Real.pi - 1 / 2 ^ 45) (Real.pi + 1 / 2 ^ 45) := by
  obtain ⟨h1, h2⟩ := ha.pi
  obtain ⟨h2, h3⟩ := abs_le.1 h2
  exact ⟨h1, by linarith, by linarith⟩

theorem in_ln2 : r.In (ln2 : R) (0.69) (0.7) := by
  obtain ⟨h1, h2⟩ := ha.ln2
  obtain ⟨h2, h3⟩ := abs_le.1 h2
  have := Real.log_two_gt_d9
  have := Real.log_two_lt_d9
  norm_num at *
  exact ⟨h1, by linarith, by linarith⟩

/-- `w0 = 2 * pi * f` -/
theorem in_w0 {f : R} {lo hi : ℝ} (hf : r.Fin f) (h1 : lo ≤ r.val f) (h2 : r.val f ≤ hi) (h0 : 0 ≤ lo) (h3 : hi ≤ 1 / 2) :
    r.In (2 * pi * f) (2 * Real.pi * lo - 1 / 2 ^ 40) (2 * Real.pi * hi + 1 / 2 ^ 40) := by
  have hp := Real.pi_gt_d2
  have hp' := Real.pi_lt_d2
  have h4 : r.In (2 * pi : R) (2 * Real.pi - 1 / 2 ^ 43) (2 * Real.pi + 1 / 2 ^ 43) :=
    In.mul ha 8 (In.two ha) (in_pi ha) (by norm_num) (by norm_num at *; linarith) (by norm_num at *; linarith) (by norm_num)
      (by norm_num at *; linarith) (by norm_num at *; linarith)
  have h5 : r.In f lo hi := ⟨hf, h1, h2⟩
  have hlh := h1.trans h2
  have e1 : (2 * Real.pi + 1 / 2 ^ 43) * hi ≤ 2 * Real.pi * hi + 1 / 2 ^ 43 := by nlinarith
  have e2 : 2 * Real.pi * lo - 1 / 2 ^ 43 ≤ (2 * Real.pi - 1 / 2 ^ 43) * lo := by nlinarith
  have e3 : 2 * Real.pi * hi ≤ 4 := by nlinarith
  refine In.mul ha 8 h4 h5 (by norm_num at *; linarith) h0 (e1.trans ?_) (by norm_num) (le_trans ?_ e2) (le_trans (add_le_add_left (add_le_add_left e1 _) _) ?_)
  · norm_num; linarith
  · norm_num; linarith
  · norm_num; linarith

/-- cosine and sine of `w0`, practical frequencies -/
theorem in_trig {f : R} (hf : r.Fin f) (h1 : 1 / 2 ^ 20 ≤ r.val f) (h2 : r.val f ≤ 1 / 2 - 1 / 2 ^ 20) :
    r.In (2 * pi * f) (1 / 2 ^ 18) 4 ∧ r.In (cos (2 * pi * f)) (-(1 - 1 / 2 ^ 40)) (1 - 1 / 2 ^ 40) ∧
      r.In (sin (2 * pi * f)) (1 / 2 ^ 20) (1 + 1 / 2 ^ 40) := by
  have hp := Real.pi_gt_d2
  have hp' := Real.pi_lt_d2
  have hw := in_w0 ha hf h1 h2 (by norm_num) (by norm_num)
  have w1 : 1 / 2 ^ 18 ≤ r.val (2 * pi * f) := le_trans (by norm_num; linarith) hw.2.1
  have w2 : r.val (2 * pi * f) ≤ Real.pi - 1 / 2 ^ 18 := hw.2.2.trans (by norm_num; linarith)
  have hη := ha.η_le
  refine ⟨⟨hw.1, w1, w2.trans (by norm_num; linarith)⟩, ?_, ?_⟩
  · obtain ⟨c1, c2⟩ := ha.cos _ hw.1
    have c3 := cos_upper (by norm_num) w1 w2
    refine In.of_abs c1 ?_
    have c4 := abs_add_le (r.val (cos (2 * pi * f)) - Real.cos (r.val (2 * pi * f))) (Real.cos (r.val (2 * pi * f)))
    rw [sub_add_cancel] at c4
    norm_num at *
    linarith
  · obtain ⟨c1, c2⟩ := ha.sin _ hw.1
    have c3 := sin_lower (by norm_num) w1 w2
    have c4 := Real.sin_le_one (r.val (2 * pi * f))
    rw [abs_of_nonneg (le_trans (by norm_num) c3)] at c2
    obtain ⟨c5, c6⟩ := abs_le.1 c2
    norm_num at *
    exact ⟨c1, by linarith, by linarith⟩

/-- The denominator `1 + AL, -2 cs, 1 - AL`. -/
theorem core_stable {al c b0 b1 b2 : R} (f : Biquad R) (hal : r.In al (1 / 2 ^ 40) 3000)
    (hc : r.In c (-(1 - 1 / 2 ^ 40)) (1 - 1 / 2 ^ 40)) (hb0 : r.In b0 (-(2 ^ 30)) (2 ^ 30)) (hb1 : r.In b1 (-(2 ^ 30)) (2 ^ 30))
    (hb2 : r.In b2 (-(2 ^ 30)) (2 ^ 30)) :
    ∃ f' k, Biquad.setCoefficients (1 + al) (-2 * c) (1 - al) b0 b1 b2 f = (.ok (), f') ∧ r.Values f' k ∧ k.Stable := by
  have h1 := In.one ha
  obtain ⟨l0, l1, l2⟩ := hal
  obtain ⟨k0, k1, k2⟩ := hc
  have v1 : r.val (1 : R) = 1 := le_antisymm h1.2.2 h1.2.1
  have hm2 := In.neg ha (In.two ha)
  have v2 : r.val (-2 : R) = -2 := le_antisymm hm2.2.2 hm2.2.1
  obtain ⟨p0, p1⟩ := raw_add ha h1.1 l0 (M := 3001) (by rw [v1]; apply abs_le.2; norm_num at *; constructor <;> linarith) (by norm_num)
  obtain ⟨q0, q1⟩ := raw_sub ha h1.1 l0 (M := 3000) (by rw [v1]; apply abs_le.2; norm_num at *; constructor <;> linarith) (by norm_num)
  obtain ⟨s0, s1⟩ := raw_mul ha hm2.1 k0 (M := 2) (by rw [v2]; apply abs_le.2; norm_num at *; constructor <;> linarith) (by norm_num)
  rw [v1] at p1 q1
  rw [v2] at s1
  obtain ⟨p1, p2⟩ := abs_le.1 p1
  obtain ⟨q1, q2⟩ := abs_le.1 q1
  obtain ⟨s1, s2⟩ := abs_le.1 s1
  refine stored_stable ha f (P := 3002) (m := 3 * 3002 / 2 ^ 53) p0 ⟨s0, ?_, ?_⟩ ⟨q0, ?_, ?_⟩ hb0 hb1 hb2 (by norm_num) (by norm_num)
    ?_ ?_ le_rfl ?_ ?_ ?_ <;> norm_num at * <;> linarith

/-- `AL = sn / (2 * q)` -/
theorem in_al {sn q : R} (hs : r.In sn (1 / 2 ^ 20) (1 + 1 / 2 ^ 40)) (hq : r.In q (1 / 2 ^ 10) (2 ^ 10)) :
    r.In (sn / (2 * q)) (1 / 2 ^ 34) 520 := by
  have h1 : r.In (2 * q) (1 / 2 ^ 9 - 1 / 2 ^ 40) (2 ^ 11 + 1 / 2 ^ 40) :=
    In.mul ha (2 ^ 11) (In.two ha) hq (by norm_num) (by norm_num) (by norm_num) (by norm_num) (by norm_num) (by norm_num)
  exact In.div ha 519 hs h1 (by norm_num) (by norm_num) (by norm_num) (by norm_num) (by norm_num) (by norm_num) (by norm_num)

theorem in_m2c {c : R} (hc : r.In c (-(1 - 1 / 2 ^ 40)) (1 - 1 / 2 ^ 40)) : r.In (-2 * c) (-(2 ^ 30)) (2 ^ 30) :=
  In.mono (In.mul_abs ha 2 (In.mono (In.neg ha (In.two ha)) (a' := -2) (b' := 2) (by norm_num) (by norm_num))
    (In.mono hc (a' := -1) (b' := 1) (by norm_num) (by norm_num)) (by norm_num) (by norm_num)) (by norm_num) (by norm_num)

theorem in_one_sub {x : R} {B : ℝ} (hx : r.In x (-B) B) (h : B ≤ 2 ^ 20) : r.In (1 - x) (-(B + 2)) (B + 2) :=
  In.sub ha (B + 1) (In.one ha) hx (by linarith) (by linarith) (by norm_num at *; linarith) (by norm_num at *; linarith)
    (by norm_num at *; linarith)

theorem in_one_add {x : R} {B : ℝ} (hx : r.In x (-B) B) (h : B ≤ 2 ^ 20) : r.In (1 + x) (-(B + 2)) (B + 2) :=
  In.add ha (B + 1) (In.one ha) hx (by linarith) (by linarith) (by norm_num at *; linarith) (by norm_num at *; linarith)
    (by norm_num at *; linarith)

theorem in_half {x : R} {B : ℝ} (hx : r.In x (-B) B) (h : B ≤ 2 ^ 20) : r.In (x / 2) (-(B / 2 + 1)) (B / 2 + 1) :=
  In.div_abs ha (B / 2) hx (In.two ha) (by norm_num) (by linarith) (by norm_num at *; linarith)

theorem in_const {n : ℕ} (h : n ≤ 2 ^ 20) : r.In (OfNat.ofNat n : R) (-(2 ^ 30)) (2 ^ 30) := by
  have : (n : ℝ) ≤ 2 ^ 20 := by exact_mod_cast h
  have h0 : (0 : ℝ) ≤ n := Nat.cast_nonneg n
  exact In.mono (In.lit ha n h) (by norm_num at *; linarith) (by norm_num at *; linarith)

omit ha in
theorem big {x : R} {B : ℝ} (hx : r.In x (-B) B) (h : B ≤ 2 ^ 30) : r.In x (-(2 ^ 30)) (2 ^ 30) :=
  In.mono hx (by linarith) h

/-- The six filters with `AL = sn / (2 q)`. -/
theorem q_filters {f q : R} (hf : r.Fin f) (hq : r.Fin q) (h1 : 1 / 2 ^ 20 ≤ r.val f) (h2 : r.val f ≤ 1 / 2 - 1 / 2 ^ 20)
    (h3 : 1 / 2 ^ 10 ≤ r.val q) (h4 : r.val q ≤ 2 ^ 10) {d : RBJ.Design R}
    (hd : d = .lowPass f q ∨ d = .highPass f q ∨ d = .bandPass1 f q ∨ d = .bandPass2 f q ∨ d = .bandStop f q ∨
      d = .allPass f q) (g : Biquad R) :
    ∃ g' k, d.setupN g = (.ok (), g') ∧ r.Values g' k ∧ k.Stable := by
  obtain ⟨hw, hc, hs⟩ := in_trig ha hf h1 h2
  have hq' : r.In q (1 / 2 ^ 10) (2 ^ 10) := ⟨hq, h3, h4⟩
  have hal := in_al ha hs hq'
  have hal' : r.In (sin (2 * pi * f) / (2 * q)) (1 / 2 ^ 40) 3000 := In.mono hal (by norm_num) (by norm_num)
  have al1 : r.In (sin (2 * pi * f) / (2 * q)) (-520) 520 := In.mono hal (by norm_num) (by norm_num)
  have q1 : r.In q (-(2 ^ 10)) (2 ^ 10) := In.mono hq' (by norm_num) (by norm_num)
  have nq1 : r.In (-q) (-(2 ^ 10)) (2 ^ 10) := In.mono (In.neg ha q1) (by norm_num) (by norm_num)
  have c1 : r.In (cos (2 * pi * f)) (-1) 1 := In.mono hc (by norm_num) (by norm_num)
  have m1 := in_one_sub ha c1 (by norm_num)
  have p1 := in_one_add ha c1 (by norm_num)
  rcases hd with rfl | rfl | rfl | rfl | rfl | rfl
  · exact core_stable ha g hal' hc (big (in_half ha m1 (by norm_num)) (by norm_num)) (big m1 (by norm_num))
      (big (in_half ha m1 (by norm_num)) (by norm_num))
  · exact core_stable ha g hal' hc (big (in_half ha p1 (by norm_num)) (by norm_num))
      (In.mono (In.neg ha p1) (by norm_num) (by norm_num)) (big (in_half ha p1 (by norm_num)) (by norm_num))
  · exact core_stable ha g hal' hc (big (In.mul_abs ha (2 ^ 10 * 520) q1 al1 (by norm_num) (by norm_num)) (by norm_num))
      (in_const ha (by norm_num)) (big (In.mul_abs ha (2 ^ 10 * 520) nq1 al1 (by norm_num) (by norm_num)) (by norm_num))
  · exact core_stable ha g hal' hc (big al1 (by norm_num)) (in_const ha (by norm_num))
      (In.mono (In.neg ha al1) (by norm_num) (by norm_num))
  · exact core_stable ha g hal' hc (in_const ha (by norm_num)) (in_m2c ha hc) (in_const ha (by norm_num))
  · exact core_stable ha g hal' hc (big (in_one_sub ha al1 (by norm_num)) (by norm_num)) (in_m2c ha hc)
      (big (in_one_add ha al1 (by norm_num)) (by norm_num))

/-- The denominator `1, -2 r cs, r r`. -/
theorem notch_core {ρ c : R} (x1 : r.Fin ρ) (p1 : r.val ρ ≤ 1 - 1 / 2 ^ 33) (p2 : -(1 / 2 ^ 200) ≤ r.val ρ)
    (hc : r.In c (-(1 - 1 / 2 ^ 40)) (1 - 1 / 2 ^ 40)) (g : Biquad R) :
    ∃ g' k, Biquad.setCoefficients 1 (-2 * ρ * c) (ρ * ρ) 1 (-2 * c) 1 g = (.ok (), g') ∧ r.Values g' k ∧ k.Stable := by
  have hb := in_m2c ha hc
  have k1 := in_const ha (r := r) (n := 1) (by norm_num)
  have hm2 := In.neg ha (In.two ha)
  have v2 : r.val (-2 : R) = -2 := le_antisymm hm2.2.2 hm2.2.1
  have v1 : r.val (1 : R) = 1 := le_antisymm (In.one ha).2.2 (In.one ha).2.1
  obtain ⟨c0, c1, c2⟩ := hc
  have hρ : |r.val ρ| ≤ 1 := abs_le.2 ⟨by norm_num at *; linarith, by norm_num at *; linarith⟩
  obtain ⟨s0, s1⟩ := raw_mul ha hm2.1 x1 (M := 2) (by rw [v2]; apply abs_le.2; norm_num at *; constructor <;> linarith) (by norm_num)
  rw [v2] at s1
  obtain ⟨s1, s2⟩ := abs_le.1 s1
  have hcc : |r.val c| ≤ 1 := abs_le.2 ⟨by norm_num at *; linarith, by norm_num at *; linarith⟩
  have hs : |r.val (-2 * ρ)| ≤ 3 := abs_le.2 ⟨by norm_num at *; linarith, by norm_num at *; linarith⟩
  obtain ⟨t0, t1⟩ := raw_mul ha s0 c0 (M := 3) (by rw [abs_mul]; nlinarith [abs_nonneg (r.val c), abs_nonneg (r.val (-2 * ρ))]) (by norm_num)
  obtain ⟨t1, t2⟩ := abs_le.1 t1
  obtain ⟨z0, z1⟩ := raw_mul ha x1 x1 (M := 1) (by rw [abs_mul]; nlinarith [abs_nonneg (r.val ρ)]) (by norm_num)
  obtain ⟨z1, z2⟩ := abs_le.1 z1
  have g1 : |r.val (-2 * ρ) * r.val c - -2 * r.val ρ * r.val c| ≤ 1 / 2 ^ 51 := by
    rw [← sub_mul, abs_mul]
    have : |r.val (-2 * ρ) - -2 * r.val ρ| ≤ 1 / 2 ^ 51 := abs_le.2 ⟨by norm_num at *; linarith, by norm_num at *; linarith⟩
    nlinarith [abs_nonneg (r.val c), abs_nonneg (r.val (-2 * ρ) - -2 * r.val ρ)]
  obtain ⟨g1, g2⟩ := abs_le.1 g1
  have key := notch_margin hρ
  have y1 := key (r.val c) (abs_le.2 ⟨c1, c2⟩)
  have y2 := key (-r.val c) (by rw [abs_neg]; exact abs_le.2 ⟨c1, c2⟩)
  have y3 := notch_radius p2 p1
  have y4 := mul_self_nonneg (r.val ρ)
  have y5 : |r.val ρ * r.val c| ≤ 1 := by rw [abs_mul]; nlinarith [abs_nonneg (r.val c), abs_nonneg (r.val ρ)]
  obtain ⟨y5, y6⟩ := abs_le.1 y5
  refine stored_stable ha g (P := 3) (m := 9 / 2 ^ 53) (In.one ha).1 ⟨t0, ?_, ?_⟩ ⟨z0, ?_, ?_⟩ k1 hb k1 (by norm_num) (by norm_num)
    ?_ ?_ (by norm_num) ?_ ?_ ?_ <;> (try rw [v1]) <;> norm_num at * <;> linarith

/-- the notch: poles of radius `r = exp (-(w0 / 2) / q)` -/
theorem notch_stable {f q : R} (hf : r.Fin f) (hq : r.Fin q) (h1 : 1 / 2 ^ 20 ≤ r.val f) (h2 : r.val f ≤ 1 / 2 - 1 / 2 ^ 20)
    (h3 : 1 / 2 ^ 10 ≤ r.val q) (h4 : r.val q ≤ 2 ^ 10) (g : Biquad R) :
    ∃ g' k, (RBJ.Design.iirNotch f q).setupN g = (.ok (), g') ∧ r.Values g' k ∧ k.Stable := by
  obtain ⟨hw, hc, hs⟩ := in_trig ha hf h1 h2
  have hq' : r.In q (1 / 2 ^ 10) (2 ^ 10) := ⟨hq, h3, h4⟩
  have w2 : r.In (2 * pi * f / 2) (1 / 2 ^ 20) 3 :=
    In.div ha 2 hw (In.two ha) (by norm_num) (by norm_num) (by norm_num) (by norm_num) (by norm_num) (by norm_num) (by norm_num)
  obtain ⟨n1, n2⟩ := ha.neg _ w2.1
  have hq0 : 0 < r.val q := lt_of_lt_of_le (by norm_num) h3
  have w3 : r.val (-(2 * pi * f / 2)) / r.val q ≤ -(1 / 2 ^ 30) := by
    rw [n2, div_le_iff₀ hq0]
    have := w2.2.1
    norm_num at *
    linarith
  have w4 : -(2 ^ 12) ≤ r.val (-(2 * pi * f / 2)) / r.val q := by
    rw [n2, le_div_iff₀ hq0]
    have := w2.2.2
    norm_num at *
    linarith
  obtain ⟨v1, v2⟩ := raw_div ha n1 hq hq0.ne' (M := 2 ^ 12) (abs_le.2 ⟨w4, w3.trans (by norm_num)⟩) (by norm_num)
  obtain ⟨v3, v4⟩ := abs_le.1 v2
  have v5 : r.val (-(2 * pi * f / 2) / q) ≤ -(1 / 2 ^ 31) := by norm_num at *; linarith
  have e0 := Real.exp_pos (r.val (-(2 * pi * f / 2) / q))
  have e1 : Real.exp (r.val (-(2 * pi * f / 2) / q)) ≤ 1 - 1 / 2 ^ 32 := by
    refine (Real.exp_le_exp.2 v5).trans ?_
    rw [Real.exp_neg]
    have := Real.add_one_le_exp (1 / 2 ^ 31 : ℝ)
    refine (inv_anti₀ (by norm_num) this).trans ?_
    norm_num
  obtain ⟨x1, x2⟩ := ha.exp _ v1 (by have := ha.le_Ω; norm_num at *; linarith)
  obtain ⟨x2, x3⟩ := abs_le.1 x2
  have hη := ha.η_le
  have p1 : r.val (exp (-(2 * pi * f / 2) / q)) ≤ 1 - 1 / 2 ^ 33 := by norm_num at *; linarith
  have p2 : -(1 / 2 ^ 200) ≤ r.val (exp (-(2 * pi * f / 2) / q)) := by linarith
  exact notch_core ha x1 p1 p2 hc g

end rbj
end Iir
