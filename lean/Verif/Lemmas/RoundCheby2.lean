import Verif.Lemmas.RoundCheby

/-! # Rounding errors of the Chebyshev II low pass prototype -/

namespace Iir
open FArith Cx Exec Spec Proto

/-- The reciprocal of a point on the ellipse, in rounded numbers. -/
theorem recip_near {σ κ a b d qa qb : ℝ} (hσ : 0.0418 ≤ σ) (hκ0 : 1 ≤ κ) (hκ1 : κ ≤ 251) (ha : a ≤ -(κ ^ 2 / 8000) + 1 / 2 ^ 34)
    (h1 : σ ^ 2 - 1 / 2 ^ 24 ≤ a ^ 2 + b ^ 2) (h2 : a ^ 2 + b ^ 2 ≤ κ ^ 2 + 1 / 2 ^ 24)
    (hd : |d - (a ^ 2 + b ^ 2)| ≤ (a ^ 2 + b ^ 2) / 2 ^ 40)
    (hqa : |qa - a / d| ≤ |a / d| / 2 ^ 53 + 1 / 2 ^ 200) (hqb : |qb - b / d| ≤ |b / d| / 2 ^ 53 + 1 / 2 ^ 200) :
    qa ≤ -(1 / 2 ^ 14) ∧ 1 / 2 ^ 20 ≤ qa ^ 2 + qb ^ 2 ∧ qa ^ 2 + qb ^ 2 ≤ 2 ^ 10 := by
  have hN0 : 0.0017 ≤ a ^ 2 + b ^ 2 := by
    have := pow_le_pow_left₀ (by norm_num) hσ 2
    norm_num at this h1 ⊢
    linarith
  have hN1 : a ^ 2 + b ^ 2 ≤ 63002 := by
    have := pow_le_pow_left₀ (by linarith) hκ1 2
    norm_num at this h2 ⊢
    linarith
  have eS : (a / d) ^ 2 + (b / d) ^ 2 = (a ^ 2 + b ^ 2) / d ^ 2 := by rw [div_pow, div_pow, ← add_div]
  have hκ2 : 1 ≤ κ ^ 2 := one_le_pow₀ hκ0
  generalize hN : a ^ 2 + b ^ 2 = N at *
  rw [abs_le] at hd
  have hd0 : N * 0.9999 ≤ d := by norm_num at hd hN0 ⊢; linarith
  have hd1 : d ≤ N * 1.0001 := by norm_num at hd hN0 ⊢; linarith
  have hdp : 0 < d := by norm_num at hd0 hN0; linarith
  have q1 : a / d ≤ -(1 / 8200) := by
    rw [div_le_iff₀ hdp]
    norm_num at *
    linarith
  have q2 : qa ≤ -(1 / 2 ^ 14) := by
    rw [abs_of_nonpos (a := a / d) (by norm_num at q1; linarith), abs_le] at hqa
    norm_num at *
    linarith
  have hd2 : 0 < d ^ 2 := by positivity
  have s1 : (a / d) ^ 2 + (b / d) ^ 2 ≤ 600 := by
    rw [eS, div_le_iff₀ hd2]
    have := pow_le_pow_left₀ (by norm_num at hN0 ⊢; linarith) hd0 2
    norm_num at *
    nlinarith
  have s2 : 1 / 64000 ≤ (a / d) ^ 2 + (b / d) ^ 2 := by
    rw [eS, le_div_iff₀ hd2]
    have := pow_le_pow_left₀ hdp.le hd1 2
    norm_num at *
    nlinarith
  have hb : ∀ {x y : ℝ}, x ^ 2 + y ^ 2 ≤ 600 → |x| ≤ 2 ^ 15 := by
    intro x y h
    rw [← abs_of_pos (a := (2 : ℝ) ^ 15) (by norm_num), ← sq_le_sq]
    norm_num
    nlinarith [sq_nonneg y]
  have k1 := square_near (hb s1) hqa
  have k2 := square_near (hb (x := b / d) (y := a / d) (by linarith)) hqb
  rw [abs_le] at k1 k2
  generalize (a / d) ^ 2 = U at *
  generalize (b / d) ^ 2 = V at *
  refine ⟨q2, ?_, ?_⟩ <;> norm_num at k1 k2 s1 s2 ⊢ <;> linarith

variable {R : Type} [FArith R] {u η Ω : ℝ} {r : Rounds R u η Ω}

/-- Attenuation of the stop band: between 3 and 100 decibel. -/
abbrev Spec.Rounds.StopBand (r : Rounds R u η Ω) (x : R) : Prop := r.In x 3 100

section ops
variable (hl : r.Library)
include hl

theorem stop_eps {x : R} (h : r.StopBand x) :
    r.In (1 / FArith.sqrt (1 / (FArith.exp (x * 0.1 * ln10) - 1))) 0.98 100320 := by
  have ha := hl.toAccurate
  obtain ⟨a1, a2⟩ := decibel_near hl h.1 (In.abs h (by norm_num) (by norm_num))
  have l1 := log_ten_gt
  have l2 := log_ten_lt
  have hx := h.2
  generalize (x * 0.1 * ln10 : R) = t at *
  rw [abs_le] at a2
  have k1 : 3 * Real.log 10 ≤ r.val x * Real.log 10 := mul_le_mul_of_nonneg_right hx.1 (by linarith)
  have k2 : r.val x * Real.log 10 ≤ 100 * Real.log 10 := mul_le_mul_of_nonneg_right hx.2 (by linarith)
  have t1 : Real.log 1.99 - 1 / 2 ^ 36 ≤ r.val t := by
    have : 10 * Real.log 1.99 ≤ 3 * Real.log 10 := by
      rw [show (10 : ℝ) * Real.log 1.99 = Real.log (1.99 ^ 10) by rw [Real.log_pow]; norm_num,
        show (3 : ℝ) * Real.log 10 = Real.log (10 ^ 3) by rw [Real.log_pow]; norm_num]
      exact Real.log_le_log (by norm_num) (by norm_num)
    linarith
  have t2 : r.val t ≤ 10 * Real.log 10 + 1 / 2 ^ 36 := by linarith
  have e1 : Real.exp (r.val t) ≤ 1.0005e10 := by
    refine (Real.exp_le_exp.2 t2).trans ?_
    have e3 : Real.exp (10 * Real.log 10) = 10 ^ 10 := by
      rw [mul_comm, Real.exp_mul, Real.exp_log (by norm_num)]; norm_num
    rw [Real.exp_add, e3]
    have := exp_upper (t := 1 / 2 ^ 36) (by norm_num)
    norm_num at this ⊢
    linarith
  have e2 : 1.985 ≤ Real.exp (r.val t) := by
    refine le_trans ?_ (Real.exp_le_exp.2 t1)
    rw [sub_eq_add_neg, Real.exp_add, Real.exp_log (by norm_num)]
    have := Real.add_one_le_exp (-(1 / 2 ^ 36 : ℝ))
    norm_num at this ⊢
    linarith
  have e0 := Real.exp_pos (r.val t)
  obtain ⟨g1, g2⟩ := hl.exp t a1 (by have := hl.le_Ω; norm_num at this e1; linarith)
  have h1 : r.In (FArith.exp t) 1.98 1.001e10 :=
    In.of_near hl g1 (by rwa [abs_of_pos e0]) e2 e1 (M := 2 ^ 34) (by rw [abs_of_pos e0]; norm_num at e1 ⊢; linarith)
      (by norm_num) (by norm_num)
  have h2 : r.In (FArith.exp t - 1) 0.979 1.0011e10 := In.sub ha (2 ^ 34) h1 (In.one ha) (by norm_num) (by norm_num) (by norm_num)
    (by norm_num) (by norm_num)
  have h3 : r.In (1 / (FArith.exp t - 1)) 9.98e-11 1.0216 := In.div ha 1.0215 (In.one ha) h2 (by norm_num) (by norm_num)
    (by norm_num) (by norm_num) (by norm_num) (by norm_num) (by norm_num)
  have h4 : r.In (FArith.sqrt (1 / (FArith.exp t - 1))) 9.97e-6 1.012 :=
    In.sqrt hl (s := 9.98e-6) (t := 1.011) (M := 2) h3 (by norm_num) (by norm_num) (by norm_num) (by norm_num) (by norm_num)
      (by norm_num)
  exact In.div ha 100310 (In.one ha) h4 (by norm_num) (by norm_num) (by norm_num) (by norm_num) (by norm_num) (by norm_num)
    (by norm_num)

theorem stop_v {x : R} (h : r.StopBand x) {n : ℕ} (hn : 1 ≤ n) (h16 : n ≤ 16) {v : R}
    (hv : v = asinh (1 / FArith.sqrt (1 / (FArith.exp (x * 0.1 * ln10) - 1))) / ofI (n : ℤ)) :
    r.Fin v ∧ 0.0418 ≤ r.val v ∧ Real.exp (r.val v) ≤ 200900 ∧ (2 ≤ n → Real.exp (r.val v) ≤ 450) ∧
      (n ≤ 3 → 0.22 ≤ r.val v) ∧ (4 ≤ n → Real.exp (r.val v) ≤ 22) := by
  obtain ⟨h1, y, y1, y2, e⟩ := asinh_near hl (stop_eps hl h) (by norm_num) (by norm_num) hn h16
  rw [← hv] at h1 e
  clear hv
  have hn1 : (1 : ℝ) ≤ n := by exact_mod_cast hn
  have hn16 : (n : ℝ) ≤ 16 := by exact_mod_cast h16
  rw [abs_le] at e
  have y0 : 1.97 ≤ y := by norm_num at y1 ⊢; linarith
  have k1 : 0.67 ≤ Real.log y := by
    have h2 : Real.log 1.97 ≤ Real.log y := Real.log_le_log (by norm_num) y0
    have h3 : Real.log 1.97 = Real.log 2 + Real.log 0.985 := by
      rw [← Real.log_mul (by norm_num) (by norm_num)]; norm_num
    have h4 := Real.one_sub_inv_le_log_of_pos (x := 0.985) (by norm_num)
    have h5 := Real.log_two_gt_d9
    norm_num at h2 h3 h4 h5 ⊢
    linarith
  have k2 : 0.6699 ≤ n * r.val v := by norm_num at e k1 ⊢; linarith
  have hp : 0 < r.val v := (pos_iff_pos_of_mul_pos (a := (n : ℝ)) (b := r.val v) (by norm_num at k2; linarith)).1 (by linarith)
  have k3 : ∀ N : ℝ, n ≤ N → 0.6699 ≤ N * r.val v := fun N hN =>
    k2.trans (mul_le_mul_of_nonneg_right hN hp.le)
  have k4 : ∀ N : ℕ, N ≤ n → Real.exp (r.val v) ^ N ≤ 200900 := by
    intro N hN
    rw [← Real.exp_nat_mul]
    have hN' : (N : ℝ) ≤ n := by exact_mod_cast hN
    have := mul_le_mul_of_nonneg_right hN' hp.le
    refine (exp_log_near (y := y) (by linarith) (by linarith)).trans ?_
    norm_num at y2 ⊢
    linarith
  have h0 := (Real.exp_pos (r.val v)).le
  refine ⟨h1, ?_, ?_, fun h2 => ?_, fun h3 => ?_, fun h4 => ?_⟩
  · have := k3 16 hn16
    norm_num at this ⊢
    linarith
  · have := k4 1 hn
    rwa [pow_one] at this
  · exact (pow_le_pow_iff_left₀ h0 (by norm_num) (by norm_num : 2 ≠ 0)).1 ((k4 2 h2).trans (by norm_num))
  · have := k3 3 (by exact_mod_cast h3)
    norm_num at this ⊢
    linarith
  · exact (pow_le_pow_iff_left₀ h0 (by norm_num) (by norm_num : 4 ≠ 0)).1 ((k4 4 h4).trans (by norm_num))

omit [FArith R] hl in
/-- The distance from the imaginary axis. -/
theorem tanh_lower {V c : ℝ} {n : ℕ} (hn : 2 ≤ n) (h16 : n ≤ 16) (h0 : 0.0418 ≤ V) (h2 : Real.exp V ≤ 450)
    (h3 : n ≤ 3 → 0.22 ≤ V) (h4 : 4 ≤ n → Real.exp V ≤ 22) (hc : 1 / (n : ℝ) - 1 / 2 ^ 39 ≤ c) :
    Real.cosh V ^ 2 / 8000 ≤ Real.sinh V * c := by
  have hV0 : 0 ≤ V := by norm_num at h0; linarith
  have hs : V ≤ Real.sinh V := Real.self_le_sinh_iff.2 hV0
  have hk : Real.cosh V ^ 2 = Real.sinh V ^ 2 + 1 := Real.cosh_sq _
  have hk1 := Real.one_le_cosh V
  have hle : Real.cosh V ≤ (Real.exp V + 1) / 2 := by
    have h2 : Real.exp (-V) ≤ 1 := Real.exp_le_one_iff.2 (by linarith)
    rw [Real.cosh_eq]; linarith
  have key : ∀ {s0 τ K C : ℝ}, s0 ≤ Real.sinh V → 0 ≤ s0 → 0 < τ → τ < 1 → τ ^ 2 ≤ s0 ^ 2 * (1 - τ ^ 2) →
      Real.cosh V ≤ K → 0 ≤ C → C ≤ c → K / 8000 ≤ τ * C → Real.cosh V ^ 2 / 8000 ≤ Real.sinh V * c := by
    intro s0 τ K C g1 g0 g2 g3 g4 g5 g6 g7 g8
    have e1 : τ * Real.cosh V ≤ Real.sinh V := by
      refine abs_le_of_sq_le_sq' ?_ (g0.trans g1) |>.2
      rw [mul_pow, hk]
      have : s0 ^ 2 ≤ Real.sinh V ^ 2 := pow_le_pow_left₀ g0 g1 2
      have h5 : s0 ^ 2 * (1 - τ ^ 2) ≤ Real.sinh V ^ 2 * (1 - τ ^ 2) := mul_le_mul_of_nonneg_right this (by nlinarith)
      linarith
    calc Real.cosh V ^ 2 / 8000 = Real.cosh V * (Real.cosh V / 8000) := by ring
      _ ≤ Real.cosh V * (τ * C) := mul_le_mul_of_nonneg_left (by linarith) (by linarith)
      _ = τ * Real.cosh V * C := by ring
      _ ≤ Real.sinh V * c := mul_le_mul e1 g7 g6 (g0.trans g1)
  by_cases h : n ≤ 3
  · have hc' : 0.33 ≤ c := by
      refine le_trans ?_ hc
      have := one_div_le (n := n) (by omega) (N := 3) (by exact_mod_cast h)
      norm_num at this ⊢
      linarith
    exact key (s0 := 0.22) (τ := 0.21) (K := 226) (C := 0.33) ((h3 h).trans hs) (by norm_num) (by norm_num) (by norm_num)
      (by norm_num) (by linarith) (by norm_num) hc' (by norm_num)
  · have hc' : 0.06 ≤ c := by
      refine le_trans ?_ hc
      have := one_div_le (n := n) (by omega) (N := 16) (by exact_mod_cast h16)
      norm_num at this ⊢
      linarith
    have := h4 (by omega)
    exact key (s0 := 0.0418) (τ := 0.041) (K := 11.5) (C := 0.06) (h0.trans hs) (by norm_num) (by norm_num) (by norm_num)
      (by norm_num) (by norm_num; linarith) (by norm_num) hc' (by norm_num)

theorem cheby2_pole {v A : R} (hv : r.Fin v) (hA : r.Fin A) (h0 : 0.0418 ≤ r.val v) (h1 : Real.exp (r.val v) ≤ 450)
    (hc : Real.cosh (r.val v) ^ 2 / 8000 ≤ Real.sinh (r.val v) * Real.cos (r.val A)) {a b : R}
    (hae : a = -FArith.sinh v * FArith.cos A) (hbe : b = FArith.cosh v * FArith.sin A) :
    r.APole ⟨a / (a * a + b * b), b / (a * a + b * b)⟩ := by
  have hv0 : 0 ≤ r.val v := by norm_num at h0; linarith
  obtain ⟨⟨a1, a2⟩, b1, b2⟩ := ellipse_near hl hv hA hv0 (by linarith)
  rw [← hae] at a1 a2
  rw [← hbe] at b1 b2
  obtain ⟨s0, s1, c0, c1⟩ := sinh_cosh_le hv0 (by linarith)
  have hk : Real.cosh (r.val v) ^ 2 = Real.sinh (r.val v) ^ 2 + 1 := Real.cosh_sq _
  obtain ⟨k1, k2⟩ := ellipse_bounds s0 s1 hk c0 c1 (Real.cos_sq_add_sin_sq (r.val A)) a2 b2
  have hs : 0.0418 ≤ Real.sinh (r.val v) := h0.trans (Real.self_le_sinh_iff.2 hv0)
  have hκ2 := pow_le_pow_left₀ (by linarith) c1 2
  have hσ2 := pow_le_pow_left₀ (by norm_num) hs 2
  have haa := sq_nonneg (r.val a)
  have hbb := sq_nonneg (r.val b)
  have hN : r.val a ^ 2 + r.val b ^ 2 ≤ 63002 := by norm_num at k2 hκ2 ⊢; linarith
  have hN0 : 0.0017 ≤ r.val a ^ 2 + r.val b ^ 2 := by norm_num at k1 hσ2 ⊢; linarith
  obtain ⟨m1, m2⟩ := raw_mul hl.toAccurate a1 a1 (M := r.val a ^ 2)
    (by rw [← sq, abs_of_nonneg haa]) (by norm_num at hN ⊢; linarith)
  obtain ⟨m3, m4⟩ := raw_mul hl.toAccurate b1 b1 (M := r.val b ^ 2)
    (by rw [← sq, abs_of_nonneg hbb]) (by norm_num at hN ⊢; linarith)
  rw [← sq, abs_le] at m2 m4
  have hM : |r.val (a * a) + r.val (b * b)| ≤ (r.val a ^ 2 + r.val b ^ 2) * 2 := by
    rw [abs_le]
    norm_num at m2 m4 hN0 ⊢
    exact ⟨by linarith, by linarith⟩
  obtain ⟨d1, d2⟩ := raw_add hl.toAccurate m1 m3 hM (by norm_num at hN ⊢; linarith)
  generalize (a * a + b * b : R) = d at *
  have hd : |r.val d - (r.val a ^ 2 + r.val b ^ 2)| ≤ (r.val a ^ 2 + r.val b ^ 2) / 2 ^ 40 := by
    rw [abs_le] at d2 ⊢
    norm_num at m2 m4 d2 hN0 ⊢
    exact ⟨by linarith, by linarith⟩
  have hdp : 0 < r.val d := by
    rw [abs_le] at hd
    norm_num at hd hN0
    linarith
  have ha' : r.val a ≤ -(Real.cosh (r.val v) ^ 2 / 8000) + 1 / 2 ^ 34 := by
    rw [abs_le] at a2
    linarith
  have quot : ∀ {x : R}, r.Fin x → r.val x ^ 2 ≤ 63002 → r.Fin (x / d) ∧
      |r.val (x / d) - r.val x / r.val d| ≤ |r.val x / r.val d| / 2 ^ 53 + 1 / 2 ^ 200 := by
    intro x hx hx2
    refine raw_div hl.toAccurate hx d1 hdp.ne' le_rfl ?_
    have hx3 : |r.val x| ≤ 256 := by
      rw [← abs_of_pos (a := (256 : ℝ)) (by norm_num), ← sq_le_sq]; norm_num; linarith
    rw [abs_div, abs_of_pos hdp, div_le_iff₀ hdp]
    have hd3 : 0.001 ≤ r.val d := by
      rw [abs_le] at hd
      norm_num at hd hN0 ⊢
      linarith
    norm_num at hd3 ⊢
    linarith
  obtain ⟨f1, g1⟩ := quot a1 (by linarith)
  obtain ⟨f2, g2⟩ := quot b1 (by linarith)
  obtain ⟨z1, z2, z3⟩ := recip_near hs c0 c1 ha' k1 k2 hd g1 g2
  exact ⟨⟨f1, f2⟩, z1, z2, z3⟩

theorem cheby2_zero {n : ℕ} (hn : 1 ≤ n) (h16 : n ≤ 16) {j : ℤ} (hj : |j| + 1 ≤ n) {A : R}
    (a1 : r.Fin A) (a2 : |r.val A - j * Real.pi / (2 * n)| ≤ 1 / 2 ^ 39) :
    r.AZero ⟨0, 1 / FArith.cos A⟩ := by
  have hc := le_trans (sub_le_sub_right (one_div_le hn (N := 16) (by exact_mod_cast h16)) _) (cos_lower hn hj a2)
  obtain ⟨c1, c2⟩ := hl.cos A a1
  have h1 : r.In (FArith.cos A) 0.0624 1.001 :=
    In.of_near hl c1 c2 hc (Real.cos_le_one (r.val A)) (M := 1) (Real.abs_cos_le_one _) (by norm_num) (by norm_num)
  have h2 : r.In (1 / FArith.cos A) 0.99 32 := In.div hl.toAccurate 20 (In.one hl.toAccurate) h1 (by norm_num) (by norm_num)
    (by norm_num) (by norm_num) (by norm_num) (by norm_num) (by norm_num)
  have h3 : 0 ≤ r.val (1 / FArith.cos A) := le_trans (by norm_num) h2.2.1
  refine .inr ⟨⟨r.zero.1, h2.1⟩, r.zero.2, ?_, ?_⟩
  · rw [abs_of_nonneg h3]
    exact le_trans (by norm_num) h2.2.1
  · rw [abs_of_nonneg h3]
    exact h2.2.2

theorem ChebyshevII.analog {n L : ℕ} (hn : 1 ≤ n) (h16 : n ≤ 16) (hL : (n + 1) / 2 ≤ L) {x : R} (hx : r.StopBand x) :
    Done (fun l => l.pairs.length = L ∧ (r.Fin l.normalW ∧ r.val l.normalW = 0) ∧ r.In l.normalGain (-2) 2)
      (ChebyshevII.lowPassBuild (n : ℤ) x) (Layout.Analog r n L) := by
  obtain ⟨v, hv⟩ : ∃ v : R, v = asinh (1 / FArith.sqrt (1 / (FArith.exp (x * 0.1 * ln10) - 1))) / ofI (n : ℤ) := ⟨_, rfl⟩
  obtain ⟨v1, v2, v3, v4, v5, v6⟩ := stop_v hl hx hn h16 hv
  unfold ChebyshevII.lowPassBuild
  refine Trip.bind (Q := fun _ => Layout.Analog r 0 L)
    (holds_reset (W := fun w g => (r.Fin w ∧ r.val w = 0) ∧ r.In g (-2) 2)) fun _ =>
    Done.intChecked_ok (by omega) ?_
  simp only [tdiv_two, int_odd, ← hv]
  refine holds_build hL (fun i hi => ?_) ?_
  · have hj : |(2 * (i : ℤ) + 1 - n)| + 1 ≤ n := by
      rw [abs_of_nonpos (by omega)]; omega
    have hj' : |(2 * (i : ℤ) + 1)| + 1 ≤ n := by
      rw [abs_of_nonneg (by omega)]; omega
    obtain ⟨a1, a2⟩ := angle_near' hl hn h16 (j := 2 * (i : ℤ) + 1 - n) (by omega)
    obtain ⟨b1, b2⟩ := angle_near' hl hn h16 (j := 2 * (i : ℤ) + 1) (by omega)
    have hc := tanh_lower (by omega) h16 v2 (v4 (by omega)) v5 v6 (cos_lower hn hj a2)
    have h1 := cheby2_pole hl v1 a1 v2 (v4 (by omega)) hc rfl rfl
    have h2 := cheby2_zero hl hn h16 hj' b1 b2
    refine ⟨_, _, rfl, not_nan_of_fin hl h1.fin, ?_, h1, h2⟩
    rcases h2 with h2 | h2
    · rw [h2]; exact infinity_not_nan hl
    · exact not_nan_of_fin hl h2.1
  · by_cases h : n % 2 = 1
    · simp only [h, decide_true, if_true]
      have h2 := In.neg hl.toAccurate (sinh_real hl v1 (lo := 0.0418) (hi := 100450) (by norm_num) v2
        (v3.trans (by norm_num)) (by norm_num))
      have h4 : r.In (1 / -FArith.sinh v) (-25) (-(1 / 2 ^ 20)) := by
        have one := In.one hl.toAccurate (r := r)
        have v1 : r.val (1 : R) = 1 := le_antisymm one.2.2 one.2.1
        obtain ⟨g1, g2, g3⟩ := h2
        generalize (-FArith.sinh v : R) = y at *
        have y0 : r.val y < 0 := by norm_num at g3; linarith
        have q0 : -24 ≤ 1 / r.val y := by
          rw [le_div_iff_of_neg y0]; norm_num at g3 ⊢; linarith
        have q1 : 1 / r.val y ≤ -(1 / 2 ^ 19) := by
          rw [div_le_iff_of_neg y0]; norm_num at g2 ⊢; linarith
        have q2 : 1 / r.val y ≤ 0 := q1.trans (by norm_num)
        obtain ⟨f1, f2⟩ := raw_div hl.toAccurate one.1 g1 y0.ne (M := 24) (by
          rw [v1, abs_of_nonpos q2]; linarith) (by norm_num)
        rw [v1, abs_le] at f2
        refine ⟨f1, ?_, ?_⟩ <;> norm_num at f2 q0 q1 ⊢ <;> linarith
      have hfin : r.CFin (ofR (1 / -FArith.sinh v) : Cx R) := ⟨h4.1, r.zero.1⟩
      have := holds_add (D := fun _ p z => r.APole p ∧ r.AZero z) (S := fun p z => r.AReal p ∧ z = Cx.infinity)
        (W := fun w g => (r.Fin w ∧ r.val w = 0) ∧ r.In g (-2) 2)
        (m := 2 * (n / 2)) (L := L) (p := ofR (1 / -FArith.sinh v)) (z := Cx.infinity) (feq_zero hl) (not_nan_of_fin hl hfin)
        (infinity_not_nan hl) (feq_zero hl) (feq_zero hl)
        ⟨⟨hfin, r.zero.2, h4.2.2, le_trans (by norm_num) h4.2.1⟩, rfl⟩
        (by omega) (by omega)
      rwa [show 2 * (n / 2) + 1 = n by omega] at this
    · simp only [h, decide_false, Bool.false_eq_true, if_false]
      refine Trip.pure fun s hs => ?_
      rwa [show 2 * (n / 2) = n by omega] at hs

end ops

end Iir
