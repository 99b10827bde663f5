import Verif.Lemmas.RoundRBJ
import Mathlib.Analysis.SpecialFunctions.Trigonometric.DerivHyp

/-! # Rounding errors in the RBJ shelves -/

namespace Iir
open FArith Spec Exec

variable {R : Type} [FArith R] {u η Ω : ℝ} {r : Rounds R u η Ω} {x y : R}

/-- The Jury inequalities of a shelf, all roundings included. -/
theorem shelf_jury {A p m c t x v y s a0 a1 a2 e : ℝ} (hA : 1 / 32 ≤ A) (hA' : A ≤ 32) (hc : |c| ≤ 1 - 1 / 2 ^ 40)
    (hs : 1 / 2 ^ 24 ≤ s) (he : e = (A + 1) / 2 ^ 50)
    (hp : |p - (A + 1)| ≤ e) (hm : |m - (A - 1)| ≤ e) (ht : |t - m * c| ≤ e) (hx : |x - (p + t)| ≤ e)
    (hv : |v - p * c| ≤ e) (hy : |y - (m + v)| ≤ e) (h0 : |a0 - (x + s)| ≤ 2 * e) (h2 : |a2 - (x - s)| ≤ 2 * e)
    (h1 : |a1 - -2 * y| ≤ e) :
    36 * (A + 1) / 2 ^ 53 ≤ a0 + a1 + a2 ∧ 36 * (A + 1) / 2 ^ 53 ≤ a0 - a1 + a2 ∧ 36 * (A + 1) / 2 ^ 53 ≤ a0 - a2 ∧
      1 / 2 ^ 20 ≤ a0 := by
  obtain ⟨c1, c2⟩ := abs_le.1 hc
  obtain ⟨p1, p2⟩ := abs_le.1 hp
  obtain ⟨m1, m2⟩ := abs_le.1 hm
  obtain ⟨t1, t2⟩ := abs_le.1 ht
  obtain ⟨x1, x2⟩ := abs_le.1 hx
  obtain ⟨v1, v2⟩ := abs_le.1 hv
  obtain ⟨y1, y2⟩ := abs_le.1 hy
  obtain ⟨d1, d2⟩ := abs_le.1 h0
  obtain ⟨d3, d4⟩ := abs_le.1 h2
  obtain ⟨d5, d6⟩ := abs_le.1 h1
  have e1 : 19 / 10 * (1 / 2 ^ 40) ≤ (p - m) * (1 - c) :=
    mul_le_mul (by norm_num at *; linarith) (by linarith) (by norm_num) (by norm_num at *; linarith)
  have e2 : 19 / 10 * A * (1 / 2 ^ 40) ≤ (p + m) * (1 + c) :=
    mul_le_mul (by norm_num at *; linarith) (by linarith) (by norm_num) (by norm_num at *; linarith)
  have e3 : |m * c| ≤ |m| := by
    rw [abs_mul]
    exact mul_le_of_le_one_right (abs_nonneg _) (hc.trans (by norm_num))
  have e4 : |m| ≤ A + 1 - 1 / 17 := abs_le.2 ⟨by norm_num at *; linarith, by norm_num at *; linarith⟩
  obtain ⟨e5, -⟩ := abs_le.1 (e3.trans e4)
  have e6 : (p - m) * (1 - c) = p - m - p * c + m * c := by ring
  have e7 : (p + m) * (1 + c) = p + m + p * c + m * c := by ring
  rw [e6] at e1
  rw [e7] at e2
  clear hc hp hm ht hx hv hy h0 h2 h1 e6 e7 e3 e4
  generalize p * c = pc at *
  generalize m * c = mc at *
  norm_num at *
  refine ⟨?_, ?_, ?_, ?_⟩ <;> linarith

section shelf
variable (ha : r.Accurate)
include ha

/-- A sum rounded: error and magnitude relative to `P ≥ 1`. -/
theorem rel_add {P a b k : ℝ} (hP : 1 ≤ P) (hP' : P ≤ 64) (hk : k ≤ 15) (hx : r.Fin x) (hy : r.Fin y) (h1 : |r.val x| ≤ a * P)
    (h2 : |r.val y| ≤ b * P) (h : a + b ≤ k) :
    r.Fin (x + y) ∧ |r.val (x + y) - (r.val x + r.val y)| ≤ (k + 1) * P / 2 ^ 53 ∧ |r.val (x + y)| ≤ (k + 1 / 100) * P := by
  have e0 := abs_add_le (r.val x) (r.val y)
  have e1 : |r.val x + r.val y| ≤ k * P := by nlinarith
  obtain ⟨h3, h4⟩ := raw_add ha hx hy e1 (by norm_num at *; nlinarith)
  have e2 : k * P / 2 ^ 53 + 1 / 2 ^ 200 ≤ (k + 1) * P / 2 ^ 53 := by norm_num at *; nlinarith
  refine ⟨h3, h4.trans e2, ?_⟩
  have e3 := abs_add_le (r.val (x + y) - (r.val x + r.val y)) (r.val x + r.val y)
  rw [sub_add_cancel] at e3
  have e4 : (k + 1) * P / 2 ^ 53 ≤ 1 / 100 * P := by norm_num at *; nlinarith
  nlinarith

theorem rel_sub {P a b k : ℝ} (hP : 1 ≤ P) (hP' : P ≤ 64) (hk : k ≤ 15) (hx : r.Fin x) (hy : r.Fin y) (h1 : |r.val x| ≤ a * P)
    (h2 : |r.val y| ≤ b * P) (h : a + b ≤ k) :
    r.Fin (x - y) ∧ |r.val (x - y) - (r.val x - r.val y)| ≤ (k + 1) * P / 2 ^ 53 ∧ |r.val (x - y)| ≤ (k + 1 / 100) * P := by
  have e0 := abs_sub (r.val x) (r.val y)
  have e1 : |r.val x - r.val y| ≤ k * P := by nlinarith
  obtain ⟨h3, h4⟩ := raw_sub ha hx hy e1 (by norm_num at *; nlinarith)
  have e2 : k * P / 2 ^ 53 + 1 / 2 ^ 200 ≤ (k + 1) * P / 2 ^ 53 := by norm_num at *; nlinarith
  refine ⟨h3, h4.trans e2, ?_⟩
  have e3 := abs_add_le (r.val (x - y) - (r.val x - r.val y)) (r.val x - r.val y)
  rw [sub_add_cancel] at e3
  have e4 : (k + 1) * P / 2 ^ 53 ≤ 1 / 100 * P := by norm_num at *; nlinarith
  nlinarith

theorem rel_mul {P a b k : ℝ} (hP : 1 ≤ P) (hP' : P ≤ 64) (hk : k ≤ 15) (hx : r.Fin x) (hy : r.Fin y) (h1 : |r.val x| ≤ a * P)
    (h2 : |r.val y| ≤ b) (h : a * b ≤ k) :
    r.Fin (x * y) ∧ |r.val (x * y) - (r.val x * r.val y)| ≤ (k + 1) * P / 2 ^ 53 ∧ |r.val (x * y)| ≤ (k + 1 / 100) * P := by
  have e1 : |r.val x * r.val y| ≤ k * P := by
    rw [abs_mul]
    calc _ ≤ a * P * b := mul_le_mul h1 h2 (abs_nonneg _) ((abs_nonneg _).trans h1)
      _ = a * b * P := by ring
      _ ≤ _ := mul_le_mul_of_nonneg_right h (by linarith)
  obtain ⟨h3, h4⟩ := raw_mul ha hx hy e1 (by norm_num at *; nlinarith)
  have e2 : k * P / 2 ^ 53 + 1 / 2 ^ 200 ≤ (k + 1) * P / 2 ^ 53 := by norm_num at *; nlinarith
  refine ⟨h3, h4.trans e2, ?_⟩
  have e3 := abs_add_le (r.val (x * y) - (r.val x * r.val y)) (r.val x * r.val y)
  rw [sub_add_cancel] at e3
  have e4 : (k + 1) * P / 2 ^ 53 ≤ 1 / 100 * P := by norm_num at *; nlinarith
  nlinarith

theorem rel_mul' {P a b k : ℝ} (hP : 1 ≤ P) (hP' : P ≤ 64) (hk : k ≤ 15) (hx : r.Fin x) (hy : r.Fin y) (h1 : |r.val y| ≤ a * P)
    (h2 : |r.val x| ≤ b) (h : a * b ≤ k) :
    r.Fin (x * y) ∧ |r.val (x * y) - (r.val x * r.val y)| ≤ (k + 1) * P / 2 ^ 53 ∧ |r.val (x * y)| ≤ (k + 1 / 100) * P := by
  have e1 : |r.val x * r.val y| ≤ k * P := by
    rw [abs_mul, mul_comm]
    calc _ ≤ a * P * b := mul_le_mul h1 h2 (abs_nonneg _) ((abs_nonneg _).trans h1)
      _ = a * b * P := by ring
      _ ≤ _ := mul_le_mul_of_nonneg_right h (by linarith)
  obtain ⟨h3, h4⟩ := raw_mul ha hx hy e1 (by norm_num at *; nlinarith)
  have e2 : k * P / 2 ^ 53 + 1 / 2 ^ 200 ≤ (k + 1) * P / 2 ^ 53 := by norm_num at *; nlinarith
  refine ⟨h3, h4.trans e2, ?_⟩
  have e3 := abs_add_le (r.val (x * y) - (r.val x * r.val y)) (r.val x * r.val y)
  rw [sub_add_cancel] at e3
  have e4 : (k + 1) * P / 2 ^ 53 ≤ 1 / 100 * P := by norm_num at *; nlinarith
  nlinarith

/-- The denominators of the two shelves. -/
theorem shelf_core {A c s b0 b1 b2 : R} (hA : r.In A (1 / 32) 32) (hc : r.In c (-(1 - 1 / 2 ^ 40)) (1 - 1 / 2 ^ 40))
    (hs : r.Fin s) (hs1 : 1 / 2 ^ 24 ≤ r.val s) (hs2 : r.val s ≤ 9 * (r.val A + 1)) (hb0 : r.In b0 (-(2 ^ 30)) (2 ^ 30))
    (hb1 : r.In b1 (-(2 ^ 30)) (2 ^ 30)) (hb2 : r.In b2 (-(2 ^ 30)) (2 ^ 30)) (g : Biquad R) :
    (∃ g' k, Biquad.setCoefficients ((A + 1) + (A - 1) * c + s) (-2 * ((A - 1) + (A + 1) * c)) ((A + 1) + (A - 1) * c - s) b0 b1 b2 g
      = (.ok (), g') ∧ r.Values g' k ∧ k.Stable) ∧
    (∃ g' k, Biquad.setCoefficients ((A + 1) - (A - 1) * c + s) (2 * ((A - 1) - (A + 1) * c)) ((A + 1) - (A - 1) * c - s) b0 b1 b2 g
      = (.ok (), g') ∧ r.Values g' k ∧ k.Stable) := by
  have i1 := In.one ha
  have v1 : r.val (1 : R) = 1 := le_antisymm i1.2.2 i1.2.1
  have i2 := In.two ha
  have v2 : r.val (2 : R) = 2 := le_antisymm i2.2.2 i2.2.1
  have hm2 := In.neg ha (In.two ha)
  have v2' : r.val (-2 : R) = -2 := le_antisymm hm2.2.2 hm2.2.1
  obtain ⟨A0, A1, A2⟩ := hA
  have hP : 1 ≤ r.val A + 1 := by linarith
  have hP' : r.val A + 1 ≤ 64 := by linarith
  have hcabs : |r.val c| ≤ 1 - 1 / 2 ^ 40 := abs_le.2 hc.2
  have hc1 : |r.val c| ≤ 1 := hcabs.trans (by norm_num)
  obtain ⟨p0, p1⟩ := raw_add ha A0 i1.1 (M := r.val A + 1) (by rw [v1, abs_of_pos (by linarith)]) (by norm_num; linarith)
  obtain ⟨m0, m1⟩ := raw_sub ha A0 i1.1 (M := r.val A + 1) (by rw [v1]; exact abs_le.2 ⟨by linarith, by linarith⟩) (by norm_num; linarith)
  rw [v1] at p1 m1
  have hsm : ∀ k : ℝ, (r.val A + 1) / 2 ^ 53 + 1 / 2 ^ 200 ≤ (r.val A + 1) / 2 ^ 50 := fun k => by norm_num; linarith
  have pa : |r.val (A + 1)| ≤ 101 / 100 * (r.val A + 1) := by
    obtain ⟨p1, p2⟩ := abs_le.1 p1
    exact abs_le.2 ⟨by norm_num at *; linarith, by norm_num at *; linarith⟩
  have ma : |r.val (A - 1)| ≤ 101 / 100 * (r.val A + 1) := by
    obtain ⟨p1, p2⟩ := abs_le.1 m1
    exact abs_le.2 ⟨by norm_num at *; linarith, by norm_num at *; linarith⟩
  have sa : |r.val s| ≤ 9 * (r.val A + 1) := by
    rw [abs_of_pos (lt_of_lt_of_le (by norm_num) hs1)]; exact hs2
  have p1' := p1.trans (hsm 0)
  have m1' := m1.trans (hsm 0)
  obtain ⟨t0, t1, ta⟩ := rel_mul ha (k := 102 / 100) hP hP' (by norm_num) m0 hc.1 ma hc1 (by norm_num)
  obtain ⟨w0, w1, wa⟩ := rel_mul ha (k := 102 / 100) hP hP' (by norm_num) p0 hc.1 pa hc1 (by norm_num)
  have bnd : ∀ {k z : ℝ}, k ≤ 7 → |z| ≤ (k + 1) * (r.val A + 1) / 2 ^ 53 → |z| ≤ (r.val A + 1) / 2 ^ 50 := by
    intro k z hk hz
    refine hz.trans ?_
    norm_num
    nlinarith
  have bnd2 : ∀ {k z : ℝ}, k ≤ 15 → |z| ≤ (k + 1) * (r.val A + 1) / 2 ^ 53 → |z| ≤ 2 * ((r.val A + 1) / 2 ^ 50) := by
    intro k z hk hz
    refine hz.trans ?_
    norm_num
    nlinarith
  have hle : ∀ {z : R}, |r.val z| ≤ 12 * (r.val A + 1) → r.Fin z → r.In z (-(12 * (r.val A + 1))) (12 * (r.val A + 1)) :=
    fun h h' => In.of_abs h' h
  have wk : ∀ {z k : ℝ}, k ≤ 12 → |z| ≤ k * (r.val A + 1) → |z| ≤ 12 * (r.val A + 1) := fun hk h =>
    h.trans (mul_le_mul_of_nonneg_right hk (by linarith))
  constructor
  · obtain ⟨x0, x1, xa⟩ := rel_add ha (k := 21 / 10) hP hP' (by norm_num) p0 t0 pa ta (by norm_num)
    obtain ⟨y0, y1, ya⟩ := rel_add ha (k := 21 / 10) hP hP' (by norm_num) m0 w0 ma wa (by norm_num)
    obtain ⟨a0, a1, aa⟩ := rel_add ha (k := 115 / 10) hP hP' (by norm_num) x0 hs xa sa (by norm_num)
    obtain ⟨d0, d1, da⟩ := rel_sub ha (k := 115 / 10) hP hP' (by norm_num) x0 hs xa sa (by norm_num)
    obtain ⟨e0, e1, ea⟩ := rel_mul' ha (k := 5) hP hP' (by norm_num) hm2.1 y0 ya (b := 2) (by rw [v2']; norm_num) (by norm_num)
    rw [v2'] at e1
    obtain ⟨j1, j2, j3, j4⟩ := shelf_jury A1 A2 hcabs hs1 rfl p1' m1' (bnd (by norm_num) t1) (bnd (by norm_num) x1)
      (bnd (by norm_num) w1) (bnd (by norm_num) y1) (bnd2 (by norm_num) a1) (bnd2 (by norm_num) d1) (bnd (by norm_num) e1)
    exact stored_stable ha g (P := 12 * (r.val A + 1)) (m := 36 * (r.val A + 1) / 2 ^ 53) a0 (hle (wk (by norm_num) ea) e0)
      (hle (wk (by norm_num) da) d0) hb0 hb1 hb2 (by linarith) (by norm_num; linarith) j4
      ((le_abs_self _).trans (wk (by norm_num) aa)) (by rw [← mul_assoc]; norm_num) j1 j2 j3
  · obtain ⟨x0, x1, xa⟩ := rel_sub ha (k := 21 / 10) hP hP' (by norm_num) p0 t0 pa ta (by norm_num)
    obtain ⟨y0, y1, ya⟩ := rel_sub ha (k := 21 / 10) hP hP' (by norm_num) m0 w0 ma wa (by norm_num)
    obtain ⟨a0, a1, aa⟩ := rel_add ha (k := 115 / 10) hP hP' (by norm_num) x0 hs xa sa (by norm_num)
    obtain ⟨d0, d1, da⟩ := rel_sub ha (k := 115 / 10) hP hP' (by norm_num) x0 hs xa sa (by norm_num)
    obtain ⟨e0, e1, ea⟩ := rel_mul' ha (k := 5) hP hP' (by norm_num) i2.1 y0 ya (b := 2) (by rw [v2]; norm_num) (by norm_num)
    rw [v2] at e1
    have flip : ∀ {z w e : ℝ}, |z - w| ≤ e → |-z - -w| ≤ e := fun {z w e} h => by
      rw [show -z - -w = -(z - w) by ring, abs_neg]; exact h
    have t1' := flip (bnd (by norm_num) t1)
    have w1' := flip (bnd (by norm_num) w1)
    have e1' := flip (bnd (by norm_num) e1)
    rw [← mul_neg] at t1' w1'
    rw [show -(2 * r.val (A - 1 - (A + 1) * c)) = -2 * r.val (A - 1 - (A + 1) * c) by ring] at e1'
    have x1' := bnd (by norm_num) x1
    have y1' := bnd (by norm_num) y1
    rw [sub_eq_add_neg (r.val (A + 1))] at x1'
    rw [sub_eq_add_neg (r.val (A - 1))] at y1'
    obtain ⟨j1, j2, j3, j4⟩ := shelf_jury A1 A2 (c := -r.val c) (by rw [abs_neg]; exact hcabs) hs1 rfl p1' m1' t1' x1'
      w1' y1' (bnd2 (by norm_num) a1) (bnd2 (by norm_num) d1) e1'
    exact stored_stable ha g (P := 12 * (r.val A + 1)) (m := 36 * (r.val A + 1) / 2 ^ 53) a0 (hle (wk (by norm_num) ea) e0)
      (hle (wk (by norm_num) da) d0) hb0 hb1 hb2 (by linarith) (by norm_num; linarith) j4
      ((le_abs_self _).trans (wk (by norm_num) aa)) (by rw [← mul_assoc]; norm_num) (by linarith) (by linarith) j3

/-- `A = pow (10, gainDb / 40)`, up to 60 dB -/
theorem in_A {g : R} (hg : r.Fin g) (h : |r.val g| ≤ 60) : r.In (pow 10 (g / 40)) (1 / 32) 32 := by
  obtain ⟨g1, g2⟩ := abs_le.1 h
  have i40 := In.lit ha (r := r) 40 (by norm_num)
  have v40 : r.val (40 : R) = 40 := by
    have := le_antisymm i40.2.2 i40.2.1
    simpa using this
  have i10 := In.lit ha (r := r) 10 (by norm_num)
  have v10 : r.val (10 : R) = 10 := by
    have := le_antisymm i10.2.2 i10.2.1
    simpa using this
  obtain ⟨d0, d1⟩ := raw_div ha hg i40.1 (by rw [show r.val (OfNat.ofNat 40 : R) = 40 from v40]; norm_num) (M := 2)
    (by rw [show r.val (OfNat.ofNat 40 : R) = 40 from v40]; exact abs_le.2 ⟨by linarith, by linarith⟩) (by norm_num)
  rw [show r.val (OfNat.ofNat 40 : R) = 40 from v40] at d1
  change |r.val (g / 40) - _| ≤ _ at d1
  change r.Fin (g / 40) at d0
  obtain ⟨d1, d2⟩ := abs_le.1 d1
  have y1 : -(188 / 125) ≤ r.val (g / 40) := by norm_num at *; linarith
  have y2 : r.val (g / 40) ≤ 188 / 125 := by norm_num at *; linarith
  have top : (10 : ℝ) ^ (188 / 125 : ℝ) ≤ 3195 / 100 := by
    have e : (10 : ℝ) ^ (188 / 125 : ℝ) = ((10 : ℝ) ^ 188) ^ (1 / 125 : ℝ) := by
      rw [← Real.rpow_natCast, ← Real.rpow_mul (by norm_num)]; norm_num
    have e' : (3195 / 100 : ℝ) = ((3195 / 100 : ℝ) ^ 125) ^ (1 / 125 : ℝ) := by
      rw [← Real.rpow_natCast, ← Real.rpow_mul (by norm_num)]; norm_num
    rw [e, e']
    exact Real.rpow_le_rpow (by positivity) (by norm_num) (by norm_num)
  have z1 : (10 : ℝ) ^ r.val (g / 40) ≤ 3195 / 100 :=
    (Real.rpow_le_rpow_of_exponent_le (by norm_num) y2).trans top
  have z2 : 100 / 3195 ≤ (10 : ℝ) ^ r.val (g / 40) := by
    refine le_trans ?_ (Real.rpow_le_rpow_of_exponent_le (by norm_num) y1)
    rw [Real.rpow_neg (by norm_num), show (100 / 3195 : ℝ) = (3195 / 100)⁻¹ by norm_num]
    exact inv_anti₀ (Real.rpow_pos_of_pos (by norm_num) _) top
  obtain ⟨w0, w1⟩ := ha.pow (10 : R) (g / 40) i10.1 d0 (by rw [v10]; norm_num) (by rw [v10]; have := ha.le_Ω; norm_num at *; linarith)
  rw [v10] at w1
  obtain ⟨w1, w2⟩ := abs_le.1 w1
  have := ha.η_le
  generalize (10 : ℝ) ^ r.val (g / 40) = t at *
  exact ⟨w0, by norm_num at *; linarith, by norm_num at *; linarith⟩

omit ha in
/-- the radicand, and the bound of `sq` -/
theorem rad_bound {A iA sA iS dS pr rad : ℝ} (hA : 1 / 32 ≤ A) (hA' : A ≤ 32) (h1 : |iA - 1 / A| ≤ 1 / 2 ^ 47)
    (h2 : |sA - (A + iA)| ≤ 1 / 2 ^ 46) (h3 : 1 - 1 / 2 ^ 46 ≤ iS) (h3' : iS ≤ 64 + 1 / 2 ^ 46) (h4 : |dS - (iS - 1)| ≤ 1 / 2 ^ 46)
    (h5 : |pr - sA * dS| ≤ 1 / 2 ^ 40) (h6 : |rad - (pr + 2)| ≤ 1 / 2 ^ 40) : 19 / 10 ≤ rad ∧ A * rad ≤ 64 * (A + 1) ^ 2 := by
  obtain ⟨a1, a2⟩ := abs_le.1 h1
  obtain ⟨b1, b2⟩ := abs_le.1 h2
  obtain ⟨c1, c2⟩ := abs_le.1 h4
  obtain ⟨d1, d2⟩ := abs_le.1 h5
  obtain ⟨e1, e2⟩ := abs_le.1 h6
  have hA0 : 0 < A := by linarith
  have i1 : 1 / A ≤ 32 := by rw [div_le_iff₀ hA0]; linarith
  have i2 : 1 / 32 ≤ 1 / A := one_div_le_one_div_of_le hA0 hA'
  have s1 : sA ≤ 65 := by norm_num at *; linarith
  have s2 : 0 ≤ sA := by norm_num at *; linarith
  have t1 : dS ≤ 63 + 1 / 2 ^ 44 := by norm_num at *; linarith
  have t2 : -(1 / 2 ^ 45) ≤ dS := by norm_num at *; linarith
  have p1 : -(65 / 2 ^ 45) ≤ sA * dS := by norm_num at *; nlinarith
  have p2 : sA * dS ≤ sA * (63 + 1 / 2 ^ 44) := mul_le_mul_of_nonneg_left t1 s2
  have q1 : A * iA ≤ 1 + 1 / 2 ^ 42 := by
    have : A * iA ≤ A * (1 / A + 1 / 2 ^ 47) := mul_le_mul_of_nonneg_left (by linarith) hA0.le
    have h : A * (1 / A) = 1 := by field_simp
    norm_num at *
    linarith
  constructor
  · norm_num at *; linarith
  · have r1 : rad ≤ (A + iA + 1 / 2 ^ 46) * (63 + 1 / 2 ^ 44) + 2 + 1 / 2 ^ 39 := by norm_num at *; linarith
    have r2 : A * rad ≤ A * ((A + iA + 1 / 2 ^ 46) * (63 + 1 / 2 ^ 44) + 2 + 1 / 2 ^ 39) := mul_le_mul_of_nonneg_left r1 hA0.le
    refine r2.trans ?_
    have e : A * ((A + iA + 1 / 2 ^ 46) * (63 + 1 / 2 ^ 44) + 2 + 1 / 2 ^ 39) =
        (A * A + A * iA + A / 2 ^ 46) * (63 + 1 / 2 ^ 44) + 2 * A + A / 2 ^ 39 := by ring
    rw [e]
    have := mul_self_nonneg A
    clear * - q1 this hA hA'
    generalize A * iA = z at *
    norm_num at *
    nlinarith

/-- a product of positive numbers of moderate size, rounded, within `1/1000` -/
theorem mul_thou (hx : r.Fin x) (hy : r.Fin y) (h0 : 0 < r.val x) (h0' : 0 < r.val y) (h1 : 1 / 2 ^ 100 ≤ r.val x * r.val y)
    (h2 : r.val x * r.val y ≤ 2 ^ 100) :
    r.Fin (x * y) ∧ 999 / 1000 * (r.val x * r.val y) ≤ r.val (x * y) ∧ r.val (x * y) ≤ 1001 / 1000 * (r.val x * r.val y) := by
  obtain ⟨h3, h4⟩ := raw_mul ha hx hy (M := r.val x * r.val y) (by rw [abs_of_pos (mul_pos h0 h0')]) (h2.trans (by norm_num))
  obtain ⟨h5, h6⟩ := abs_le.1 h4
  generalize r.val x * r.val y = t at *
  exact ⟨h3, by norm_num at *; linarith, by norm_num at *; linarith⟩

theorem sqrt_thou {a b : ℝ} (hx : r.In x a b) (ha0 : 1 / 2 ^ 20 ≤ a) :
    r.Fin (sqrt x) ∧ 999 / 1000 * Real.sqrt (r.val x) ≤ r.val (sqrt x) ∧ r.val (sqrt x) ≤ 1001 / 1000 * Real.sqrt (r.val x) := by
  have h1 : 1 / 2 ^ 20 ≤ r.val x := ha0.trans hx.2.1
  have h2 : 1 / 2 ^ 10 ≤ Real.sqrt (r.val x) := by
    rw [Real.le_sqrt (by norm_num) (le_trans (by norm_num) h1)]
    exact le_trans (by norm_num) h1
  obtain ⟨h3, h4⟩ := ha.sqrt x hx.1 (le_trans (by norm_num) h1)
  obtain ⟨h5, h6⟩ := abs_le.1 h4
  have := ha.η_le
  generalize Real.sqrt (r.val x) = t at *
  exact ⟨h3, by norm_num at *; linarith, by norm_num at *; linarith⟩

theorem sq_of_rad {A sn q : R} (hA : r.In A (1 / 32) 32) (hsn : r.In sn (1 / 2 ^ 20) (1 + 1 / 2 ^ 40)) (hq : r.Fin q)
    (h1 : 19 / 10 ≤ r.val q) (h2 : r.val A * r.val q ≤ 64 * (r.val A + 1) ^ 2) :
    r.Fin (2 * sqrt A * (sn / 2 * sqrt q)) ∧ 1 / 2 ^ 24 ≤ r.val (2 * sqrt A * (sn / 2 * sqrt q)) ∧
      r.val (2 * sqrt A * (sn / 2 * sqrt q)) ≤ 9 * (r.val A + 1) := by
  have i2 := In.two ha
  have v2 : r.val (2 : R) = 2 := le_antisymm i2.2.2 i2.2.1
  have A1 := hA.2.1
  have A2 := hA.2.2
  have hh : r.In (sn / 2) (1 / 2 ^ 22) (51 / 100) :=
    In.div ha (501 / 1000) hsn i2 (by norm_num) (by norm_num) (by norm_num) (by norm_num) (by norm_num) (by norm_num) (by norm_num)
  obtain ⟨a0, a1, a2⟩ := sqrt_thou ha hA (by norm_num)
  obtain ⟨q0, q1, q2⟩ := sqrt_thou ha (x := q) ⟨hq, h1, le_rfl⟩ (by norm_num)
  have sA1 : 17 / 100 ≤ Real.sqrt (r.val A) := by
    rw [Real.le_sqrt (by norm_num) (by linarith)]; norm_num; linarith
  have sA2 : Real.sqrt (r.val A) ≤ 6 := by
    rw [Real.sqrt_le_left (by norm_num)]; linarith
  have sq1 : 13 / 10 ≤ Real.sqrt (r.val q) := by
    rw [Real.le_sqrt (by norm_num) (by linarith)]; linarith
  have hpr : Real.sqrt (r.val A) * Real.sqrt (r.val q) ≤ 8 * (r.val A + 1) := by
    rw [← Real.sqrt_mul (by linarith), Real.sqrt_le_left (by linarith)]
    nlinarith
  have sq2 : Real.sqrt (r.val q) ≤ 2000 := by nlinarith
  generalize Real.sqrt (r.val A) = sa at *
  generalize Real.sqrt (r.val q) = sq at *
  obtain ⟨d0, d1, d2⟩ := mul_thou ha i2.1 a0 (by rw [v2]; norm_num) (by linarith) (by rw [v2]; norm_num; linarith)
    (by rw [v2]; norm_num; linarith)
  rw [v2] at d1 d2
  have hp0 : 0 < r.val (sn / 2) := lt_of_lt_of_le (by norm_num) hh.2.1
  have hl1 : 1 / 2 ^ 22 * (129 / 100) ≤ r.val (sn / 2) * r.val (sqrt q) :=
    mul_le_mul hh.2.1 (by linarith) (by norm_num) hp0.le
  have hl2 : r.val (sn / 2) * r.val (sqrt q) ≤ 51 / 100 * (1001 / 1000 * sq) :=
    mul_le_mul hh.2.2 q2 (by linarith) (by norm_num)
  obtain ⟨l0, l1, l2⟩ := mul_thou ha hh.1 q0 hp0 (by linarith) (le_trans (by norm_num) hl1) (by norm_num; linarith)
  have L1 : 1 / 2 ^ 22 ≤ r.val (sn / 2 * sqrt q) := by norm_num at *; linarith
  have L2 : r.val (sn / 2 * sqrt q) ≤ 52 / 100 * sq := by linarith
  have D1 : 33 / 100 ≤ r.val (2 * sqrt A) := by linarith
  have D2 : r.val (2 * sqrt A) ≤ 201 / 100 * sa := by linarith
  have m1 : 33 / 100 * (1 / 2 ^ 22) ≤ r.val (2 * sqrt A) * r.val (sn / 2 * sqrt q) :=
    mul_le_mul D1 L1 (by norm_num) (by linarith)
  have m2 : r.val (2 * sqrt A) * r.val (sn / 2 * sqrt q) ≤ 201 / 100 * sa * (52 / 100 * sq) :=
    mul_le_mul D2 L2 (le_trans (by norm_num) L1) (by linarith)
  have m3 : 201 / 100 * sa * (52 / 100 * sq) = 201 / 100 * (52 / 100) * (sa * sq) := by ring
  rw [m3] at m2
  obtain ⟨t0, t1, t2⟩ := mul_thou ha d0 l0 (by linarith) (lt_of_lt_of_le (by norm_num) L1) (le_trans (by norm_num) m1)
    (m2.trans (by norm_num; linarith))
  exact ⟨t0, le_trans (by norm_num at *; linarith) t1, by linarith⟩

/-- `sq = 2 * sqrt (A) * AL` with `AL = sn / 2 * sqrt ((A + 1/A) * (1/shelfSlope - 1) + 2)` -/
theorem in_sq {A sn S : R} (hA : r.In A (1 / 32) 32) (hsn : r.In sn (1 / 2 ^ 20) (1 + 1 / 2 ^ 40)) (hS : r.In S (1 / 64) 1) :
    r.Fin (2 * sqrt A * (sn / 2 * sqrt ((A + 1 / A) * (1 / S - 1) + 2))) ∧
      1 / 2 ^ 24 ≤ r.val (2 * sqrt A * (sn / 2 * sqrt ((A + 1 / A) * (1 / S - 1) + 2))) ∧
      r.val (2 * sqrt A * (sn / 2 * sqrt ((A + 1 / A) * (1 / S - 1) + 2))) ≤ 9 * (r.val A + 1) := by
  have i1 := In.one ha
  have v1 : r.val (1 : R) = 1 := le_antisymm i1.2.2 i1.2.1
  have i2 := In.two ha
  have v2 : r.val (2 : R) = 2 := le_antisymm i2.2.2 i2.2.1
  have A0 : 0 < r.val A := lt_of_lt_of_le (by norm_num) hA.2.1
  have S0 : 0 < r.val S := lt_of_lt_of_le (by norm_num) hS.2.1
  have a1 : 1 / r.val A ≤ 32 := by rw [div_le_iff₀ A0]; linarith [hA.2.1]
  have a2 : 0 < 1 / r.val A := by positivity
  have A1 := hA.2.1
  have A2 := hA.2.2
  have s1 : 1 / r.val S ≤ 64 := by rw [div_le_iff₀ S0]; linarith [hS.2.1]
  have s2 : 1 ≤ 1 / r.val S := by rw [le_div_iff₀ S0]; linarith [hS.2.2]
  obtain ⟨f1, e1⟩ := raw_div ha i1.1 hA.1 A0.ne' (M := 32) (by rw [v1, abs_of_pos a2]; exact a1) (by norm_num)
  obtain ⟨f2, e2⟩ := raw_div ha i1.1 hS.1 S0.ne' (M := 64) (by rw [v1, abs_of_pos (by linarith)]; exact s1) (by norm_num)
  rw [v1] at e1 e2
  have e1' : |r.val (1 / A) - 1 / r.val A| ≤ 1 / 2 ^ 47 := e1.trans (by norm_num)
  obtain ⟨e1a, e1b⟩ := abs_le.1 e1'
  obtain ⟨e2a, e2b⟩ := abs_le.1 e2
  have j1 : 0 ≤ r.val (1 / A) := by
    have : 1 / 32 ≤ 1 / r.val A := one_div_le_one_div_of_le A0 A2
    norm_num at *; linarith
  obtain ⟨f3, e3⟩ := raw_add ha hA.1 f1 (M := 65) (abs_le.2 ⟨by linarith, by norm_num at *; linarith⟩) (by norm_num)
  have e3' : |r.val (A + 1 / A) - (r.val A + r.val (1 / A))| ≤ 1 / 2 ^ 46 := e3.trans (by norm_num)
  obtain ⟨f4, e4⟩ := raw_sub ha f2 i1.1 (M := 65) (by rw [v1]; exact abs_le.2 ⟨by norm_num at *; linarith, by norm_num at *; linarith⟩) (by norm_num)
  rw [v1] at e4
  have e4' : |r.val (1 / S - 1) - (r.val (1 / S) - 1)| ≤ 1 / 2 ^ 46 := e4.trans (by norm_num)
  obtain ⟨e3a, e3b⟩ := abs_le.1 e3'
  obtain ⟨e4a, e4b⟩ := abs_le.1 e4'
  have k1 : |r.val (A + 1 / A)| ≤ 66 := abs_le.2 ⟨by norm_num at *; linarith, by norm_num at *; linarith⟩
  have k2 : |r.val (1 / S - 1)| ≤ 64 := abs_le.2 ⟨by norm_num at *; linarith, by norm_num at *; linarith⟩
  have k3 : |r.val (A + 1 / A) * r.val (1 / S - 1)| ≤ 66 * 64 := by
    rw [abs_mul]; exact mul_le_mul k1 k2 (abs_nonneg _) (by norm_num)
  obtain ⟨f5, e5⟩ := raw_mul ha f3 f4 (M := 66 * 64) k3 (by norm_num)
  have e5' := e5.trans (show (66 * 64 / 2 ^ 53 + 1 / 2 ^ 200 : ℝ) ≤ 1 / 2 ^ 40 by norm_num)
  obtain ⟨e5a, e5b⟩ := abs_le.1 e5'
  obtain ⟨k3a, k3b⟩ := abs_le.1 k3
  obtain ⟨f6, e6⟩ := raw_add ha f5 i2.1 (M := 66 * 65) (by rw [v2]; exact abs_le.2 ⟨by norm_num at *; linarith, by norm_num at *; linarith⟩) (by norm_num)
  rw [v2] at e6
  have e6' := e6.trans (show (66 * 65 / 2 ^ 53 + 1 / 2 ^ 200 : ℝ) ≤ 1 / 2 ^ 40 by norm_num)
  obtain ⟨r1, r2⟩ := rad_bound A1 A2 e1' e3' (by norm_num at *; linarith) (by norm_num at *; linarith) e4' e5' e6'
  exact sq_of_rad ha hA hsn f6 r1 r2

theorem In.add_abs {B D : ℝ} (hx : r.In x (-B) B) (hy : r.In y (-D) D) (h : B + D ≤ 2 ^ 52) :
    r.In (x + y) (-(B + D + 1)) (B + D + 1) :=
  In.add ha (B + D) hx hy (by linarith) le_rfl (by norm_num at *; linarith) (by norm_num at *; linarith) (by norm_num at *; linarith)

theorem In.sub_abs {B D : ℝ} (hx : r.In x (-B) B) (hy : r.In y (-D) D) (h : B + D ≤ 2 ^ 52) :
    r.In (x - y) (-(B + D + 1)) (B + D + 1) :=
  In.sub ha (B + D) hx hy (by linarith) (by linarith) (by norm_num at *; linarith) (by norm_num at *; linarith) (by norm_num at *; linarith)

theorem shelves {f g S : R} (hf : r.Fin f) (hg : r.Fin g) (hS : r.Fin S) (h1 : 1 / 2 ^ 20 ≤ r.val f)
    (h2 : r.val f ≤ 1 / 2 - 1 / 2 ^ 20) (h3 : |r.val g| ≤ 60) (h4 : 1 / 2 ^ 6 ≤ r.val S) (h5 : r.val S ≤ 1) (b : Biquad R) :
    (∃ b' k, (RBJ.Design.lowShelf f g S).setupN b = (.ok (), b') ∧ r.Values b' k ∧ k.Stable) ∧
      ∃ b' k, (RBJ.Design.highShelf f g S).setupN b = (.ok (), b') ∧ r.Values b' k ∧ k.Stable := by
  obtain ⟨hw, hc, hs⟩ := in_trig ha hf h1 h2
  have hA := in_A ha hg h3
  obtain ⟨s0, s1, s2⟩ := in_sq ha hA hs (S := S) ⟨hS, by norm_num at *; linarith, h5⟩
  have sa : r.In (2 * sqrt (pow 10 (g / 40)) * (sin (2 * pi * f) / 2 *
      sqrt ((pow 10 (g / 40) + 1 / pow 10 (g / 40)) * (1 / S - 1) + 2))) (-300) 300 :=
    ⟨s0, le_trans (by norm_num) s1, s2.trans (by linarith [hA.2.2])⟩
  have ca : r.In (cos (2 * pi * f)) (-1) 1 := In.mono hc (by norm_num) (by norm_num)
  have Aa : r.In (pow 10 (g / 40)) (-32) 32 := In.mono hA (by norm_num) le_rfl
  have one : r.In (1 : R) (-1) 1 := In.mono (In.one ha) (by norm_num) le_rfl
  have two : r.In (2 : R) (-2) 2 := In.mono (In.two ha) (by norm_num) le_rfl
  have mtwo : r.In (-2 : R) (-2) 2 := In.mono (In.neg ha (In.two ha)) le_rfl (by norm_num)
  have p := In.add_abs ha Aa one (by norm_num)
  have m := In.sub_abs ha Aa one (by norm_num)
  have mc := In.mul_abs ha 40 m ca (by norm_num) (by norm_num)
  have pc := In.mul_abs ha 40 p ca (by norm_num) (by norm_num)
  have x1 := In.add_abs ha p mc (by norm_num)
  have x2 := In.sub_abs ha p mc (by norm_num)
  have y1 := In.add_abs ha m pc (by norm_num)
  have y2 := In.sub_abs ha m pc (by norm_num)
  have t2 := In.mul_abs ha 64 two Aa (by norm_num) (by norm_num)
  have t2' := In.mul_abs ha 64 mtwo Aa (by norm_num) (by norm_num)
  constructor
  · exact (shelf_core ha hA hc s0 s1 s2
      (big (In.mul_abs ha (2 ^ 16) Aa (In.add_abs ha x2 sa (by norm_num)) (by norm_num) (by norm_num)) (by norm_num))
      (big (In.mul_abs ha (2 ^ 16) t2 y2 (by norm_num) (by norm_num)) (by norm_num))
      (big (In.mul_abs ha (2 ^ 16) Aa (In.sub_abs ha x2 sa (by norm_num)) (by norm_num) (by norm_num)) (by norm_num)) b).1
  · exact (shelf_core ha hA hc s0 s1 s2
      (big (In.mul_abs ha (2 ^ 16) Aa (In.add_abs ha x1 sa (by norm_num)) (by norm_num) (by norm_num)) (by norm_num))
      (big (In.mul_abs ha (2 ^ 16) t2' y1 (by norm_num) (by norm_num)) (by norm_num))
      (big (In.mul_abs ha (2 ^ 16) Aa (In.sub_abs ha x1 sa (by norm_num)) (by norm_num) (by norm_num)) (by norm_num)) b).2

omit ha in
/-- `w / sin w` up to `3/8` of the sampling rate -/
theorem sin_ratio {w : ℝ} (h0 : 0 < w) (h1 : w ≤ 3 * Real.pi / 4 + 1 / 2 ^ 40) : w ≤ 7 / 2 * Real.sin w := by
  have hp := Real.pi_gt_d2
  have hp' := Real.pi_lt_d2
  rcases le_total w (Real.pi / 2) with h | h
  · have h2 := Real.mul_le_sin h0.le h
    have h3 : (1 : ℝ) / 2 ≤ 2 / Real.pi := by rw [div_le_div_iff₀ (by norm_num) (by linarith)]; linarith
    nlinarith
  · have h2 : Real.sin (Real.pi / 4 - 1 / 2 ^ 40) ≤ Real.sin (Real.pi - w) :=
      Real.sin_le_sin_of_le_of_le_pi_div_two (by norm_num; linarith) (by linarith) (by linarith)
    rw [Real.sin_pi_sub] at h2
    have h3 : 70 / 100 ≤ Real.sin (Real.pi / 4 - 1 / 2 ^ 40) := by
      rw [Real.sin_sub, Real.sin_pi_div_four, Real.cos_pi_div_four]
      have e1 : (1414 / 1000 : ℝ) ≤ Real.sqrt 2 := by rw [Real.le_sqrt (by norm_num) (by norm_num)]; norm_num
      have e2 := Real.one_sub_sq_div_two_le_cos (x := 1 / 2 ^ 40)
      have e3 := Real.sin_le (x := 1 / 2 ^ 40) (by norm_num)
      norm_num at *
      nlinarith
    have : w ≤ 24 / 10 := by norm_num at *; linarith
    linarith

theorem div_thou (hx : r.Fin x) (hy : r.Fin y) (h0 : 0 < r.val x) (h0' : 0 < r.val y) (h1 : 1 / 2 ^ 100 ≤ r.val x / r.val y)
    (h2 : r.val x / r.val y ≤ 2 ^ 100) :
    r.Fin (x / y) ∧ 999 / 1000 * (r.val x / r.val y) ≤ r.val (x / y) ∧ r.val (x / y) ≤ 1001 / 1000 * (r.val x / r.val y) := by
  obtain ⟨h3, h4⟩ := raw_div ha hx hy h0'.ne' (M := r.val x / r.val y) (by rw [abs_of_pos (div_pos h0 h0')]) (h2.trans (by norm_num))
  obtain ⟨h5, h6⟩ := abs_le.1 h4
  generalize r.val x / r.val y = t at *
  exact ⟨h3, by norm_num at *; linarith, by norm_num at *; linarith⟩

omit ha in
theorem sinh_bounds {a : ℝ} (h0 : 0 ≤ a) (h : a ≤ 5) : a ≤ Real.sinh a ∧ Real.sinh a ≤ 743 / 10 := by
  refine ⟨Real.self_le_sinh_iff.2 h0, ?_⟩
  rw [Real.sinh_eq]
  have h1 : Real.exp a ≤ Real.exp 5 := Real.exp_le_exp.2 h
  have h2 : Real.exp 5 = Real.exp 1 ^ 5 := by rw [← Real.exp_nat_mul]; norm_num
  have h3 : Real.exp 1 ^ 5 ≤ (2.7182818286 : ℝ) ^ 5 := pow_le_pow_left₀ (Real.exp_pos 1).le Real.exp_one_lt_d9.le 5
  have := Real.exp_pos (-a)
  rw [h2] at h1
  have h4 : (2.7182818286 : ℝ) ^ 5 ≤ 1485 / 10 := by norm_num
  linarith

/-- `AL = sn * sinh (ln2 / 2 * bandWidth * w0 / sn)` -/
theorem in_bandAL {w sn W : R} (hw : r.In w (1 / 2 ^ 18) 4) (hs : r.In sn (1 / 2 ^ 20) (1 + 1 / 2 ^ 40))
    (hr : r.val w ≤ 7 / 2 * (1001 / 1000) * r.val sn) (hW : r.In W (1 / 2 ^ 10) 4) :
    r.In (sn * sinh (ln2 / 2 * W * w / sn)) (1 / 2 ^ 33) 75 := by
  have l2 : r.In (ln2 / 2 : R) (344 / 1000) (351 / 1000) :=
    In.div ha (350 / 1000) (in_ln2 ha) (In.two ha) (by norm_num) (by norm_num) (by norm_num) (by norm_num) (by norm_num) (by norm_num) (by norm_num)
  have lb : r.In (ln2 / 2 * W : R) (1 / 2 ^ 12) (1405 / 1000) :=
    In.mul ha 2 l2 hW (by norm_num) (by norm_num) (by norm_num) (by norm_num) (by norm_num) (by norm_num)
  have w0 : 0 < r.val w := lt_of_lt_of_le (by norm_num) hw.2.1
  have s0 : 0 < r.val sn := lt_of_lt_of_le (by norm_num) hs.2.1
  have lb0 : 0 < r.val (ln2 / 2 * W) := lt_of_lt_of_le (by norm_num) lb.2.1
  have a1 : 1 / 2 ^ 12 * (1 / 2 ^ 18) ≤ r.val (ln2 / 2 * W) * r.val w := mul_le_mul lb.2.1 hw.2.1 (by norm_num) lb0.le
  have a2 : r.val (ln2 / 2 * W) * r.val w ≤ 1405 / 1000 * r.val w := mul_le_mul_of_nonneg_right lb.2.2 w0.le
  have w4 := hw.2.2
  obtain ⟨c0, c1, c2⟩ := mul_thou ha lb.1 hw.1 lb0 w0 (le_trans (by norm_num) a1) (a2.trans (by norm_num; linarith))
  have c3 : 1 / 2 ^ 31 ≤ r.val (ln2 / 2 * W * w) := le_trans (by norm_num at *; linarith) c1
  have c4 : r.val (ln2 / 2 * W * w) ≤ 14065 / 10000 * r.val w := by linarith
  have c5 : 0 < r.val (ln2 / 2 * W * w) := lt_of_lt_of_le (by norm_num) c3
  have s2 := hs.2.2
  have d1 : 1 / 2 ^ 32 ≤ r.val (ln2 / 2 * W * w) / r.val sn := by
    rw [le_div_iff₀ s0]; norm_num at *; linarith
  have d2 : r.val (ln2 / 2 * W * w) / r.val sn ≤ 494 / 100 := by
    rw [div_le_iff₀ s0]; linarith
  obtain ⟨e0, e1, e2⟩ := div_thou ha c0 hs.1 c5 s0 (le_trans (by norm_num) d1) (d2.trans (by norm_num))
  have e3 : r.val (ln2 / 2 * W * w / sn) ≤ 5 := by linarith
  have e4 : 0 < r.val (ln2 / 2 * W * w / sn) := lt_of_lt_of_le (by norm_num at *; linarith) e1
  obtain ⟨f1, f2⟩ := sinh_bounds e4.le e3
  have g0 : 0 < Real.sinh (r.val (ln2 / 2 * W * w / sn)) := by linarith
  obtain ⟨g1, g2⟩ := ha.sinh _ e0 (by rw [abs_of_pos g0]; have := ha.le_Ω; norm_num at *; linarith)
  rw [abs_of_pos g0] at g2
  obtain ⟨g2, g3⟩ := abs_le.1 g2
  have hη := ha.η_le
  generalize Real.sinh (r.val (ln2 / 2 * W * w / sn)) = sh at *
  have p0 : 1 / 2 ^ 33 ≤ r.val (ln2 / 2 * W * w / sn) := le_trans (by norm_num at *; linarith) e1
  have p1 : 999 / 1000 * r.val (ln2 / 2 * W * w / sn) ≤ r.val (sinh (ln2 / 2 * W * w / sn)) := by norm_num at *; linarith
  have p2 : r.val (sinh (ln2 / 2 * W * w / sn)) ≤ 744 / 10 := by norm_num at *; linarith
  have q1 : r.val sn * (r.val (ln2 / 2 * W * w) / r.val sn) = r.val (ln2 / 2 * W * w) := by field_simp
  have q2 : r.val sn * (999 / 1000 * (r.val (ln2 / 2 * W * w) / r.val sn)) ≤ r.val sn * r.val (ln2 / 2 * W * w / sn) :=
    mul_le_mul_of_nonneg_left e1 s0.le
  have q3 : r.val sn * (999 / 1000 * r.val (ln2 / 2 * W * w / sn)) ≤ r.val sn * r.val (sinh (ln2 / 2 * W * w / sn)) :=
    mul_le_mul_of_nonneg_left p1 s0.le
  have q4 : 1 / 2 ^ 32 ≤ r.val sn * r.val (sinh (ln2 / 2 * W * w / sn)) := by norm_num at *; linarith
  have p3 : 0 < r.val (sinh (ln2 / 2 * W * w / sn)) := by linarith
  have q5 : r.val sn * r.val (sinh (ln2 / 2 * W * w / sn)) ≤ (1 + 1 / 2 ^ 40) * (744 / 10) :=
    mul_le_mul s2 p2 p3.le (by norm_num)
  obtain ⟨z0, z1, z2⟩ := mul_thou ha hs.1 g1 s0 p3 (le_trans (by norm_num) q4) (q5.trans (by norm_num))
  exact ⟨z0, le_trans (by norm_num at *; linarith) z1, z2.trans (by norm_num at *; linarith)⟩

theorem bandShelf_stable {f g W : R} (hf : r.Fin f) (hg : r.Fin g) (hW : r.Fin W) (h1 : 1 / 2 ^ 20 ≤ r.val f)
    (h2 : r.val f ≤ 3 / 8) (h3 : |r.val g| ≤ 60) (h4 : 1 / 2 ^ 10 ≤ r.val W) (h5 : r.val W ≤ 4) (b : Biquad R) :
    ∃ b' k, (RBJ.Design.bandShelf f g W).setupN b = (.ok (), b') ∧ r.Values b' k ∧ k.Stable := by
  obtain ⟨hw, hc, hs⟩ := in_trig ha hf h1 (h2.trans (by norm_num))
  have hA := in_A ha hg h3
  have hw' := in_w0 ha hf h1 h2 (by norm_num) (by norm_num)
  have hr := sin_ratio (lt_of_lt_of_le (by norm_num) hw.2.1) (hw'.2.2.trans (by linarith))
  obtain ⟨s0, s1⟩ := ha.sin _ hw.1
  have hw0 := hw.2.1
  have hsin : 0 < Real.sin (r.val (2 * pi * f)) := by
    norm_num at *
    linarith
  rw [abs_of_pos hsin] at s1
  obtain ⟨s1, -⟩ := abs_le.1 s1
  have hη := ha.η_le
  have hr' : r.val (2 * pi * f) ≤ 7 / 2 * (1001 / 1000) * r.val (sin (2 * pi * f)) := by norm_num at *; linarith
  have hal := in_bandAL ha hw hs hr' ⟨hW, h4, h5⟩
  have hq : r.In (sin (2 * pi * f) * sinh (ln2 / 2 * W * (2 * pi * f) / sin (2 * pi * f)) / pow 10 (g / 40)) (1 / 2 ^ 40) 3000 :=
    In.div ha 2400 hal hA (by norm_num) (by norm_num) (by norm_num) (by norm_num) (by norm_num) (by norm_num) (by norm_num)
  have al1 := In.mono hal (a' := -75) (b' := 75) (by norm_num) le_rfl
  have Aa : r.In (pow 10 (g / 40)) (-32) 32 := In.mono hA (by norm_num) le_rfl
  have m := In.mul_abs ha 2400 al1 Aa (by norm_num) (by norm_num)
  have key := core_stable ha b hq hc (big (in_one_add ha m (by norm_num)) (by norm_num)) (in_m2c ha hc)
    (big (in_one_sub ha m (by norm_num)) (by norm_num))
  obtain ⟨b', k, e, h⟩ := key
  refine ⟨b', k, ?_, h⟩
  rw [← e]
  have n := ha.not_nan _ hal.1
  simp [RBJ.Design.setupN, RBJ.bandShelf, Exec.throwIf, n]
  rfl

end shelf
end Iir
