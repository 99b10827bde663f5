import Verif.Spec.Library
import Verif.Math.Jury
import Mathlib.Tactic.Linarith
import Mathlib.Tactic.Positivity
import Mathlib.Analysis.SpecialFunctions.Trigonometric.Bounds
import Mathlib.Analysis.Real.Pi.Bounds

/-! # Rounding errors of designs: intervals, division by `a0`, stability of the stored coefficients -/

namespace Iir
open FArith Spec Exec

variable {R : Type} [FArith R] {u η Ω : ℝ} {r : Rounds R u η Ω} {x y : R}

/-- `x` is finite with a value between `a` and `b`. -/
def Spec.Rounds.In (r : Rounds R u η Ω) (x : R) (a b : ℝ) : Prop := r.Fin x ∧ a ≤ r.val x ∧ r.val x ≤ b

theorem In.abs {a b B : ℝ} (h : r.In x a b) (h1 : -B ≤ a) (h2 : b ≤ B) : |r.val x| ≤ B :=
  abs_le.2 ⟨h1.trans h.2.1, h.2.2.trans h2⟩

theorem In.mono {a b a' b' : ℝ} (h : r.In x a b) (h1 : a' ≤ a) (h2 : b ≤ b') : r.In x a' b' :=
  ⟨h.1, h1.trans h.2.1, h.2.2.trans h2⟩

theorem In.of_abs {B : ℝ} (h : r.Fin x) (h1 : |r.val x| ≤ B) : r.In x (-B) B := ⟨h, abs_le.1 h1⟩

section ops
variable (ha : r.Accurate)
include ha

theorem err_le {M : ℝ} {v : ℝ} (hv : |v| ≤ M) : u * |v| + η ≤ M / 2 ^ 53 + 1 / 2 ^ 200 := by
  have h1 := ha.u_le
  have h2 := ha.η_le
  have h3 : u * |v| ≤ 1 / 2 ^ 53 * M := mul_le_mul h1 hv (abs_nonneg _) (by positivity)
  linarith

theorem raw_add (hx : r.Fin x) (hy : r.Fin y) {M : ℝ} (hM : |r.val x + r.val y| ≤ M) (hM' : M ≤ 2 ^ 200) :
    r.Fin (x + y) ∧ |r.val (x + y) - (r.val x + r.val y)| ≤ M / 2 ^ 53 + 1 / 2 ^ 200 := by
  obtain ⟨h1, h2⟩ := r.add x y hx hy (hM.trans (hM'.trans ha.le_Ω))
  exact ⟨h1, h2.trans (err_le ha hM)⟩

theorem raw_sub (hx : r.Fin x) (hy : r.Fin y) {M : ℝ} (hM : |r.val x - r.val y| ≤ M) (hM' : M ≤ 2 ^ 200) :
    r.Fin (x - y) ∧ |r.val (x - y) - (r.val x - r.val y)| ≤ M / 2 ^ 53 + 1 / 2 ^ 200 := by
  obtain ⟨h1, h2⟩ := r.sub x y hx hy (hM.trans (hM'.trans ha.le_Ω))
  exact ⟨h1, h2.trans (err_le ha hM)⟩

theorem raw_mul (hx : r.Fin x) (hy : r.Fin y) {M : ℝ} (hM : |r.val x * r.val y| ≤ M) (hM' : M ≤ 2 ^ 200) :
    r.Fin (x * y) ∧ |r.val (x * y) - r.val x * r.val y| ≤ M / 2 ^ 53 + 1 / 2 ^ 200 := by
  obtain ⟨h1, h2⟩ := r.mul x y hx hy (hM.trans (hM'.trans ha.le_Ω))
  exact ⟨h1, h2.trans (err_le ha hM)⟩

theorem raw_div (hx : r.Fin x) (hy : r.Fin y) (h0 : r.val y ≠ 0) {M : ℝ} (hM : |r.val x / r.val y| ≤ M)
    (hM' : M ≤ 2 ^ 200) : r.Fin (x / y) ∧ |r.val (x / y) - r.val x / r.val y| ≤ M / 2 ^ 53 + 1 / 2 ^ 200 := by
  obtain ⟨h1, h2⟩ := ha.div x y hx hy h0 (hM.trans (hM'.trans ha.le_Ω))
  exact ⟨h1, h2.trans (err_le ha hM)⟩

theorem In.lit (n : ℕ) (h : n ≤ 2 ^ 20) : r.In (OfNat.ofNat n : R) n n := by
  obtain ⟨h1, h2⟩ := ha.int n (by rw [abs_of_nonneg (by omega)]; exact_mod_cast h)
  have e : r.val (OfNat.ofNat n : R) = n := by rw [show r.val (OfNat.ofNat n : R) = _ from h2]; simp
  exact ⟨h1, e.ge, e.le⟩

theorem In.one : r.In (1 : R) 1 1 := by simpa using In.lit ha 1 (by norm_num)
theorem In.two : r.In (2 : R) 2 2 := by simpa using In.lit ha 2 (by norm_num)

theorem In.neg {a b : ℝ} (h : r.In x a b) : r.In (-x) (-b) (-a) := by
  obtain ⟨h1, h2⟩ := ha.neg x h.1
  exact ⟨h1, by rw [h2]; linarith [h.2.2], by rw [h2]; linarith [h.2.1]⟩

variable {a b c d lo hi : ℝ}

theorem In.add (M : ℝ) (hx : r.In x a b) (hy : r.In y c d) (h1 : -M ≤ a + c) (h2 : b + d ≤ M) (h3 : M ≤ 2 ^ 200)
    (hlo : lo + M / 2 ^ 53 + 1 / 2 ^ 200 ≤ a + c) (hhi : b + d + M / 2 ^ 53 + 1 / 2 ^ 200 ≤ hi) : r.In (x + y) lo hi := by
  obtain ⟨hx0, hx1, hx2⟩ := hx
  obtain ⟨hy0, hy1, hy2⟩ := hy
  obtain ⟨h4, h5⟩ := raw_add ha hx0 hy0 (M := M) (abs_le.2 ⟨by linarith, by linarith⟩) h3
  obtain ⟨h6, h7⟩ := abs_le.1 h5
  exact ⟨h4, by linarith, by linarith⟩

theorem In.sub (M : ℝ) (hx : r.In x a b) (hy : r.In y c d) (h1 : -M ≤ a - d) (h2 : b - c ≤ M) (h3 : M ≤ 2 ^ 200)
    (hlo : lo + M / 2 ^ 53 + 1 / 2 ^ 200 ≤ a - d) (hhi : b - c + M / 2 ^ 53 + 1 / 2 ^ 200 ≤ hi) : r.In (x - y) lo hi := by
  obtain ⟨hx0, hx1, hx2⟩ := hx
  obtain ⟨hy0, hy1, hy2⟩ := hy
  obtain ⟨h4, h5⟩ := raw_sub ha hx0 hy0 (M := M) (abs_le.2 ⟨by linarith, by linarith⟩) h3
  obtain ⟨h6, h7⟩ := abs_le.1 h5
  exact ⟨h4, by linarith, by linarith⟩

/-- product of non-negative numbers -/
theorem In.mul (M : ℝ) (hx : r.In x a b) (hy : r.In y c d) (h0 : 0 ≤ a) (h1 : 0 ≤ c) (h2 : b * d ≤ M) (h3 : M ≤ 2 ^ 200)
    (hlo : lo + M / 2 ^ 53 + 1 / 2 ^ 200 ≤ a * c) (hhi : b * d + M / 2 ^ 53 + 1 / 2 ^ 200 ≤ hi) : r.In (x * y) lo hi := by
  obtain ⟨hx0, hx1, hx2⟩ := hx
  obtain ⟨hy0, hy1, hy2⟩ := hy
  have e1 : a * c ≤ r.val x * r.val y := mul_le_mul hx1 hy1 h1 (h0.trans hx1)
  have e2 : r.val x * r.val y ≤ b * d := mul_le_mul hx2 hy2 (h1.trans hy1) (h0.trans (hx1.trans hx2))
  have e3 : 0 ≤ a * c := mul_nonneg h0 h1
  obtain ⟨h4, h5⟩ := raw_mul ha hx0 hy0 (M := M) (abs_le.2 ⟨by linarith, by linarith⟩) h3
  obtain ⟨h6, h7⟩ := abs_le.1 h5
  exact ⟨h4, by linarith, by linarith⟩

/-- product of bounded numbers -/
theorem In.mul_abs {B D : ℝ} (M : ℝ) (hx : r.In x (-B) B) (hy : r.In y (-D) D) (h2 : B * D ≤ M) (h3 : M ≤ 2 ^ 52) :
    r.In (x * y) (-(M + 1)) (M + 1) := by
  have e1 := abs_le.2 hx.2
  have e2 := abs_le.2 hy.2
  have e3 : |r.val x * r.val y| ≤ M := by
    rw [abs_mul]
    exact (mul_le_mul e1 e2 (abs_nonneg _) ((abs_nonneg _).trans e1)).trans h2
  obtain ⟨h4, h5⟩ := raw_mul ha hx.1 hy.1 e3 (by norm_num at *; linarith)
  obtain ⟨h6, h7⟩ := abs_le.1 h5
  obtain ⟨h8, h9⟩ := abs_le.1 e3
  norm_num at *
  exact ⟨h4, by linarith, by linarith⟩

/-- quotient of non-negative numbers -/
theorem In.div (M : ℝ) (hx : r.In x a b) (hy : r.In y c d) (h0 : 0 ≤ a) (h1 : 0 < c) (h2 : b ≤ M * c) (h3 : M ≤ 2 ^ 200)
    (hlo : (lo + M / 2 ^ 53 + 1 / 2 ^ 200) * d ≤ a) (hhi : M + M / 2 ^ 53 + 1 / 2 ^ 200 ≤ hi)
    (hlo' : 0 ≤ lo + M / 2 ^ 53 + 1 / 2 ^ 200) : r.In (x / y) lo hi := by
  obtain ⟨hx0, hx1, hx2⟩ := hx
  obtain ⟨hy0, hy1, hy2⟩ := hy
  have hy : 0 < r.val y := h1.trans_le hy1
  have hM : 0 ≤ M := by
    by_contra h
    have := mul_neg_of_neg_of_pos (not_le.1 h) h1
    linarith
  have e1 : lo + M / 2 ^ 53 + 1 / 2 ^ 200 ≤ r.val x / r.val y := by
    rw [le_div_iff₀ hy]
    exact (mul_le_mul_of_nonneg_left hy2 hlo').trans (hlo.trans hx1)
  have e2 : r.val x / r.val y ≤ M := by
    rw [div_le_iff₀ hy]
    exact hx2.trans (h2.trans (mul_le_mul_of_nonneg_left hy1 hM))
  have e3 : 0 ≤ r.val x / r.val y := div_nonneg (h0.trans hx1) hy.le
  obtain ⟨h4, h5⟩ := raw_div ha hx0 hy0 hy.ne' (M := M) (abs_le.2 ⟨by linarith, by linarith⟩) h3
  obtain ⟨h6, h7⟩ := abs_le.1 h5
  exact ⟨h4, by linarith, by linarith⟩

/-- quotient of a bounded number -/
theorem In.div_abs {B : ℝ} (M : ℝ) (hx : r.In x (-B) B) (hy : r.In y c d) (h1 : 0 < c) (h2 : B ≤ M * c)
    (h3 : M ≤ 2 ^ 52) : r.In (x / y) (-(M + 1)) (M + 1) := by
  have hy0 : 0 < r.val y := h1.trans_le hy.2.1
  have e1 := abs_le.2 hx.2
  have hM : 0 ≤ M := by
    by_contra h
    have := mul_neg_of_neg_of_pos (not_le.1 h) h1
    linarith [abs_nonneg (r.val x)]
  have e3 : |r.val x / r.val y| ≤ M := by
    rw [abs_div, abs_of_pos hy0, div_le_iff₀ hy0]
    exact e1.trans (h2.trans (mul_le_mul_of_nonneg_left hy.2.1 hM))
  obtain ⟨h4, h5⟩ := raw_div ha hx.1 hy.1 hy0.ne' e3 (by norm_num at *; linarith)
  obtain ⟨h6, h7⟩ := abs_le.1 h5
  obtain ⟨h8, h9⟩ := abs_le.1 e3
  norm_num at *
  exact ⟨h4, by linarith, by linarith⟩

/-- Division by `a0` in `setCoefficients`: if the denominator satisfies Jury's inequalities with a margin `m` above the
rounding errors, the stored section is stable. -/
theorem stored_stable {a0 a1 a2 b0 b1 b2 : R} (f : Biquad R) {P m : ℝ} (h0 : r.Fin a0) (h1 : r.In a1 (-P) P)
    (h2 : r.In a2 (-P) P) (hb0 : r.In b0 (-(2 ^ 30)) (2 ^ 30)) (hb1 : r.In b1 (-(2 ^ 30)) (2 ^ 30))
    (hb2 : r.In b2 (-(2 ^ 30)) (2 ^ 30)) (hP : 1 ≤ P) (hP' : P ≤ 2 ^ 30) (hlo : 1 / 2 ^ 20 ≤ r.val a0) (hhi : r.val a0 ≤ P)
    (hm : 3 * P / 2 ^ 53 ≤ m) (j1 : m ≤ r.val a0 + r.val a1 + r.val a2) (j2 : m ≤ r.val a0 - r.val a1 + r.val a2)
    (j3 : m ≤ r.val a0 - r.val a2) :
    ∃ f' k, Biquad.setCoefficients a0 a1 a2 b0 b1 b2 f = (.ok (), f') ∧ r.Values f' k ∧ k.Stable := by
  have hpos : 0 < r.val a0 := lt_of_lt_of_le (by positivity) hlo
  have ha0 : r.In a0 (1 / 2 ^ 20) P := ⟨h0, hlo, hhi⟩
  have hd : ∀ {b : R}, r.In b (-(2 ^ 30)) (2 ^ 30) → r.Fin (b / a0) := fun {b} hb =>
    (In.div_abs ha (2 ^ 50) hb ha0 (by positivity) (by norm_num) (by norm_num)).1
  have key : ∀ {v : R}, r.In v (-P) P → r.Fin (v / a0) ∧
      |r.val (v / a0) * r.val a0 - r.val v| ≤ P / 2 ^ 53 + P / 2 ^ 200 := by
    intro v hv
    have e1 := abs_le.2 hv.2
    have e3 : |r.val v / r.val a0| ≤ Ω := by
      refine le_trans ?_ ha.le_Ω
      rw [abs_div, abs_of_pos hpos, div_le_iff₀ hpos]
      norm_num at *
      linarith
    obtain ⟨h4, h5⟩ := ha.div _ _ hv.1 h0 hpos.ne' e3
    refine ⟨h4, ?_⟩
    have e4 : r.val (v / a0) * r.val a0 - r.val v = (r.val (v / a0) - r.val v / r.val a0) * r.val a0 := by
      field_simp
    rw [e4, abs_mul, abs_of_pos hpos]
    calc _ ≤ (u * |r.val v / r.val a0| + η) * r.val a0 := mul_le_mul_of_nonneg_right h5 hpos.le
      _ = u * |r.val v| + η * r.val a0 := by rw [abs_div, abs_of_pos hpos]; field_simp
      _ ≤ _ := by
          have h6 := ha.u_le
          have h7 := ha.η_le
          have h8 : u * |r.val v| ≤ 1 / 2 ^ 53 * P := mul_le_mul h6 e1 (abs_nonneg _) (by positivity)
          have h9 : η * r.val a0 ≤ 1 / 2 ^ 200 * P := mul_le_mul h7 hhi hpos.le (by positivity)
          linarith
  obtain ⟨f1, e1⟩ := key h1
  obtain ⟨f2, e2⟩ := key h2
  obtain ⟨e1, e1'⟩ := abs_le.1 e1
  obtain ⟨e2, e2'⟩ := abs_le.1 e2
  have hsmall : P / 2 ^ 200 ≤ P / 2 ^ 60 := div_le_div_of_nonneg_left (by linarith) (by positivity) (by norm_num)
  generalize P / 2 ^ 200 = ε at *
  refine ⟨{ a0 := a0, a1 := a1 / a0, a2 := a2 / a0, b0 := b0 / a0, b1 := b1 / a0, b2 := b2 / a0 },
    ⟨1, r.val (a1 / a0), r.val (a2 / a0), r.val (b0 / a0), r.val (b1 / a0), r.val (b2 / a0)⟩, ?_,
    ⟨rfl, ⟨f1, rfl⟩, ⟨f2, rfl⟩, ⟨hd hb0, rfl⟩, ⟨hd hb1, rfl⟩, ⟨hd hb2, rfl⟩⟩, ?_⟩
  · have n := ha.not_nan
    simp [Biquad.setCoefficients, Exec.throwIf, n _ h0, n _ h1.1, n _ h2.1, n _ hb0.1, n _ hb1.1, n _ hb2.1]
    rfl
  · generalize r.val (a1 / a0) = m1 at *
    generalize r.val (a2 / a0) = m2 at *
    apply Coeffs.stable_of_jury <;> simp only
    · exact one_pos
    · refine (pos_iff_pos_of_mul_pos (b := r.val a0) ?_).2 hpos
      norm_num at *
      linarith
    · refine (pos_iff_pos_of_mul_pos (b := r.val a0) ?_).2 hpos
      norm_num at *
      linarith
    · rw [← sub_pos]
      refine (pos_iff_pos_of_mul_pos (b := r.val a0) ?_).2 hpos
      norm_num at *
      linarith

end ops
end Iir
