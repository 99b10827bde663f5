import Verif.Lemmas.DoubleComplex

/-! # Rounding of single numbers, and the number one, in doubles -/

set_option linter.unusedSectionVars false

namespace Iir
open FArith Spec Cx Biquad Exec

/-- Rounding in a given binade. -/
theorem roundReal_eq {x : ℝ} {k e : ℤ} (he : -1074 ≤ e) (h1 : (2 : ℝ) ^ (e + 52) ≤ x) (h2 : x < (2 : ℝ) ^ (e + 53))
    (h : |x / (2 : ℝ) ^ e - k| < 1 / 2) : roundReal x = k * (2 : ℝ) ^ e := by
  have hx : 0 < x := lt_of_lt_of_le (by positivity) h1
  have hlog : Int.log 2 |x| = e + 52 := by
    rw [abs_of_pos hx]
    refine le_antisymm ?_ ?_
    · have h3 := zpow_log_le hx.ne'
      rw [abs_of_pos hx] at h3
      have := (zpow_lt_zpow_iff_right₀ (by norm_num : (1 : ℝ) < 2)).1 (h3.trans_lt h2)
      omega
    · have h3 := lt_zpow_log x
      rw [abs_of_pos hx] at h3
      have := (zpow_lt_zpow_iff_right₀ (by norm_num : (1 : ℝ) < 2)).1 (h1.trans_lt h3)
      omega
  have hu : ulpExp x = e := by
    unfold ulpExp; rw [hlog]; omega
  have hr : roundEven (x / (2 : ℝ) ^ e) = k := by
    have h3 := roundEven_nearest (x / (2 : ℝ) ^ e) k
    rw [abs_sub_comm (k : ℝ)] at h3
    have h4 := abs_sub_le (roundEven (x / (2 : ℝ) ^ e) : ℝ) (x / (2 : ℝ) ^ e) k
    have h5 : |((roundEven (x / (2 : ℝ) ^ e) - k : ℤ) : ℝ)| < 1 := by push_cast; linarith
    have h6 : |roundEven (x / (2 : ℝ) ^ e) - k| < 1 := by exact_mod_cast h5
    have := Int.abs_lt_one_iff.1 h6
    omega
  unfold roundReal
  rw [hu, hr]

namespace Dbl

/-- Rounding a magnitude in a given binade. -/
theorem ofReal_round (s : Bool) {x y : ℝ} (hx : 0 ≤ x) (h : roundReal x = y) (hy : y < 2 ^ 1024) :
    (ofReal s x).Finite ∧ (ofReal s x).val = y := by
  obtain ⟨h1, h2⟩ := ofReal_finite s (x := x) (by rw [abs_of_nonneg hx, h]; exact hy)
  refine ⟨h1, ?_⟩
  rw [h2, if_neg (not_lt.2 hx), abs_of_nonneg hx, h]

theorem ofReal_val (s : Bool) (x : {x : ℝ // 0 ≤ x ∧ IsDouble x}) : ofReal s (val (num s x)) = num s x := by
  obtain ⟨h1, h2⟩ := ofReal_isDouble s (isDouble_val (a := num s x) trivial)
  obtain ⟨t, y, h3⟩ := exists_num h1
  rw [h3] at h2 ⊢
  by_cases h0 : x.1 = 0
  · have : val (num s x) = 0 := by cases s <;> simp [val, h0]
    rw [this, ofReal_zero] at h3
    rw [← h3]
    exact num_ext rfl h0.symm
  · have hpos : 0 < x.1 := lt_of_le_of_ne x.2.1 (Ne.symm h0)
    have hy := y.2.1
    cases s <;> cases t
    · exact num_ext rfl h2
    · exfalso; simp only [val] at h2; linarith
    · exfalso; simp only [val] at h2; linarith
    · exact num_ext rfl (neg_injective h2)

theorem lit_one : (1 : Dbl) = num false ⟨1, by norm_num, ⟨1, 0, by norm_num, by norm_num, by norm_num, by norm_num⟩⟩ := by
  rw [← ofReal_val]
  show ofReal false ((1 : ℤ) : ℝ) = _
  simp [val]

/-- Dividing a double by one, and multiplying by one, changes nothing: not even the sign of a zero, infinities or NaN. -/
theorem div_one (a : Dbl) : a / 1 = a := by
  show Dbl.div a 1 = a
  rw [lit_one]
  cases a with
  | nan => rfl
  | inf s => simp [Dbl.div]
  | num s x =>
    simp only [Dbl.div]
    rw [if_neg one_ne_zero, Bool.xor_false]
    have : val (num s x) / val (num false ⟨1, by norm_num, ⟨1, 0, by norm_num, by norm_num, by norm_num, by norm_num⟩⟩) = val (num s x) := by
      simp [val]
    rw [this, ofReal_val]

theorem mul_one (a : Dbl) : a * 1 = a := by
  show Dbl.mul a 1 = a
  rw [lit_one]
  cases a with
  | nan => rfl
  | inf s => simp [Dbl.mul]
  | num s x =>
    simp only [Dbl.mul]
    rw [Bool.xor_false]
    have : val (num s x) * val (num false ⟨1, by norm_num, ⟨1, 0, by norm_num, by norm_num, by norm_num, by norm_num⟩⟩) = val (num s x) := by
      simp [val]
    rw [this, ofReal_val]

theorem one_mul (a : Dbl) : 1 * a = a := by
  show Dbl.mul 1 a = a
  rw [lit_one]
  cases a with
  | nan => rfl
  | inf s => simp [Dbl.mul]
  | num s x =>
    simp only [Dbl.mul]
    rw [Bool.false_xor]
    have : val (num false ⟨1, by norm_num, ⟨1, 0, by norm_num, by norm_num, by norm_num, by norm_num⟩⟩) * val (num s x) = val (num s x) := by
      simp [val]
    rw [this, ofReal_val]

theorem lit_one_val : (1 : Dbl).Finite ∧ (1 : Dbl).val = 1 := by
  rw [lit_one]; exact ⟨trivial, rfl⟩

end Dbl

end Iir
