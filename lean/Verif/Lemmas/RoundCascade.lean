import Verif.Lemmas.RoundPairs
import Verif.Lemmas.Result

/-! # Rounding errors of `Cascade::setLayout` -/

namespace Iir
open FArith Spec Cx Biquad Cascade

variable {R : Type} [FArith R] {u η Ω : ℝ} {r : Rounds R u η Ω}

theorem exp_near_one {t : ℝ} : ‖Complex.exp (t * Complex.I) - 1‖ ≤ |t| := by
  rw [mul_comm]; exact Real.norm_exp_I_mul_ofReal_sub_one_le

theorem exp_near_neg_one {t : ℝ} : ‖Complex.exp (t * Complex.I) - -1‖ ≤ |t + Real.pi| := by
  have h := exp_near_one (t := t + Real.pi)
  rw [Complex.ofReal_add, add_mul, Complex.exp_add, Complex.exp_pi_mul_I, mul_neg_one] at h
  rw [← norm_neg]
  refine le_trans (le_of_eq ?_) h
  congr 1; ring

theorem exp_near_one' {t : ℝ} : ‖Complex.exp (t * Complex.I) - 1‖ ≤ |t + 2 * Real.pi| := by
  have h := exp_near_one (t := t + 2 * Real.pi)
  rw [Complex.ofReal_add, add_mul, Complex.exp_add] at h
  push_cast at h
  rwa [Complex.exp_two_pi_mul_I, mul_one] at h

section ops
variable (hl : r.Library)
include hl

theorem polar_near {t : R} (ht : r.Fin t) {s : ℝ} (h : ‖Complex.exp (r.val t * Complex.I) - s‖ ≤ 5 / 2 ^ 46) :
    ∃ z, polarC (1 : R) t = .ok z ∧ Near r s z := by
  have hone := In.one hl.toAccurate (r := r)
  have hv1 : r.val (1 : R) = 1 := le_antisymm hone.2.2 hone.2.1
  obtain ⟨z, e, hz, hn⟩ := hl.polar 1 t hone.1 ht (by rw [hv1]; norm_num) (by rw [hv1]; exact one_le_pow₀ (by norm_num))
  refine ⟨z, by unfold polarC; rw [e], ?_⟩
  rw [hv1, Complex.ofReal_one, one_mul] at hn
  have hη := hl.η_le
  have e2 : ‖r.cval z - s‖ ≤ 1 / 2 ^ 43 := by
    have : ‖r.cval z - s‖ ≤ ‖r.cval z - Complex.exp (r.val t * Complex.I)‖ + ‖Complex.exp (r.val t * Complex.I) - s‖ := by
      calc ‖r.cval z - s‖ = ‖(r.cval z - Complex.exp (r.val t * Complex.I)) + (Complex.exp (r.val t * Complex.I) - s)‖ := by
            ring_nf
        _ ≤ _ := norm_add_le _ _
    norm_num at *
    linarith
  refine ⟨hz, ?_, ?_⟩
  · have := (Complex.abs_re_le_norm (r.cval z - s)).trans e2
    simpa [cval_re] using this
  · have := (Complex.abs_im_le_norm (r.cval z - s)).trans e2
    simpa [cval_im] using this

/-- The frequency is 0 (`s = 1`) or exactly one half (`s = -1`). -/
def AtEnd (r : Rounds R u η Ω) (s : ℝ) (f : R) : Prop :=
  r.Fin f ∧ ((s = 1 ∧ r.val f = 0) ∨ (s = -1 ∧ r.val f = 1 / 2))

omit hl in
theorem AtEnd.sign {s : ℝ} {f : R} (h : AtEnd r s f) : s = 1 ∨ s = -1 := by
  rcases h.2 with ⟨h, -⟩ | ⟨h, -⟩
  · exact .inl h
  · exact .inr h

/-- The two points on the unit circle. -/
theorem points {s : ℝ} {f : R} (h : AtEnd r s f) :
    ∃ z1 z2, polarC (1 : R) (-(2 * pi * f)) = .ok z1 ∧ polarC (1 : R) (-2 * (2 * pi * f)) = .ok z2 ∧
      Near r s z1 ∧ Near r 1 z2 := by
  have ha := hl.toAccurate
  obtain ⟨hf, h⟩ := h
  have h2 := In.two ha (r := r)
  have hv2 : r.val (2 : R) = 2 := le_antisymm h2.2.2 h2.2.1
  have hm2 := In.neg ha h2
  have hvm2 : r.val (-2 : R) = -2 := le_antisymm hm2.2.2 hm2.2.1
  obtain ⟨p1, p2⟩ := ha.pi
  have q1 := Real.pi_gt_three
  have q2 := Real.pi_lt_four
  obtain ⟨f1, e1⟩ := raw_mul ha h2.1 p1 (M := 9)
    (by rw [hv2]; rw [abs_le] at *; norm_num at *; constructor <;> linarith) (by norm_num)
  rw [hv2] at e1
  rcases h with ⟨rfl, h0⟩ | ⟨rfl, h0⟩
  · have z0 := hl.mul_zero (2 * pi) f f1 hf (.inr h0)
    have b : |r.val (2 * pi : R) * r.val f| ≤ 1 := by rw [h0, MulZeroClass.mul_zero, abs_zero]; norm_num
    obtain ⟨f2, -⟩ := raw_mul ha f1 hf b (by norm_num)
    obtain ⟨g1, g2⟩ := ha.neg _ f2
    have z1 := hl.mul_zero (-2) (2 * pi * f) hm2.1 f2 (.inr z0)
    have b' : |r.val (-2 : R) * r.val (2 * pi * f)| ≤ 1 := by rw [z0, MulZeroClass.mul_zero, abs_zero]; norm_num
    obtain ⟨f3, -⟩ := raw_mul ha hm2.1 f2 b' (by norm_num)
    obtain ⟨w1, k1, k2⟩ := polar_near hl g1 (s := 1) (by rw [g2, z0]; simp; norm_num)
    obtain ⟨w2, k3, k4⟩ := polar_near hl f3 (s := 1) (by rw [z1]; simp; norm_num)
    exact ⟨w1, w2, k1, k3, k2, k4⟩
  · have b : |r.val (2 * pi : R) * r.val f| ≤ 5 := by
      rw [h0]; rw [abs_le] at *; norm_num at *; constructor <;> linarith
    obtain ⟨f2, e2⟩ := raw_mul ha f1 hf b (by norm_num)
    obtain ⟨g1, g2⟩ := ha.neg _ f2
    rw [h0] at e2
    have b' : |r.val (-2 : R) * r.val (2 * pi * f)| ≤ 9 := by
      rw [hvm2]; rw [abs_le] at *; norm_num at *; constructor <;> linarith
    obtain ⟨f3, e3⟩ := raw_mul ha hm2.1 f2 b' (by norm_num)
    rw [hvm2] at e3
    obtain ⟨w1, k1, k2⟩ := polar_near hl g1 (s := -1) (by
      have := exp_near_neg_one (t := r.val (-(2 * pi * f)))
      push_cast
      refine this.trans ?_
      rw [g2]; rw [abs_le] at *; norm_num at *; constructor <;> linarith)
    obtain ⟨w2, k3, k4⟩ := polar_near hl f3 (s := 1) (by
      have := exp_near_one' (t := r.val (-2 * (2 * pi * f)))
      push_cast
      refine this.trans ?_
      rw [abs_le] at *; norm_num at *; constructor <;> linarith)
    exact ⟨w1, w2, k1, k3, k2, k4⟩

theorem tiny_le {n : ℕ} (h : n ≤ 990) : 16 * η ≤ 1 / 2 ^ n := by
  have h1 : (16 : ℝ) * (1 / 2 ^ 1000) ≤ 1 / 2 ^ n := by
    rw [mul_one_div, div_le_div_iff₀ (by positivity) (by positivity), one_mul]
    calc (16 : ℝ) * 2 ^ n = 2 ^ (4 + n) := by rw [pow_add]; norm_num
      _ ≤ _ := pow_le_pow_right₀ (by norm_num) (by omega)
  exact (mul_le_mul_of_nonneg_left hl.η_tiny (by norm_num)).trans h1

/-- A product of two numbers within the range. -/
theorem cmul_range {z w : Cx R} {a b c d : ℕ} (hz : r.CFin z) (hw : r.CFin w) (h1 : 1 / 2 ^ a ≤ ‖r.cval z‖)
    (h2 : ‖r.cval z‖ ≤ 2 ^ b) (h3 : 1 / 2 ^ c ≤ ‖r.cval w‖) (h4 : ‖r.cval w‖ ≤ 2 ^ d) (hb : b ≤ 400) (hd : d ≤ 400)
    (hac : a + c ≤ 900) :
    r.CFin (cmul z w) ∧ 1 / 2 ^ (a + c + 1) ≤ ‖r.cval (cmul z w)‖ ∧ ‖r.cval (cmul z w)‖ ≤ 2 ^ (b + d + 1) := by
  have p : ∀ {n : ℕ}, n ≤ 400 → (2 : ℝ) ^ n ≤ 2 ^ 400 := fun h => pow_le_pow_right₀ (by norm_num) h
  obtain ⟨f, e⟩ := hl.cmul z w hz hw (h2.trans (p hb)) (h4.trans (p hd))
  refine ⟨f, ?_⟩
  have lo : 1 / 2 ^ (a + c) ≤ ‖r.cval z * r.cval w‖ := by
    rw [norm_mul, pow_add, ← one_div_mul_one_div]
    exact mul_le_mul h1 h3 (by positivity) (norm_nonneg _)
  have hi : ‖r.cval z * r.cval w‖ ≤ 2 ^ (b + d) := by
    rw [norm_mul, pow_add]
    exact mul_le_mul h2 h4 (norm_nonneg _) (by positivity)
  have ht := tiny_le hl (n := (a + c) + 45) (by omega)
  have e1 : (1 : ℝ) / 2 ^ (a + c + 1) = 1 / 2 ^ (a + c) / 2 := by rw [pow_succ, div_div]
  have e2 : (1 : ℝ) / 2 ^ (a + c + 45) = 1 / 2 ^ (a + c) / 2 ^ 45 := by rw [pow_add, div_div]
  have e3 : (2 : ℝ) ^ (b + d + 1) = 2 ^ (b + d) * 2 := by rw [pow_succ]
  rw [e1, e3]
  rw [e2] at ht
  have t1 : ‖r.cval z * r.cval w‖ ≤ ‖r.cval (cmul z w)‖ + ‖r.cval (cmul z w) - r.cval z * r.cval w‖ := by
    calc _ = ‖r.cval (cmul z w) - (r.cval (cmul z w) - r.cval z * r.cval w)‖ := by ring_nf
      _ ≤ _ := norm_sub_le _ _
  have t2 : ‖r.cval (cmul z w)‖ ≤ ‖r.cval (cmul z w) - r.cval z * r.cval w‖ + ‖r.cval z * r.cval w‖ := by
    calc _ = ‖(r.cval (cmul z w) - r.cval z * r.cval w) + r.cval z * r.cval w‖ := by ring_nf
      _ ≤ _ := norm_add_le _ _
  have hp : (0 : ℝ) < 1 / 2 ^ (a + c) := by positivity
  generalize (1 : ℝ) / 2 ^ (a + c) = A at *
  generalize (2 : ℝ) ^ (b + d) = B at *
  norm_num at *
  constructor <;> linarith

theorem cdiv_range {z w : Cx R} {a b c d : ℕ} (hz : r.CFin z) (hw : r.CFin w) (h1 : 1 / 2 ^ a ≤ ‖r.cval z‖)
    (h2 : ‖r.cval z‖ ≤ 2 ^ b) (h3 : 1 / 2 ^ c ≤ ‖r.cval w‖) (h4 : ‖r.cval w‖ ≤ 2 ^ d) (hb : b ≤ 400) (hc : c ≤ 400)
    (hd : d ≤ 400) (had : a + d ≤ 900) :
    r.CFin (cdiv z w) ∧ 1 / 2 ^ (a + d + 1) ≤ ‖r.cval (cdiv z w)‖ ∧ ‖r.cval (cdiv z w)‖ ≤ 2 ^ (b + c + 1) := by
  have p : ∀ {n : ℕ}, n ≤ 400 → (2 : ℝ) ^ n ≤ 2 ^ 400 := fun h => pow_le_pow_right₀ (by norm_num) h
  have q : (1 : ℝ) / 2 ^ 400 ≤ 1 / 2 ^ c := one_div_le_one_div_of_le (by positivity) (p hc)
  obtain ⟨f, e⟩ := hl.cdiv z w hz hw (h2.trans (p hb)) (q.trans h3) (h4.trans (p hd))
  refine ⟨f, ?_⟩
  have hw0 : 0 < ‖r.cval w‖ := lt_of_lt_of_le (by positivity) h3
  have lo : 1 / 2 ^ (a + d) ≤ ‖r.cval z / r.cval w‖ := by
    rw [norm_div, le_div_iff₀ hw0, pow_add, ← one_div_mul_one_div]
    calc 1 / 2 ^ a * (1 / 2 ^ d) * ‖r.cval w‖ ≤ 1 / 2 ^ a * (1 / 2 ^ d) * 2 ^ d := mul_le_mul_of_nonneg_left h4 (by positivity)
      _ = 1 / 2 ^ a := by rw [mul_assoc, one_div_mul_cancel (by positivity), mul_one]
      _ ≤ _ := h1
  have hi : ‖r.cval z / r.cval w‖ ≤ 2 ^ (b + c) := by
    rw [norm_div, div_le_iff₀ hw0, pow_add]
    calc ‖r.cval z‖ ≤ 2 ^ b := h2
      _ = 2 ^ b * 2 ^ c * (1 / 2 ^ c) := by rw [mul_assoc, mul_one_div_cancel (by positivity), mul_one]
      _ ≤ _ := mul_le_mul_of_nonneg_left h3 (by positivity)
  have ht := tiny_le hl (n := (a + d) + 45) (by omega)
  have e1 : (1 : ℝ) / 2 ^ (a + d + 1) = 1 / 2 ^ (a + d) / 2 := by rw [pow_succ, div_div]
  have e2 : (1 : ℝ) / 2 ^ (a + d + 45) = 1 / 2 ^ (a + d) / 2 ^ 45 := by rw [pow_add, div_div]
  have e3 : (2 : ℝ) ^ (b + c + 1) = 2 ^ (b + c) * 2 := by rw [pow_succ]
  rw [e1, e3]
  rw [e2] at ht
  have t1 : ‖r.cval z / r.cval w‖ ≤ ‖r.cval (cdiv z w)‖ + ‖r.cval (cdiv z w) - r.cval z / r.cval w‖ := by
    calc _ = ‖r.cval (cdiv z w) - (r.cval (cdiv z w) - r.cval z / r.cval w)‖ := by ring_nf
      _ ≤ _ := norm_sub_le _ _
  have t2 : ‖r.cval (cdiv z w)‖ ≤ ‖r.cval (cdiv z w) - r.cval z / r.cval w‖ + ‖r.cval z / r.cval w‖ := by
    calc _ = ‖(r.cval (cdiv z w) - r.cval z / r.cval w) + r.cval z / r.cval w‖ := by ring_nf
      _ ≤ _ := norm_add_le _ _
  have hp : (0 : ℝ) < 1 / 2 ^ (a + d) := by positivity
  generalize (1 : ℝ) / 2 ^ (a + d) = A at *
  generalize (2 : ℝ) ^ (b + c) = B at *
  norm_num at *
  constructor <;> linarith

/-- The loop of `response`. -/
theorem respLoop_range {s : ℝ} (hs : s = 1 ∨ s = -1) {c : Cascade R} {z1 z2 : Cx R} (h1 : Near r s z1)
    (h2 : Near r 1 z2) (n : ℕ) (hn : n ≤ 8) (h : ∀ i < n, ∃ b k, c.stages[i]? = some b ∧ Sect r s b k) :
    ∃ ch cb, c.respLoop z1 z2 n = .ok (ch, cb) ∧ r.CFin ch ∧ r.CFin cb ∧
      1 / 2 ^ (21 * n) ≤ ‖r.cval ch‖ ∧ ‖r.cval ch‖ ≤ 2 ^ (7 * n) ∧
      1 / 2 ^ (41 * n) ≤ ‖r.cval cb‖ ∧ ‖r.cval cb‖ ≤ 2 ^ (7 * n) := by
  induction n with
  | zero =>
    have hone := In.one hl.toAccurate (r := r)
    have hv1 : r.val (1 : R) = 1 := le_antisymm hone.2.2 hone.2.1
    have e : ‖r.cval (ofR (1 : R))‖ = 1 := by
      have : r.cval (ofR (1 : R)) = 1 := Complex.ext hv1 r.zero.2
      rw [this, norm_one]
    refine ⟨_, _, rfl, ⟨hone.1, r.zero.1⟩, ⟨hone.1, r.zero.1⟩, ?_⟩
    rw [e]; norm_num
  | succ n ih =>
    obtain ⟨ch, cb, e, f1, f2, b1, b2, b3, b4⟩ := ih (by omega) fun i hi => h i (by omega)
    obtain ⟨b, k, hb, hk⟩ := h n (by omega)
    obtain ⟨t1, t2, t3⟩ := top_near hl hs hk h1 h2
    obtain ⟨s1, s2, s3⟩ := bot_near hl hs hk h1 h2
    obtain ⟨g1, g2, g3⟩ := cmul_range hl f1 t1 b1 b2 t2 t3 (by omega) (by omega) (by omega)
    obtain ⟨g4, g5, g6⟩ := cmul_range hl f2 s1 b3 b4 s2 s3 (by omega) (by omega) (by omega)
    refine ⟨cmul ch (b.respTop z1 z2), cmul cb (b.respBot z1 z2), ?_, g1, g4, ?_⟩
    · have : c.stageAt n = .ok b := by unfold stageAt; rw [hb]
      show (c.respLoop z1 z2 n).bind _ = _
      rw [e]
      show (c.stageAt n).bind _ = _
      rw [this]; rfl
    · exact ⟨g2, g3, g5, g6⟩

/-- `response` at 0 or at Nyquist. -/
theorem response_range {s : ℝ} {f : R} (hf : AtEnd r s f) {c : Cascade R} (hn : c.numStages ≤ 8)
    (h : ∀ i < c.numStages, ∃ b k, c.stages[i]? = some b ∧ Sect r s b k) :
    ∃ h, c.response f = .ok h ∧ r.CFin h ∧ 1 / 2 ^ 300 ≤ ‖r.cval h‖ ∧ ‖r.cval h‖ ≤ 2 ^ 400 := by
  obtain ⟨z1, z2, e1, e2, n1, n2⟩ := points hl hf
  obtain ⟨ch, cb, e3, f1, f2, b1, b2, b3, b4⟩ := respLoop_range hl hf.sign n1 n2 _ hn h
  obtain ⟨g1, g2, g3⟩ := cdiv_range hl f1 f2 b1 b2 b3 b4 (by omega) (by omega) (by omega) (by omega)
  refine ⟨cdiv ch cb, ?_, g1, le_trans ?_ g2, g3.trans ?_⟩
  · have hv := hf.2
    have hz := r.zero
    have hh := hl.half
    unfold Cascade.response
    rw [if_neg, if_neg]
    · show (polarC 1 (-(2 * pi * f))).bind _ = _
      rw [e1]
      show (polarC 1 (-2 * (2 * pi * f))).bind _ = _
      rw [e2]
      show (c.respLoop z1 z2 c.numStages).bind _ = _
      rw [e3]; rfl
    · rw [hl.flt _ _ hf.1 hz.1, hz.2]
      rcases hv with ⟨-, h⟩ | ⟨-, h⟩ <;> rw [h] <;> norm_num
    · rw [hl.flt _ _ hh.1 hf.1, hh.2]
      rcases hv with ⟨-, h⟩ | ⟨-, h⟩ <;> rw [h] <;> norm_num
  · exact one_div_le_one_div_of_le (by positivity) (pow_le_pow_right₀ (by norm_num) (by omega))
  · exact pow_le_pow_right₀ (by norm_num) (by omega)

/-- The factor by which the first section is scaled. -/
theorem factor_fin {g : R} {h : Cx R} (hg : r.In g (-2) 2) (hh : r.CFin h) (h1 : 1 / 2 ^ 300 ≤ ‖r.cval h‖)
    (h2 : ‖r.cval h‖ ≤ 2 ^ 400) : r.Fin (g / cabs h) ∧ |r.val (g / cabs h)| ≤ 2 ^ 303 := by
  obtain ⟨f1, e1⟩ := hl.cabs h hh h2
  have ht := tiny_le hl (n := 300 + 45) (by omega)
  have hη := r.η_nonneg
  have e2 : (1 : ℝ) / 2 ^ (300 + 45) = 1 / 2 ^ 300 / 2 ^ 45 := by rw [pow_add, div_div]
  rw [e2] at ht
  have lo : 1 / 2 ^ 301 ≤ r.val (cabs h) := by
    have e3 : (1 : ℝ) / 2 ^ 301 = 1 / 2 ^ 300 / 2 := by rw [pow_succ, div_div]
    rw [e3]
    have hp : (0 : ℝ) < 1 / 2 ^ 300 := by positivity
    clear e3 e2
    generalize (1 : ℝ) / 2 ^ 300 = A at *
    rw [abs_le] at e1
    norm_num at *
    linarith
  have hpos : 0 < r.val (cabs h) := lt_of_lt_of_le (by positivity) lo
  have hq : |r.val g / r.val (cabs h)| ≤ 2 ^ 302 := by
    rw [abs_div, abs_of_pos hpos, div_le_iff₀ hpos]
    calc |r.val g| ≤ 2 := abs_le.2 hg.2
      _ = 2 ^ 302 * (1 / 2 ^ 301) := by rw [pow_succ, mul_one_div, mul_comm, mul_div_assoc, div_self (by positivity), mul_one]
      _ ≤ _ := mul_le_mul_of_nonneg_left lo (by positivity)
  have hΩ : (2 : ℝ) ^ 302 ≤ Ω := (pow_le_pow_right₀ (by norm_num) (by norm_num)).trans hl.Ω_huge
  obtain ⟨f2, e4⟩ := hl.div _ _ hg.1 f1 hpos.ne' (hq.trans hΩ)
  refine ⟨f2, ?_⟩
  have h3 : u * |r.val g / r.val (cabs h)| ≤ 1 / 2 ^ 53 * 2 ^ 302 :=
    mul_le_mul hl.u_le hq (abs_nonneg _) (by positivity)
  have h4 : |r.val (g / cabs h)| ≤ |r.val (g / cabs h) - r.val g / r.val (cabs h)| + |r.val g / r.val (cabs h)| := by
    calc _ = |(r.val (g / cabs h) - r.val g / r.val (cabs h)) + r.val g / r.val (cabs h)| := by ring_nf
      _ ≤ _ := abs_add_le _ _
  have h5 : (1 : ℝ) ≤ 2 ^ 302 := one_le_pow₀ (by norm_num)
  have h6 := hl.η_le
  have h7 : (2 : ℝ) ^ 303 = 2 ^ 302 * 2 := by rw [pow_succ]
  rw [h7]
  clear h7 ht e2 e1 lo hpos h1 h2
  generalize r.val g / r.val (cabs h) = q at *
  generalize (2 : ℝ) ^ 302 = B at *
  generalize u * |q| = w at *
  norm_num at *
  linarith

/-- The scaled section has the same poles. -/
theorem scaled_values {s : ℝ} {b : Biquad R} {k : Coeffs} (h : Sect r s b k) {g : R} (hg : r.Fin g)
    (hb : |r.val g| ≤ 2 ^ 303) : ∃ k', r.Values (scaled g b) k' ∧ k'.Stable := by
  have key : ∀ {x : R}, r.In x (-9) 9 → r.Fin (x * g) := by
    intro x hx
    refine (r.mul x g hx.1 hg ?_).1
    rw [abs_mul]
    calc |r.val x| * |r.val g| ≤ 2 ^ 4 * 2 ^ 303 :=
          mul_le_mul ((abs_le.2 hx.2).trans (by norm_num)) hb (abs_nonneg _) (by norm_num)
      _ = 2 ^ 307 := by rw [← pow_add]
      _ ≤ 2 ^ 1000 := pow_le_pow_right₀ (by norm_num) (by norm_num)
      _ ≤ Ω := hl.Ω_huge
  obtain ⟨v0, v1, v2, -, -, -⟩ := h.values
  refine ⟨{ k with b0 := r.val (b.b0 * g), b1 := r.val (b.b1 * g), b2 := r.val (b.b2 * g) },
    ⟨v0, v1, v2, ⟨key h.b0, rfl⟩, ⟨key h.b1, rfl⟩, ⟨key h.b2, rfl⟩⟩, ?_⟩
  intro z hz
  exact h.stable z hz

omit hl in
theorem placePairs_all {ps : List (PoleZeroPair R)} {bs : List (Biquad R)} {P : Biquad R → Prop}
    (h : ps.length ≤ bs.length) (hp : ∀ p ∈ ps, ∃ b, pairR p = .ok b ∧ P b) :
    ∃ qs, placePairs ps bs = (.ok (), qs ++ bs.drop ps.length) ∧ qs.length = ps.length ∧ ∀ q ∈ qs, P q := by
  induction ps generalizing bs with
  | nil => exact ⟨[], by cases bs <;> rfl, rfl, by simp⟩
  | cons p ps ih =>
    cases bs with
    | nil => simp at h
    | cons b bs =>
      obtain ⟨q, e, hq⟩ := hp p (by simp)
      obtain ⟨qs, e1, e2, e3⟩ := ih (bs := bs) (by simpa using h) fun p hp' => hp p (by simp [hp'])
      refine ⟨q :: qs, ?_, by simp [e2], ?_⟩
      · simp [placePairs, e, e1]
      · intro x hx
        rcases List.mem_cons.1 hx with rfl | hx
        · exact hq
        · exact e3 x hx

/-- `setLayout` succeeds and all sections are finite and stable. -/
theorem setLayout_stable {s : ℝ} {l : Layout R} {c : Cascade R} {M : ℕ} (hc : c.Ok M) (h16 : l.numPoles ≤ 16)
    (hlen : (l.numPoles + 1) / 2 ≤ l.pairs.length) (hM : (l.numPoles + 1) / 2 ≤ M)
    (hp : ∀ p ∈ l.pairs.take ((l.numPoles + 1) / 2), r.PairOk s p) (hf : AtEnd r s (l.normalW / (2 * pi)))
    (hg : r.In l.normalGain (-2) 2) :
    ∃ c' ks, Cascade.setLayout l c = (.ok (), c') ∧ List.Forall₂ r.Values c'.stages ks ∧ ∀ k ∈ ks, k.Stable := by
  obtain ⟨b0, k0, hi, hk0⟩ := ident_sect hl
  have htl : (l.pairs.take ((l.numPoles + 1) / 2)).length = (l.numPoles + 1) / 2 := by rw [List.length_take]; omega
  obtain ⟨qs, e1, e2, e3⟩ := placePairs_all (ps := l.pairs.take ((l.numPoles + 1) / 2)) (bs := List.replicate M b0)
    (P := fun b => ∃ k, Sect r s b k) (by rw [htl, List.length_replicate]; exact hM)
    (fun p h => by obtain ⟨b, k, h1, h2⟩ := pair_sect hl hf.sign (hp p h); exact ⟨b, h1, k, h2⟩)
  rw [htl] at e2
  rw [htl, List.drop_replicate] at e1
  rw [setLayout_eq hc hi hlen hM, e1]
  simp only
  obtain ⟨h, e4, hh, b1, b2⟩ := response_range hl hf
    (c := { numStages := (l.numPoles + 1) / 2, maxStages := M, stages := qs ++ List.replicate (M - (l.numPoles + 1) / 2) b0 })
    (by show (l.numPoles + 1) / 2 ≤ 8; omega) (by
      intro i hi
      change i < (l.numPoles + 1) / 2 at hi
      obtain ⟨k, hk⟩ := e3 qs[i] (List.getElem_mem _)
      exact ⟨qs[i], k, by rw [List.getElem?_append_left (by omega), List.getElem?_eq_getElem], hk⟩)
  obtain ⟨g1, g2⟩ := factor_fin hl hg hh b1 b2
  have good : ∀ b, (∃ k, Sect r s b k) → ∃ k, r.Values b k ∧ k.Stable := fun b ⟨k, h⟩ => ⟨k, h.values, h.stable⟩
  have main : ∀ b ∈ (if (l.numPoles + 1) / 2 < 1 then qs ++ List.replicate (M - (l.numPoles + 1) / 2) b0
      else (qs ++ List.replicate (M - (l.numPoles + 1) / 2) b0).modify 0 (scaled (l.normalGain / cabs h))),
      ∃ k, r.Values b k ∧ k.Stable := by
    intro b hb
    split_ifs at hb with hlt
    · rcases List.mem_append.1 hb with hb | hb
      · exact good b (e3 b hb)
      · rw [(List.mem_replicate.1 hb).2]; exact ⟨k0, hk0.values, hk0.stable⟩
    · obtain ⟨q, qs', rfl⟩ : ∃ q qs', qs = q :: qs' := by
        cases qs with
        | nil => simp at e2; omega
        | cons q qs => exact ⟨q, qs, rfl⟩
      rw [List.cons_append, List.modify_zero_cons] at hb
      rcases List.mem_cons.1 hb with rfl | hb
      · obtain ⟨k, hk⟩ := e3 q (by simp)
        exact scaled_values hl hk g1 g2
      · rcases List.mem_append.1 hb with hb | hb
        · exact good b (e3 b (by simp [hb]))
        · rw [(List.mem_replicate.1 hb).2]; exact ⟨k0, hk0.values, hk0.stable⟩
  have fin : ∀ bs : List (Biquad R), (∀ b ∈ bs, ∃ k, r.Values b k ∧ k.Stable) →
      ∃ ks, List.Forall₂ r.Values bs ks ∧ ∀ k ∈ ks, k.Stable := by
    intro bs
    induction bs with
    | nil => exact fun _ => ⟨[], .nil, by simp⟩
    | cons b bs ih =>
      intro h
      obtain ⟨k, h1, h2⟩ := h b (by simp)
      obtain ⟨ks, h3, h4⟩ := ih fun b hb => h b (by simp [hb])
      refine ⟨k :: ks, .cons h1 h3, ?_⟩
      intro x hx
      rcases List.mem_cons.1 hx with rfl | hx
      · exact h2
      · exact h4 x hx
  obtain ⟨ks, h5, h6⟩ := fin _ main
  by_cases hlt : (l.numPoles + 1) / 2 < 1
  · rw [if_pos hlt] at h5
    refine ⟨{ numStages := (l.numPoles + 1) / 2, maxStages := M, stages := _ }, ks, ?_, h5, h6⟩
    unfold finish
    simp only
    rw [e4]
    simp only [if_pos hlt]
  · rw [if_neg hlt] at h5
    refine ⟨{ numStages := (l.numPoles + 1) / 2, maxStages := M, stages := (qs ++ List.replicate (M - (l.numPoles + 1) / 2) b0).modify 0 (scaled (l.normalGain / cabs h)) }, ks, ?_, h5, h6⟩
    unfold finish
    simp only
    rw [e4]
    simp only [if_neg hlt]

end ops
end Iir
