import Verif.Lemmas.RoundBw

/-! # Sections of pole filters: distance from the ideal sections -/

namespace Iir
open FArith Spec Cx Biquad

variable {R : Type} [FArith R] {u η Ω : ℝ} {r : Rounds R u η Ω}

/-- Section with the poles `q`, `conj q` and a double zero at `-s`. -/
noncomputable def pairK (s : ℝ) (q : ℂ) : Coeffs := ⟨1, -2 * q.re, q.re ^ 2 + q.im ^ 2, 1, 2 * s, 1⟩

/-- Section with the real pole `q` and a zero at `-s`. -/
noncomputable def oneK (s : ℝ) (q : ℂ) : Coeffs := ⟨1, -q.re, 0, 1, s, 0⟩

/-- The identity. -/
noncomputable def idK : Coeffs := ⟨1, 0, 0, 1, 0, 0⟩

/-- A pair of the digital layout, and the ideal section it stands for. -/
inductive Spec.Rounds.PairIs (r : Rounds R u η Ω) (s : ℝ) : PoleZeroPair R → Coeffs → Prop
  | two {p z : Cx R} (hp : r.PoleIn p) (hz : r.ZeroIn s z) (hre : r.val z.re = -s) (him : r.val z.im = 0) {q : ℂ}
      (hq : ‖q‖ ≤ 1) (hn : ‖r.cval p - q‖ ≤ 1 / 2 ^ 40) : r.PairIs s ⟨⟨p, conj p⟩, ⟨z, conj z⟩⟩ (pairK s q)
  | one {p z : Cx R} (hp : r.RealPole p) (hz : r.RealZero s z) (hre : r.val z.re = -s) {q : ℂ}
      (hq : ‖q‖ ≤ 1) (hn : ‖r.cval p - q‖ ≤ 1 / 2 ^ 40) : r.PairIs s ⟨⟨p, ofR 0⟩, ⟨z, ofR 0⟩⟩ (oneK s q)

theorem Spec.Rounds.PairIs.ok {s : ℝ} {pr : PoleZeroPair R} {k : Coeffs} (h : r.PairIs s pr k) : r.PairOk s pr := by
  cases h with
  | two hp hz => exact .two hp hz
  | one hp hz => exact .one hp hz

/-- The stored coefficients are close to those of `k`. -/
structure CoefNear (r : Rounds R u η Ω) (b : Biquad R) (k : Coeffs) : Prop where
  a1 : |r.val b.a1 - k.a1| ≤ 1 / 2 ^ 38
  a2 : |r.val b.a2 - k.a2| ≤ 1 / 2 ^ 38
  b0 : |r.val b.b0 - k.b0| ≤ 1 / 2 ^ 47
  b1 : |r.val b.b1 - k.b1| ≤ 1 / 2 ^ 47
  b2 : |r.val b.b2 - k.b2| ≤ 1 / 2 ^ 47

theorem coeffsR_ok {a0 a1 a2 b0 b1 b2 : R} {b : Biquad R} (h : coeffsR a0 a1 a2 b0 b1 b2 = .ok b) :
    b = { a0 := a0, a1 := a1 / a0, a2 := a2 / a0, b0 := b0 / a0, b1 := b1 / a0, b2 := b2 / a0 } := by
  unfold coeffsR at h
  split_ifs at h
  simpa using h.symm

section ops
variable (hl : r.Library)
include hl

theorem div_one_near {v : R} (hv : r.In v (-8) 8) : |r.val (v / 1) - r.val v| ≤ 1 / 2 ^ 49 := by
  have h1 := In.one hl.toAccurate (r := r)
  have hv1 : r.val (1 : R) = 1 := le_antisymm h1.2.2 h1.2.1
  have hb : |r.val v / r.val (1 : R)| ≤ 8 := by rw [hv1, _root_.div_one]; exact abs_le.2 hv.2
  obtain ⟨f, e⟩ := raw_div hl.toAccurate hv.1 h1.1 (by rw [hv1]; norm_num) hb (by norm_num)
  rw [hv1, _root_.div_one] at e
  exact e.trans (by norm_num)

theorem coeffs_near {a1 a2 b1 b2 : R} {b : Biquad R} (h : coeffsR 1 a1 a2 1 b1 b2 = .ok b) {k : Coeffs}
    (h1 : r.In a1 (-8) 8) (h2 : r.In a2 (-8) 8) (h3 : r.In b1 (-8) 8) (h4 : r.In b2 (-8) 8)
    (e1 : |r.val a1 - k.a1| ≤ 1.9 / 2 ^ 39) (e2 : |r.val a2 - k.a2| ≤ 1.9 / 2 ^ 39)
    (e0 : k.b0 = 1) (e3 : |r.val b1 - k.b1| ≤ 1 / 2 ^ 48) (e4 : |r.val b2 - k.b2| ≤ 1 / 2 ^ 48) : CoefNear r b k := by
  have hone := In.one hl.toAccurate (r := r)
  have hv1 : r.val (1 : R) = 1 := le_antisymm hone.2.2 hone.2.1
  rw [coeffsR_ok h]
  have d0 := div_one_near hl (In.mono hone (by norm_num) (by norm_num))
  have d1 := (abs_sub_le _ _ _).trans (add_le_add (div_one_near hl h1) e1)
  have d2 := (abs_sub_le _ _ _).trans (add_le_add (div_one_near hl h2) e2)
  have d3 := (abs_sub_le _ _ _).trans (add_le_add (div_one_near hl h3) e3)
  have d4 := (abs_sub_le _ _ _).trans (add_le_add (div_one_near hl h4) e4)
  rw [hv1] at d0
  refine ⟨d1.trans (by norm_num), d2.trans (by norm_num), ?_, d3.trans (by norm_num), d4.trans (by norm_num)⟩
  rw [e0]; exact d0.trans (by norm_num)

omit hl in
/-- squares of the moduli of two nearby numbers -/
theorem sq_norm_near {p q : ℂ} (hq : ‖q‖ ≤ 1) (hn : ‖p - q‖ ≤ 1 / 2 ^ 40) :
    |p.re - q.re| ≤ 1 / 2 ^ 40 ∧ |(p.re ^ 2 + p.im ^ 2) - (q.re ^ 2 + q.im ^ 2)| ≤ 1.8 / 2 ^ 39 := by
  refine ⟨(Complex.abs_re_le_norm (p - q)).trans hn, ?_⟩
  have sq : ∀ z : ℂ, z.re ^ 2 + z.im ^ 2 = ‖z‖ ^ 2 := fun z => by
    rw [← Complex.normSq_eq_norm_sq, Complex.normSq_apply]; ring
  rw [sq, sq]
  have h1 : |‖p‖ - ‖q‖| ≤ 1 / 2 ^ 40 := (abs_norm_sub_norm_le p q).trans hn
  have e : ‖p‖ ^ 2 - ‖q‖ ^ 2 = (‖p‖ - ‖q‖) * (‖p‖ + ‖q‖) := by ring
  have h2 := norm_nonneg p
  have h3 := norm_nonneg q
  have h4 : |‖p‖ + ‖q‖| ≤ 3 := by
    rw [abs_of_nonneg (by positivity)]
    rw [abs_le] at h1
    norm_num at *
    linarith
  have h5 : |‖p‖ + ‖q‖| ≤ 2.1 := by
    rw [abs_of_nonneg (by positivity)]
    rw [abs_le] at h1
    norm_num at *
    linarith
  rw [e, abs_mul]
  exact (mul_le_mul h1 h5 (abs_nonneg _) (by norm_num)).trans (by norm_num)

theorem pair_near {s : ℝ} (hs : s = 1 ∨ s = -1) {pr : PoleZeroPair R} {k : Coeffs} (h : r.PairIs s pr k) :
    ∃ b k', pairR pr = .ok b ∧ Sect r s b k' ∧ CoefNear r b k := by
  have ha := hl.toAccurate
  obtain ⟨b, k', hb, hk'⟩ := pair_sect hl hs h.ok
  refine ⟨b, k', hb, hk', ?_⟩
  have hs2 : s ^ 2 = 1 := by rcases hs with rfl | rfl <;> norm_num
  cases h with
  | two hp hz hre him hq hn =>
    rename_i p z q
    obtain ⟨n1, n2⟩ := sq_norm_near hq hn
    rw [cval_re] at n1
    rw [cval_re, cval_im] at n2
    have hin := hp.inside
    obtain ⟨a, e1, f1, f2, g1, g2⟩ := pairCoeffs_near hl .twoPolePoles hp.fin (by norm_num at hin ⊢; linarith)
    obtain ⟨d, e2, f3, f4, g3, g4⟩ := pairCoeffs_near hl .twoPoleZeros hz.fin hz.small
    have ns : pairR (⟨⟨p, conj p⟩, ⟨z, conj z⟩⟩ : PoleZeroPair R) = coeffsR 1 a.1 a.2 1 d.1 d.2 := by
      unfold pairR
      rw [if_neg, twoPoleR, e1]
      · show (pairCoeffs .twoPoleZeros z (conj z)).bind _ = _
        rw [e2]; rfl
      · unfold PoleZeroPair.isSinglePole
        rw [Bool.and_eq_true, not_and]
        intro _ h
        unfold ceq at h
        rw [Bool.and_eq_true] at h
        have h1 := (hl.feq _ _ hz.fin.1 r.zero.1).1 h.1
        rw [r.zero.2, hre] at h1
        rcases hs with rfl | rfl <;> norm_num at h1
    rw [ns] at hb
    rw [hre] at g3 g4
    rw [him] at g4
    have q1 := (Complex.abs_re_le_norm q).trans hq
    have q2 : q.re ^ 2 + q.im ^ 2 ≤ 1 := by
      have : q.re ^ 2 + q.im ^ 2 = ‖q‖ ^ 2 := by rw [← Complex.normSq_eq_norm_sq, Complex.normSq_apply]; ring
      rw [this]; exact pow_le_one₀ (norm_nonneg _) hq
    have q3 : 0 ≤ q.re ^ 2 + q.im ^ 2 := by positivity
    have hs1 : |s| ≤ 1 := by rcases hs with rfl | rfl <;> norm_num
    have g4' : |r.val d.2 - 1| ≤ 1 / 2 ^ 48 := by
      have : (-s) ^ 2 + (0 : ℝ) ^ 2 = 1 := by rw [neg_sq, hs2]; norm_num
      rwa [this] at g4
    refine coeffs_near hl hb ⟨f1, ?_, ?_⟩ ⟨f2, ?_, ?_⟩ ⟨f3, ?_, ?_⟩ ⟨f4, ?_, ?_⟩ ?_ ?_ rfl ?_ ?_ <;> (try simp only [pairK]) <;>
      rw [abs_le] at * <;> generalize r.val p.re ^ 2 + r.val p.im ^ 2 = P at * <;>
      generalize q.re ^ 2 + q.im ^ 2 = Q at * <;> norm_num at * <;> (try constructor) <;> linarith
  | one hp hz hre hq hn =>
    rename_i p z q
    obtain ⟨n1, -⟩ := sq_norm_near hq hn
    rw [cval_re] at n1
    have hz0 : ceq (ofR 0 : Cx R) (ofR 0) = true := by
      unfold ceq
      have := (hl.feq (0 : R) 0 r.zero.1 r.zero.1).2 rfl
      show (feq (0 : R) 0 && feq (0 : R) 0) = true
      rw [this]; rfl
    have ns : pairR (⟨⟨p, ofR 0⟩, ⟨z, ofR 0⟩⟩ : PoleZeroPair R) = coeffsR 1 (-p.re) 0 1 (-z.re) 0 := by
      unfold pairR
      rw [if_pos (by unfold PoleZeroPair.isSinglePole; rw [hz0]; rfl), onePoleR,
        if_neg (by rw [Bool.not_eq_true, fne_zero_false hl hp.fin.2]; exact hp.real),
        if_neg (by rw [Bool.not_eq_true, fne_zero_false hl hz.fin.2]; exact hz.real)]
    rw [ns] at hb
    obtain ⟨g1, g2⟩ := ha.neg _ hp.fin.1
    obtain ⟨g3, g4⟩ := ha.neg _ hz.fin.1
    have q1 := (Complex.abs_re_le_norm q).trans hq
    have hs1 : |s| ≤ 1 := by rcases hs with rfl | rfl <;> norm_num
    have h00 := r.zero.2
    refine coeffs_near hl hb ⟨g1, ?_, ?_⟩ ⟨r.zero.1, ?_, ?_⟩ ⟨g3, ?_, ?_⟩ ⟨r.zero.1, ?_, ?_⟩ ?_ ?_ rfl ?_ ?_ <;>
      (try simp only [oneK]) <;> (try rw [g2]) <;> (try rw [g4]) <;> (try rw [h00]) <;> (try rw [hre]) <;>
      rw [abs_le] at * <;> norm_num at * <;> (try constructor) <;> linarith

/-- The identity, whose coefficients are exact but for one rounding. -/
theorem ident_near {b : Biquad R} (hb : identR = .ok b) :
    r.val b.a1 = 0 ∧ r.val b.a2 = 0 ∧ |r.val b.b0 - 1| ≤ 1 / 2 ^ 49 ∧ r.val b.b1 = 0 ∧ r.val b.b2 = 0 := by
  have hone := In.one hl.toAccurate (r := r)
  have hv1 : r.val (1 : R) = 1 := le_antisymm hone.2.2 hone.2.1
  have d0 := div_one_near hl (In.mono hone (by norm_num) (by norm_num))
  have z := hl.zero_div (0 : R) 1 r.zero.1 hone.1 (by rw [hv1]; norm_num) r.zero.2
  rw [hv1] at d0
  rw [coeffsR_ok hb]
  exact ⟨z, z, d0, z, z⟩

end ops
end Iir
