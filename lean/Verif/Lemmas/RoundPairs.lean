import Verif.Lemmas.RoundComplex
import Verif.Lemmas.SetLayout

/-! # Rounding errors of sections made from poles and zeros, and of their response at 0 and at Nyquist -/

namespace Iir
open FArith Spec Cx Biquad

variable {R : Type} [FArith R] {u η Ω : ℝ} {r : Rounds R u η Ω}

/-- One of a pair of poles inside the unit circle, with a margin. -/
structure Spec.Rounds.PoleIn (r : Rounds R u η Ω) (p : Cx R) : Prop where
  fin : r.CFin p
  inside : 1 / 2 ^ 33 ≤ 1 - (r.val p.re ^ 2 + r.val p.im ^ 2)
  right : 1 / 2 ^ 37 ≤ 1 - 2 * r.val p.re + (r.val p.re ^ 2 + r.val p.im ^ 2)
  left : 1 / 2 ^ 37 ≤ 1 + 2 * r.val p.re + (r.val p.re ^ 2 + r.val p.im ^ 2)

/-- One of a pair of zeros that is not near the point `s`. -/
structure Spec.Rounds.ZeroIn (r : Rounds R u η Ω) (s : ℝ) (z : Cx R) : Prop where
  fin : r.CFin z
  big : 1 / 4 ≤ r.val z.re ^ 2 + r.val z.im ^ 2
  small : r.val z.re ^ 2 + r.val z.im ^ 2 ≤ 4
  away : 1 / 2 ^ 17 ≤ 1 - 2 * s * r.val z.re + (r.val z.re ^ 2 + r.val z.im ^ 2)

/-- A real pole. -/
structure Spec.Rounds.RealPole (r : Rounds R u η Ω) (p : Cx R) : Prop where
  fin : r.CFin p
  real : r.val p.im = 0
  right : 1 / 2 ^ 30 ≤ 1 - r.val p.re
  left : 1 / 2 ^ 30 ≤ 1 + r.val p.re

/-- A real zero. -/
structure Spec.Rounds.RealZero (r : Rounds R u η Ω) (s : ℝ) (z : Cx R) : Prop where
  fin : r.CFin z
  real : r.val z.im = 0
  small : |r.val z.re| ≤ 2
  away : 1 / 2 ^ 17 ≤ 1 - s * r.val z.re

/-- A pair of the digital layout. -/
inductive Spec.Rounds.PairOk (r : Rounds R u η Ω) (s : ℝ) : PoleZeroPair R → Prop
  | two {p z : Cx R} (hp : r.PoleIn p) (hz : r.ZeroIn s z) : r.PairOk s ⟨⟨p, conj p⟩, ⟨z, conj z⟩⟩
  | one {p z : Cx R} (hp : r.RealPole p) (hz : r.RealZero s z) : r.PairOk s ⟨⟨p, ofR 0⟩, ⟨z, ofR 0⟩⟩

/-- The coefficients of the denominator before the division by `a0`. -/
structure Denom (r : Rounds R u η Ω) (a1 a2 : R) : Prop where
  in1 : r.In a1 (-(5 / 2)) (5 / 2)
  in2 : r.In a2 (-(5 / 4)) (5 / 4)
  jury1 : 7 / 2 ^ 41 ≤ 1 + r.val a1 + r.val a2
  jury2 : 7 / 2 ^ 41 ≤ 1 - r.val a1 + r.val a2
  jury3 : 7 / 2 ^ 41 ≤ 1 - r.val a2

/-- The coefficients of the numerator. -/
structure Numer (r : Rounds R u η Ω) (s : ℝ) (b1 b2 : R) : Prop where
  in1 : r.In b1 (-8) 8
  in2 : r.In b2 (-8) 8
  away : 1 / 2 ^ 18 ≤ 1 + s * r.val b1 + r.val b2

/-- A section that has been stored. -/
structure Sect (r : Rounds R u η Ω) (s : ℝ) (b : Biquad R) (k : Coeffs) : Prop where
  values : r.Values b k
  stable : k.Stable
  a0 : r.In b.a0 1 1
  a1 : r.In b.a1 (-3) 3
  a2 : r.In b.a2 (-2) 2
  b0 : r.In b.b0 (-9) 9
  b1 : r.In b.b1 (-9) 9
  b2 : r.In b.b2 (-9) 9
  top : 1 / 2 ^ 19 ≤ r.val b.b0 + s * r.val b.b1 + r.val b.b2
  bot : 6 / 2 ^ 41 ≤ 1 + s * r.val b.a1 + r.val b.a2

section ops
variable (hl : r.Library)
include hl

theorem fne_zero {x : R} (hx : r.Fin x) : fne x 0 = true ↔ r.val x ≠ 0 := by
  unfold fne
  rw [Bool.not_eq_true', ← Bool.not_eq_true, hl.feq x 0 hx r.zero.1, r.zero.2]

theorem fne_zero_false {x : R} (hx : r.Fin x) : fne x 0 = false ↔ r.val x = 0 := by
  rw [← Bool.not_eq_true, fne_zero hl hx, not_not]

theorem ceq_conj {p : Cx R} (hp : r.CFin p) : ceq (conj p) (conj p) = true := by
  have hn := (hl.neg _ hp.2).1
  show (feq p.re p.re && feq (-p.im) (-p.im)) = true
  rw [(hl.feq _ _ hp.1 hp.1).2 rfl, (hl.feq _ _ hn hn).2 rfl]; rfl

theorem sq_near {x : R} (hx : r.Fin x) (hb : |r.val x| ≤ 2) :
    r.Fin (x * x) ∧ |r.val (x * x) - r.val x ^ 2| ≤ 1 / 2 ^ 50 := by
  have hs : |r.val x * r.val x| ≤ 4 := by
    rw [abs_mul]
    nlinarith [abs_nonneg (r.val x)]
  obtain ⟨h1, h2⟩ := raw_mul hl.toAccurate hx hx hs (by norm_num)
  refine ⟨h1, ?_⟩
  rw [sq]
  refine h2.trans (by norm_num)

/-- The coefficients of a conjugate pair. -/
theorem pairCoeffs_near (e : Err) {p : Cx R} (hp : r.CFin p) (hb : r.val p.re ^ 2 + r.val p.im ^ 2 ≤ 4) :
    ∃ a, pairCoeffs e p (conj p) = .ok a ∧ r.Fin a.1 ∧ r.Fin a.2 ∧ |r.val a.1 - -2 * r.val p.re| ≤ 1 / 2 ^ 48 ∧
      |r.val a.2 - (r.val p.re ^ 2 + r.val p.im ^ 2)| ≤ 1 / 2 ^ 48 := by
  have ha := hl.toAccurate
  have hre : |r.val p.re| ≤ 2 := abs_le_of_sq_le_sq (by nlinarith [sq_nonneg (r.val p.im)]) (by norm_num)
  have him : |r.val p.im| ≤ 2 := abs_le_of_sq_le_sq (by nlinarith [sq_nonneg (r.val p.re)]) (by norm_num)
  obtain ⟨f1, e1⟩ := sq_near hl hp.1 hre
  obtain ⟨f2, e2⟩ := sq_near hl hp.2 him
  by_cases h : r.val p.im = 0
  · obtain ⟨g1, g2⟩ := ha.neg _ hp.2
    have hs : |r.val p.re + r.val p.re| ≤ 4 := by rw [abs_le] at *; constructor <;> linarith
    obtain ⟨f3, e3⟩ := raw_add ha hp.1 hp.1 hs (by norm_num)
    obtain ⟨f4, e4⟩ := ha.neg _ f3
    refine ⟨(-(p.re + p.re), p.re * p.re), ?_, f4, f1, ?_, ?_⟩
    · unfold pairCoeffs
      rw [if_neg (by rw [Bool.not_eq_true, fne_zero_false hl hp.2]; exact h),
        if_neg (by rw [Bool.not_eq_true, fne_zero_false hl (show r.Fin (conj p).im from g1)]
                   show r.val (-p.im) = 0
                   rw [g2, h, neg_zero])]
      rfl
    · show |r.val (-(p.re + p.re)) - _| ≤ _
      rw [e4]
      rw [abs_le] at *
      norm_num at *
      constructor <;> linarith
    · show |r.val (p.re * p.re) - _| ≤ _
      rw [h]
      rw [abs_le] at *
      norm_num at *
      constructor <;> linarith
  · have h2 := In.neg ha (In.two ha (r := r))
    have hv2 : r.val (-2 : R) = -2 := le_antisymm h2.2.2 h2.2.1
    have hm : |r.val (-2 : R) * r.val p.re| ≤ 4 := by
      rw [hv2]; rw [abs_le] at *; constructor <;> linarith
    obtain ⟨f3, e3⟩ := raw_mul ha h2.1 hp.1 hm (by norm_num)
    have hs : |r.val (p.re * p.re) + r.val (p.im * p.im)| ≤ 5 := by
      rw [abs_le] at *
      norm_num at *
      constructor <;> nlinarith [sq_nonneg (r.val p.re), sq_nonneg (r.val p.im)]
    obtain ⟨f4, e4⟩ := raw_add ha f1 f2 hs (by norm_num)
    refine ⟨(-2 * p.re, cnorm p), ?_, f3, f4, ?_, ?_⟩
    · unfold pairCoeffs
      rw [if_pos ((fne_zero hl hp.2).2 h), ceq_conj hl hp]
      rfl
    · show |r.val (-2 * p.re) - _| ≤ _
      rw [hv2] at e3
      refine e3.trans (by norm_num)
    · show |r.val (p.re * p.re + p.im * p.im) - _| ≤ _
      rw [abs_le] at *
      norm_num at *
      constructor <;> linarith

theorem pole_denom (e : Err) {p : Cx R} (h : r.PoleIn p) : ∃ a, pairCoeffs e p (conj p) = .ok a ∧ Denom r a.1 a.2 := by
  obtain ⟨hf, h1, h2, h3⟩ := h
  obtain ⟨a, e1, f1, f2, e2, e3⟩ := pairCoeffs_near hl e hf (by norm_num at *; linarith)
  refine ⟨a, e1, ?_⟩
  have hre : |r.val p.re| ≤ 1 :=
    by
    have h4 : r.val p.re ^ 2 ≤ 1 ^ 2 := by
      have := sq_nonneg (r.val p.im)
      norm_num at h1
      linarith
    exact abs_le_of_sq_le_sq h4 (by norm_num)
  have hn : 0 ≤ r.val p.re ^ 2 + r.val p.im ^ 2 := by positivity
  generalize r.val p.re ^ 2 + r.val p.im ^ 2 = n at *
  rw [abs_le] at *
  norm_num at *
  refine ⟨⟨f1, ?_, ?_⟩, ⟨f2, ?_, ?_⟩, ?_, ?_, ?_⟩ <;> norm_num <;> linarith

theorem zero_numer (e : Err) {s : ℝ} (hs : s = 1 ∨ s = -1) {z : Cx R} (h : r.ZeroIn s z) :
    ∃ b, pairCoeffs e z (conj z) = .ok b ∧ Numer r s b.1 b.2 := by
  obtain ⟨hf, h0, h1, h2⟩ := h
  obtain ⟨a, e1, f1, f2, e2, e3⟩ := pairCoeffs_near hl e hf h1
  refine ⟨a, e1, ?_⟩
  have hre : |r.val z.re| ≤ 2 := abs_le_of_sq_le_sq (by nlinarith [sq_nonneg (r.val z.im)]) (by norm_num)
  generalize r.val z.re ^ 2 + r.val z.im ^ 2 = n at *
  rw [abs_le] at *
  norm_num at *
  refine ⟨⟨f1, ?_, ?_⟩, ⟨f2, ?_, ?_⟩, ?_⟩ <;> norm_num
  · linarith
  · linarith
  · linarith
  · linarith
  · rcases hs with rfl | rfl <;> linarith

/-- What `setCoefficients (1, a1, a2, 1, b1, b2)` stores. -/
theorem coeffs_sect {s : ℝ} (hs : s = 1 ∨ s = -1) {a1 a2 b1 b2 : R} (hd : Denom r a1 a2) (hn : Numer r s b1 b2) :
    ∃ b k, coeffsR 1 a1 a2 1 b1 b2 = .ok b ∧ Sect r s b k := by
  have ha := hl.toAccurate
  have h1 := In.one ha (r := r)
  have hv1 : r.val (1 : R) = 1 := le_antisymm h1.2.2 h1.2.1
  have key : ∀ {v : R}, r.In v (-8) 8 → r.Fin (v / 1) ∧ |r.val (v / 1) - r.val v| ≤ 1 / 2 ^ 49 := by
    intro v hv
    have hb : |r.val v / r.val (1 : R)| ≤ 8 := by rw [hv1, _root_.div_one]; exact abs_le.2 hv.2
    obtain ⟨f, e⟩ := raw_div ha hv.1 h1.1 (by rw [hv1]; norm_num) hb (by norm_num)
    rw [hv1, _root_.div_one] at e
    exact ⟨f, e.trans (by norm_num)⟩
  obtain ⟨i1, i2, j1, j2, j3⟩ := hd
  obtain ⟨n1, n2, n3⟩ := hn
  obtain ⟨f1, e1⟩ := key (In.mono i1 (by norm_num) (by norm_num))
  obtain ⟨f2, e2⟩ := key (In.mono i2 (by norm_num) (by norm_num))
  obtain ⟨f3, e3⟩ := key (In.mono h1 (by norm_num) (by norm_num))
  obtain ⟨f4, e4⟩ := key n1
  obtain ⟨f5, e5⟩ := key n2
  have b1' := i1.2; have b2' := i2.2; have b3' := n1.2; have b4' := n2.2
  rw [hv1] at e3
  refine ⟨{ a0 := 1, a1 := a1 / 1, a2 := a2 / 1, b0 := 1 / 1, b1 := b1 / 1, b2 := b2 / 1 },
    ⟨1, r.val (a1 / 1), r.val (a2 / 1), r.val (1 / 1 : R), r.val (b1 / 1), r.val (b2 / 1)⟩, ?_, ?_⟩
  · have n := ha.not_nan
    simp [coeffsR, n _ h1.1, n _ i1.1, n _ i2.1, n _ n1.1, n _ n2.1]
  · generalize r.val a1 = A1 at *
    generalize r.val a2 = A2 at *
    generalize r.val b1 = B1 at *
    generalize r.val b2 = B2 at *
    rw [abs_le] at *
    norm_num at e1 e2 e3 e4 e5 j1 j2 j3 n3 b1' b2' b3' b4'
    refine ⟨⟨rfl, ⟨f1, rfl⟩, ⟨f2, rfl⟩, ⟨f3, rfl⟩, ⟨f4, rfl⟩, ⟨f5, rfl⟩⟩, ?_, h1, ⟨f1, ?_, ?_⟩, ⟨f2, ?_, ?_⟩,
      ⟨f3, ?_, ?_⟩, ⟨f4, ?_, ?_⟩, ⟨f5, ?_, ?_⟩, ?_, ?_⟩ <;> (try simp only) <;> norm_num
    · apply Coeffs.stable_of_jury <;> simp only <;> linarith
    all_goals first | linarith | (rcases hs with rfl | rfl <;> linarith)

/-- Every good pair gives a good section. -/
theorem pair_sect {s : ℝ} (hs : s = 1 ∨ s = -1) {pr : PoleZeroPair R} (h : r.PairOk s pr) :
    ∃ b k, pairR pr = .ok b ∧ Sect r s b k := by
  have ha := hl.toAccurate
  cases h with
  | two hp hz =>
    rename_i p z
    obtain ⟨a, e1, hd⟩ := pole_denom hl .twoPolePoles hp
    obtain ⟨b, e2, hn⟩ := zero_numer hl .twoPoleZeros hs hz
    obtain ⟨q, k, e3, hq⟩ := coeffs_sect hl hs hd hn
    refine ⟨q, k, ?_, hq⟩
    unfold pairR
    rw [if_neg, twoPoleR, e1]
    · show (pairCoeffs .twoPoleZeros z (conj z)).bind _ = _
      rw [e2]
      exact e3
    · unfold PoleZeroPair.isSinglePole
      rw [Bool.and_eq_true, not_and]
      intro _ h
      unfold ceq at h
      rw [Bool.and_eq_true] at h
      obtain ⟨g1, g2⟩ := ha.neg _ hz.fin.2
      have h1 := (hl.feq _ _ hz.fin.1 r.zero.1).1 h.1
      have h2 := (hl.feq _ _ g1 r.zero.1).1 h.2
      rw [r.zero.2] at h1 h2
      rw [g2] at h2
      have := hz.big
      rw [h1, neg_eq_zero.1 h2] at this
      norm_num at this
  | one hp hz =>
    rename_i p z
    obtain ⟨g1, g2⟩ := ha.neg _ hp.fin.1
    obtain ⟨g3, g4⟩ := ha.neg _ hz.fin.1
    have h1 := hp.right; have h2 := hp.left; have h3 := abs_le.1 hz.small; have h4 := hz.away
    have hd : Denom r (-p.re) 0 := by
      refine ⟨⟨g1, ?_, ?_⟩, ⟨r.zero.1, ?_, ?_⟩, ?_, ?_, ?_⟩ <;> (try rw [g2]) <;> (try rw [r.zero.2]) <;>
        norm_num at * <;> linarith
    have hn : Numer r s (-z.re) 0 := by
      refine ⟨⟨g3, ?_, ?_⟩, ⟨r.zero.1, ?_, ?_⟩, ?_⟩ <;> (try rw [g4]) <;> (try rw [r.zero.2]) <;>
        norm_num at * <;> linarith
    obtain ⟨q, k, e3, hq⟩ := coeffs_sect hl hs hd hn
    refine ⟨q, k, ?_, hq⟩
    have hz0 : ceq (ofR 0 : Cx R) (ofR 0) = true := by
      unfold ceq
      have := (hl.feq (0 : R) 0 r.zero.1 r.zero.1).2 rfl
      show (feq (0 : R) 0 && feq (0 : R) 0) = true
      rw [this]; rfl
    unfold pairR
    rw [if_pos (by unfold PoleZeroPair.isSinglePole; rw [hz0]; rfl), onePoleR,
      if_neg (by rw [Bool.not_eq_true, fne_zero_false hl hp.fin.2]; exact hp.real),
      if_neg (by rw [Bool.not_eq_true, fne_zero_false hl hz.fin.2]; exact hz.real)]
    exact e3

/-- The identity. -/
theorem ident_sect : ∃ b k, identR = .ok b ∧ Sect r 1 b k := by
  refine coeffs_sect hl (.inl rfl) (a1 := 0) (a2 := 0) (b1 := 0) (b2 := 0) ?_ ?_
  · refine ⟨⟨r.zero.1, ?_, ?_⟩, ⟨r.zero.1, ?_, ?_⟩, ?_, ?_, ?_⟩ <;> (try rw [r.zero.2]) <;> norm_num
  · refine ⟨⟨r.zero.1, ?_, ?_⟩, ⟨r.zero.1, ?_, ?_⟩, ?_⟩ <;> (try rw [r.zero.2]) <;> norm_num

/-! ## Response -/

theorem ratio_near {b a : R} (ha0 : r.In a 1 1) (hb : r.In b (-9) 9) :
    r.Fin (b * a / a) ∧ |r.val (b * a / a) - r.val b| ≤ 1 / 2 ^ 48 := by
  have ha := hl.toAccurate
  have hv : r.val a = 1 := le_antisymm ha0.2.2 ha0.2.1
  have hb' := hb.2
  obtain ⟨f1, e1⟩ := raw_mul ha hb.1 ha0.1 (M := 9) (by rw [hv, mul_one]; exact abs_le.2 hb.2) (by norm_num)
  rw [hv, mul_one] at e1
  have hq : |r.val (b * a) / r.val a| ≤ 10 := by
    rw [hv, _root_.div_one]
    rw [abs_le] at *
    norm_num at *
    constructor <;> linarith
  obtain ⟨f2, e2⟩ := raw_div ha f1 ha0.1 (by rw [hv]; norm_num) hq (by norm_num)
  rw [hv, _root_.div_one] at e2
  refine ⟨f2, ?_⟩
  rw [abs_le] at *
  norm_num at *
  constructor <;> linarith

/-- `x + v * c` -/
theorem fma_near {x v c : R} (hx : r.In x (-40) 40) (hv : r.In v (-10) 10) (hc : r.In c (-2) 2) :
    r.Fin (x + v * c) ∧ |r.val (x + v * c) - (r.val x + r.val v * r.val c)| ≤ 1 / 2 ^ 46 := by
  have ha := hl.toAccurate
  have hm : |r.val v * r.val c| ≤ 20 := by
    rw [abs_mul]
    have := mul_le_mul (abs_le.2 hv.2) (abs_le.2 hc.2) (abs_nonneg _) (by norm_num)
    norm_num at this ⊢
    exact this
  obtain ⟨f1, e1⟩ := raw_mul ha hv.1 hc.1 hm (by norm_num)
  have hx' := hx.2
  generalize r.val v * r.val c = p at *
  have hs : |r.val x + r.val (v * c)| ≤ 61 := by
    rw [abs_le] at *
    norm_num at *
    constructor <;> linarith
  obtain ⟨f2, e2⟩ := raw_add ha hx.1 f1 hs (by norm_num)
  refine ⟨f2, ?_⟩
  rw [abs_le] at *
  norm_num at *
  constructor <;> linarith

/-- A point on the unit circle near `s`. -/
structure Near (r : Rounds R u η Ω) (s : ℝ) (z : Cx R) : Prop where
  fin : r.CFin z
  re : |r.val z.re - s| ≤ 1 / 2 ^ 43
  im : |r.val z.im| ≤ 1 / 2 ^ 43

omit hl in
theorem Near.inRe {s : ℝ} (hs : s = 1 ∨ s = -1) {z : Cx R} (h : Near r s z) : r.In z.re (-2) 2 := by
  have := abs_le.1 h.re
  norm_num at this
  rcases hs with rfl | rfl <;> exact ⟨h.fin.1, by linarith, by linarith⟩

omit hl in
theorem Near.inIm {s : ℝ} {z : Cx R} (h : Near r s z) : r.In z.im (-2) 2 := by
  have := abs_le.1 h.im
  norm_num at this
  exact ⟨h.fin.2, by linarith, by linarith⟩

/-- a quadratic polynomial near `±1` -/
theorem quad_near {s B : ℝ} (hs : s = 1 ∨ s = -1) {x0 : Cx R} {v1 v2 : R} {z1 z2 : Cx R} {t1 t2 : ℝ} (h1 : Near r s z1)
    (h2 : Near r 1 z2) (hB : B ≤ 9)
    (hx : r.In x0.re (-(37 / 4)) (37 / 4)) (hi : r.Fin x0.im) (hi0 : r.val x0.im = 0) (hv1 : r.Fin v1) (hv2 : r.Fin v2)
    (ht1 : |t1| ≤ B) (ht2 : |t2| ≤ B) (e1 : |r.val v1 - t1| ≤ 1 / 2 ^ 48)
    (e2 : |r.val v2 - t2| ≤ 1 / 2 ^ 48) :
    r.CFin (addmul (addmul x0 v1 z1) v2 z2) ∧
      |(r.cval (addmul (addmul x0 v1 z1) v2 z2)).re - (r.val x0.re + s * t1 + t2)| ≤ (|t1| + |t2|) / 2 ^ 43 + 1 / 2 ^ 44 ∧
      ‖r.cval (addmul (addmul x0 v1 z1) v2 z2)‖ ≤ 2 ^ 6 ∧
      |(r.cval (addmul (addmul x0 v1 z1) v2 z2)).im| ≤ (|t1| + |t2|) / 2 ^ 43 + 1 / 2 ^ 44 := by
  have q1 := h1.inRe hs; have q2 := h1.inIm
  have q3 := h2.inRe (.inl rfl); have q4 := h2.inIm
  have r1 := h1.re; have r2 := h1.im; have r3 := h2.re; have r4 := h2.im
  have iv1 : r.In v1 (-10) 10 := by
    rw [abs_le] at *
    norm_num at *
    exact ⟨hv1, by linarith, by linarith⟩
  have iv2 : r.In v2 (-10) 10 := by
    rw [abs_le] at *
    norm_num at *
    exact ⟨hv2, by linarith, by linarith⟩
  have i0 : r.In x0.im (-(37 / 4)) (37 / 4) := ⟨hi, by rw [hi0]; norm_num, by rw [hi0]; norm_num⟩
  have prod : ∀ {v c : R} {t w : ℝ}, |r.val v - t| ≤ 1 / 2 ^ 48 → |t| ≤ 9 → |r.val c - w| ≤ 1 / 2 ^ 43 → |w| ≤ 1 →
      |r.val v * r.val c - t * w| ≤ |t| / 2 ^ 43 + 1 / 2 ^ 47 := by
    intro v c t w hv ht hc hw
    have e : r.val v * r.val c - t * w = (r.val v - t) * (r.val c - w) + (r.val v - t) * w + t * (r.val c - w) := by ring
    rw [e]
    refine (abs_add_le _ _).trans ?_
    have b1 : |(r.val v - t) * (r.val c - w) + (r.val v - t) * w| ≤ 1 / 2 ^ 48 * (1 / 2 ^ 43) + 1 / 2 ^ 48 * 1 := by
      refine (abs_add_le _ _).trans (add_le_add ?_ ?_) <;> rw [abs_mul] <;>
        exact mul_le_mul hv (by assumption) (abs_nonneg _) (by positivity)
    have b2 : |t * (r.val c - w)| ≤ |t| * (1 / 2 ^ 43) := by
      rw [abs_mul]; exact mul_le_mul_of_nonneg_left hc (abs_nonneg _)
    norm_num at *
    linarith
  have hsa : |s| ≤ 1 := by rcases hs with rfl | rfl <;> norm_num
  have ht1' := ht1.trans hB
  have ht2' := ht2.trans hB
  have p1 := prod e1 ht1' r1 hsa
  have p2 := prod e1 ht1' (w := 0) (by rw [sub_zero]; exact r2) (by norm_num)
  have p3 := prod e2 ht2' r3 (by norm_num)
  have p4 := prod e2 ht2' (w := 0) (by rw [sub_zero]; exact r4) (by norm_num)
  obtain ⟨f1, g1⟩ := fma_near hl (In.mono hx (by norm_num) (by norm_num)) iv1 q1
  obtain ⟨f2, g2⟩ := fma_near hl (In.mono i0 (by norm_num) (by norm_num)) iv1 q2
  have ht1a : |t1 * s| ≤ 9 := by
    rw [abs_mul]
    calc |t1| * |s| ≤ 9 * 1 := mul_le_mul ht1' hsa (abs_nonneg _) (by norm_num)
      _ = 9 := by norm_num
  have hx2 := hx.2
  obtain ⟨T1, hT1⟩ : ∃ T, T = |t1| := ⟨_, rfl⟩
  obtain ⟨T2, hT2⟩ : ∃ T, T = |t2| := ⟨_, rfl⟩
  rw [← hT1] at p1 p2 ht1' ⊢
  rw [← hT2] at p3 p4 ht2' ⊢
  have hT2' : t2 ≤ T2 ∧ -T2 ≤ t2 := by rw [hT2]; exact ⟨le_abs_self _, neg_abs_le _⟩
  clear hT1 hT2 ht1 ht2 prod
  have m1 : r.In (x0.re + v1 * z1.re) (-40) 40 := by
    refine ⟨f1, ?_, ?_⟩ <;> rw [abs_le] at * <;> generalize r.val v1 * r.val z1.re = w at * <;> norm_num at * <;> linarith
  have m2 : r.In (x0.im + v1 * z1.im) (-40) 40 := by
    refine ⟨f2, ?_, ?_⟩ <;> rw [abs_le] at * <;> generalize r.val v1 * r.val z1.im = w at * <;> norm_num at * <;> linarith
  obtain ⟨f3, g3⟩ := fma_near hl m1 iv2 q3
  obtain ⟨f4, g4⟩ := fma_near hl m2 iv2 q4
  refine ⟨⟨f3, f4⟩, ?_, ?_, ?_⟩
  · show |r.val (x0.re + v1 * z1.re + v2 * z2.re) - _| ≤ _
    generalize r.val v1 * r.val z1.re = w at *
    generalize r.val v2 * r.val z2.re = w' at *
    rw [mul_comm s t1]
    generalize t1 * s = t1s at *
    rw [abs_le] at *
    norm_num at *
    constructor <;> linarith
  · refine (Complex.norm_le_abs_re_add_abs_im _).trans ?_
    show |r.val (x0.re + v1 * z1.re + v2 * z2.re)| + |r.val (x0.im + v1 * z1.im + v2 * z2.im)| ≤ _
    have n1 : |r.val (x0.re + v1 * z1.re + v2 * z2.re)| ≤ 30 := by
      generalize r.val v1 * r.val z1.re = w at *
      generalize r.val v2 * r.val z2.re = w' at *
      generalize t1 * s = t1s at *
      rw [abs_le] at *
      norm_num at *
      constructor <;> linarith
    have n2 : |r.val (x0.im + v1 * z1.im + v2 * z2.im)| ≤ 30 := by
      generalize r.val v1 * r.val z1.im = w at *
      generalize r.val v2 * r.val z2.im = w' at *
      rw [abs_le] at *
      norm_num at *
      constructor <;> linarith
    norm_num
    linarith
  · show |r.val (x0.im + v1 * z1.im + v2 * z2.im)| ≤ _
    generalize r.val v1 * r.val z1.im = w at *
    generalize r.val v2 * r.val z2.im = w' at *
    rw [MulZeroClass.mul_zero, _root_.sub_zero] at p2 p4
    rw [hi0] at g2
    rw [abs_le] at *
    norm_num at *
    constructor <;> linarith

theorem top_near {s : ℝ} (hs : s = 1 ∨ s = -1) {b : Biquad R} {k : Coeffs} (h : Sect r s b k) {z1 z2 : Cx R}
    (h1 : Near r s z1) (h2 : Near r 1 z2) :
    r.CFin (b.respTop z1 z2) ∧ 1 / 2 ^ 20 ≤ ‖r.cval (b.respTop z1 z2)‖ ∧ ‖r.cval (b.respTop z1 z2)‖ ≤ 2 ^ 6 := by
  obtain ⟨f0, e0⟩ := ratio_near hl h.a0 h.b0
  obtain ⟨f1, e1⟩ := ratio_near hl h.a0 h.b1
  obtain ⟨f2, e2⟩ := ratio_near hl h.a0 h.b2
  have b0 := h.b0.2; have b1 := h.b1.2; have b2 := h.b2.2
  have i0 : r.In (b.b0 * b.a0 / b.a0) (-(37 / 4)) (37 / 4) := by
    refine ⟨f0, ?_, ?_⟩ <;> rw [abs_le] at * <;> norm_num at * <;> linarith
  obtain ⟨p1, p2, p3, -⟩ := quad_near hl (x0 := ofR (b.getB0 / b.getA0)) hs h1 h2 le_rfl i0 r.zero.1 r.zero.2 f1 f2
    (abs_le.2 b1) (abs_le.2 b2) e1 e2
  refine ⟨p1, ?_, p3⟩
  refine le_trans ?_ (Complex.re_le_norm _)
  have ht := h.top
  have a1 := abs_le.2 b1; have a2 := abs_le.2 b2
  change |r.val (b.b0 * b.a0 / b.a0) - r.val b.b0| ≤ _ at e0
  change |(r.cval (b.respTop z1 z2)).re - (r.val (b.b0 * b.a0 / b.a0) + _ + _)| ≤ _ at p2
  generalize |r.val b.b1| = t1a at *
  generalize |r.val b.b2| = t2a at *
  rw [abs_le] at e0 p2
  norm_num at *
  linarith

theorem bot_near {s : ℝ} (hs : s = 1 ∨ s = -1) {b : Biquad R} {k : Coeffs} (h : Sect r s b k) {z1 z2 : Cx R}
    (h1 : Near r s z1) (h2 : Near r 1 z2) :
    r.CFin (b.respBot z1 z2) ∧ 1 / 2 ^ 40 ≤ ‖r.cval (b.respBot z1 z2)‖ ∧ ‖r.cval (b.respBot z1 z2)‖ ≤ 2 ^ 6 := by
  have hone := In.one hl.toAccurate (r := r)
  have hv1 : r.val (1 : R) = 1 := le_antisymm hone.2.2 hone.2.1
  obtain ⟨f1, e1⟩ := ratio_near hl h.a0 (In.mono h.a1 (by norm_num) (by norm_num))
  obtain ⟨f2, e2⟩ := ratio_near hl h.a0 (In.mono h.a2 (by norm_num) (by norm_num))
  have b1 := h.a1.2; have b2 := h.a2.2
  obtain ⟨p1, p2, p3, -⟩ := quad_near hl (B := 3) (x0 := ofR (1 : R)) hs h1 h2 (by norm_num)
    (In.mono hone (by norm_num) (by norm_num)) r.zero.1 r.zero.2 f1 f2
    (abs_le.2 b1) ((abs_le.2 b2).trans (by norm_num)) e1 e2
  refine ⟨p1, ?_, p3⟩
  refine le_trans ?_ (Complex.re_le_norm _)
  have ht := h.bot
  have a1 := abs_le.2 b1; have a2 := abs_le.2 b2
  change |(r.cval (b.respBot z1 z2)).re - (r.val (1 : R) + _ + _)| ≤ _ at p2
  rw [hv1] at p2
  generalize |r.val b.a1| = t1a at *
  generalize |r.val b.a2| = t2a at *
  rw [abs_le] at p2
  norm_num at *
  linarith

end ops
end Iir
