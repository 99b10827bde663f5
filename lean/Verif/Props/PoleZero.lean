import Verif.Props.Sections
import Mathlib.Tactic.LinearCombination

/-! # C24: poles and zeros of a section and back; C48: pole/zero containers -/

set_option linter.unusedSectionVars false

namespace Iir
open FArith XR Spec Exec Cx

/-! ## C24 -/

/-- `p1`, `p2` are the two roots of `a z² + b z + c` (with multiplicity). -/
def Spec.AreRoots (a b c : ℝ) (p1 p2 : ℂ) : Prop := ∀ z : ℂ, a * z ^ 2 + b * z + c = a * (z - p1) * (z - p2)

/-- the two roots the library computes -/
noncomputable def root1 (a b c : ℝ) : ℂ := -(sqrtC ((b * b - 4 * a * c : ℝ) : ℂ) + b) / ((2 * a : ℝ) : ℂ)
noncomputable def root2 (a b c : ℝ) : ℂ := (sqrtC ((b * b - 4 * a * c : ℝ) : ℂ) - b) / ((2 * a : ℝ) : ℂ)

theorem areRoots {a : ℝ} (ha : a ≠ 0) (b c : ℝ) : AreRoots a b c (root1 a b c) (root2 a b c) := by
  intro z
  have h := sqrtC_sq ((b * b - 4 * a * c : ℝ) : ℂ)
  have ha' : (a : ℂ) ≠ 0 := by exact_mod_cast ha
  simp only [root1, root2]
  generalize sqrtC ((b * b - 4 * a * c : ℝ) : ℂ) = s at h
  push_cast at h ⊢
  field_simp
  linear_combination h

theorem sqrtC_real_or_imag (x : ℝ) : (sqrtC x).im = 0 ∨ (sqrtC x).re = 0 := by
  rcases le_total 0 x with h | h
  · left; simp [sqrtC, abs_of_nonneg h]
  · right; simp [sqrtC, abs_of_nonpos h]

theorem roots_matched {a : ℝ} (b c : ℝ) : Matched (root1 a b c) (root2 a b c) := by
  have h := sqrtC_real_or_imag (b * b - 4 * a * c)
  simp only [root1, root2]
  generalize sqrtC ((b * b - 4 * a * c : ℝ) : ℂ) = s at h
  rcases h with h | h
  · left
    simp only [Complex.div_ofReal_im]
    simp [h]
  · right
    apply Complex.ext
    · simp only [Complex.div_ofReal_re, Complex.conj_re]; simp [h]
    · simp only [Complex.div_ofReal_im, Complex.conj_im]; simp [neg_div]

theorem ofBiquad_second {k : Coeffs} (h0 : k.a0 ≠ 0) (hb0 : k.b0 ≠ 0) (h2 : k.a2 ≠ 0 ∨ k.b2 ≠ 0)
    {b : Biquad XR} (hb : HasCoeffs b k) :
    BiquadPoleState.ofBiquad b = .ok
      { pz := ⟨⟨ofC (root1 k.a0 k.a1 k.a2), ofC (root2 k.a0 k.a1 k.a2)⟩,
          ⟨ofC (root1 k.b0 k.b1 k.b2), ofC (root2 k.b0 k.b1 k.b2)⟩⟩
        gain := fin (k.b0 / k.a0) } := by
  have e1 : (2 * k.a0) ≠ 0 := by positivity
  have e2 : (2 * k.b0) ≠ 0 := by positivity
  have hk : ∀ x : ℝ, (⟨fin x, fin 0⟩ : Cx XR) = ofC (x : ℂ) := fun x => by simp [ofC]
  unfold BiquadPoleState.ofBiquad
  simp only [hb.a0, hb.a1, hb.a2, hb.b0, hb.b1, hb.b2]
  have hcond : (feq (fin k.a2) (0 : XR) && feq (fin k.b2) (0 : XR)) = false := by
    rcases h2 with h | h <;> simp [h]
  rw [hcond]
  simp only [Bool.false_eq_true, if_false, lit_ofNat, fin_mul, fin_sub, hk, lit_zero, csqrt_ofC, addR_ofC,
    subR_ofC, cneg_ofC, divR_ofC _ e1, divR_ofC _ e2, ComplexPair.isNan, isNan_ofC, Bool.or_self,
    fin_div _ h0]
  rfl

/-- **C24**, second order sections: `BiquadPoleState` returns the poles, the zeros and the gain, and
`setPoleZeroForm` of it restores the normalised coefficients on any section.  (Sections with `a2 = 0`
and `b2 = 0` are missing: for those it is false, see below.) -/
theorem C24_second_order_partial {b : Biquad XR} {k : Coeffs} (hb : HasCoeffs b k) (hb0 : k.b0 ≠ 0)
    (h2 : k.a2 ≠ 0 ∨ k.b2 ≠ 0) :
    ∃ p1 p2 z1 z2 : ℂ, AreRoots k.a0 k.a1 k.a2 p1 p2 ∧ AreRoots k.b0 k.b1 k.b2 z1 z2 ∧
      b.getPoleZeros = .ok [⟨⟨ofC p1, ofC p2⟩, ⟨ofC z1, ofC z2⟩⟩] ∧
      ∃ bps, BiquadPoleState.ofBiquad b = .ok bps ∧ ∀ s, ∃ s',
        Biquad.setPoleZeroForm bps s = (.ok (), s') ∧
        HasCoeffs s' { a0 := 1, a1 := k.a1 / k.a0, a2 := k.a2 / k.a0, b0 := k.b0 / k.a0,
                       b1 := k.b1 / k.a0, b2 := k.b2 / k.a0 } := by
  have h0 := hb.ne
  have hof := ofBiquad_second h0 hb0 h2 hb
  refine ⟨_, _, _, _, areRoots h0 _ _, areRoots hb0 _ _, ?_, _, hof, fun s => ?_⟩
  · simp [Biquad.getPoleZeros, hof, Bind.bind, Res.bind, pure]
  have hpr := areRoots h0 k.a1 k.a2
  have hzr := areRoots hb0 k.b1 k.b2
  have hpm := roots_matched (a := k.a0) k.a1 k.a2
  have hzm := roots_matched (a := k.b0) k.b1 k.b2
  generalize root1 k.a0 k.a1 k.a2 = p1 at *
  generalize root2 k.a0 k.a1 k.a2 = p2 at *
  generalize root1 k.b0 k.b1 k.b2 = z1 at *
  generalize root2 k.b0 k.b1 k.b2 = z2 at *
  -- Vieta
  have vieta : ∀ {a b c : ℝ} {p q : ℂ}, a ≠ 0 → AreRoots a b c p q → (p + q).re = -(b / a) ∧ (p * q).re = c / a := by
    intro a b c p q ha h
    have ha' : (a : ℂ) ≠ 0 := by exact_mod_cast ha
    have c0 := h 0
    have c1 := h 1
    have e2 : p * q = ((c / a : ℝ) : ℂ) := by
      push_cast; field_simp; linear_combination -c0
    have e1 : p + q = ((-(b / a) : ℝ) : ℂ) := by
      push_cast; field_simp; linear_combination c1 - c0
    exact ⟨by rw [e1, Complex.ofReal_re], by rw [e2, Complex.ofReal_re]⟩
  obtain ⟨vp1, vp2⟩ := vieta h0 hpr
  obtain ⟨vz1, vz2⟩ := vieta hb0 hzr
  have hns : (PoleZeroPair.isSinglePole ⟨⟨ofC p1, ofC p2⟩, ⟨ofC z1, ofC z2⟩⟩ : Bool) = false := by
    have : ¬ (p2 = 0 ∧ z2 = 0) := by
      rintro ⟨rfl, rfl⟩
      rw [mul_zero, Complex.zero_re, eq_comm, div_eq_zero_iff] at vp2 vz2
      tauto
    simp only [PoleZeroPair.isSinglePole, lit_zero, ofR_fin, ceq_ofC, Complex.ofReal_zero]
    by_contra hc
    simp at hc; tauto
  refine ⟨Biquad.scaled (fin (k.b0 / k.a0)) (twoPoleCoeffs 1 p1 z1 p2 z2).norm.toX, ?_, ?_⟩
  · simp only [Biquad.setPoleZeroForm, bind_def]
    rw [Biquad.stores_setPoleZeroPair, Biquad.pairR, if_neg (by simp [hns]), twoPoleR_matched hpm hzm]
    rfl
  · rw [hasCoeffs_iff]
    refine ⟨?_, one_ne_zero⟩
    simp only [Biquad.scaled, Biquad.toX, Coeffs.norm, twoPoleCoeffs, vp1, vp2, vz1, vz2, fin_mul, Biquad.mk.injEq, fin_inj]
    refine ⟨trivial, by ring, trivial, ?_, ?_, by ring⟩ <;> field_simp

/-- a case: `1/(1 - z⁻¹/2)` squared over `2 + z⁻¹`, i.e. poles 1/2, 1/2 and one zero at -1/2 -/
example : ∃ p1 p2 z1 z2 : ℂ, AreRoots 1 (-1) (1 / 4) p1 p2 ∧ AreRoots 2 1 0 z1 z2 := by
  obtain ⟨p1, p2, z1, z2, h1, h2, _⟩ := C24_second_order_partial
    (k := { a0 := 1, a1 := -1, a2 := 1 / 4, b0 := 2, b1 := 1, b2 := 0 })
    (hasCoeffs_iff.2 ⟨rfl, by simp⟩) (by simp) (by simp)
  exact ⟨p1, p2, z1, z2, h1, h2⟩

/-- **C24** is false for first order sections: `1 + 2/z` has its zero at `-2`, reported is `-1/2`, and
`setPoleZeroForm` then gives `1 + 1/(2z)`. -/
theorem C24_false_first_order :
    ∃ (b : Biquad XR) (bps : BiquadPoleState XR),
      HasCoeffs b { a0 := 1, a1 := 0, a2 := 0, b0 := 1, b1 := 2, b2 := 0 } ∧
      BiquadPoleState.ofBiquad b = .ok bps ∧ bps.pz.zeros.first = ofC (-1 / 2) ∧
      ∀ s, ∃ s', Biquad.setPoleZeroForm bps s = (.ok (), s') ∧
        HasCoeffs s' { a0 := 1, a1 := 0, a2 := 0, b0 := 1, b1 := 1 / 2, b2 := 0 } := by
  refine ⟨Biquad.toX (Coeffs.norm { a0 := 1, a1 := 0, a2 := 0, b0 := 1, b1 := 2, b2 := 0 }),
    { pz := { poles := ⟨ofC 0, ofC 0⟩, zeros := ⟨ofC (-1 / 2), ofC 0⟩ }, gain := fin 1 },
    hasCoeffs_iff.2 ⟨rfl, by simp⟩, ?_, rfl, fun s => ?_⟩
  · simp [BiquadPoleState.ofBiquad, Biquad.toX, Coeffs.norm, Biquad.getA0, Biquad.getA1, Biquad.getA2,
      Biquad.getB0, Biquad.getB1, Biquad.getB2, fin_div]
  · refine ⟨⟨fin 1, fin 0, fin 0, fin (1 / 2), fin 0, fin 1⟩, ?_, ?_⟩
    · simp only [Biquad.setPoleZeroForm, bind_def]
      rw [Biquad.stores_setPoleZeroPair, Biquad.pairR, if_pos (by simp [PoleZeroPair.isSinglePole]),
        Biquad.onePoleR, if_neg (by simp), if_neg (by simp), Biquad.coeffsR, if_neg (by simp)]
      simp [Biquad.applyScale, fin_div]
      norm_num
    · rw [hasCoeffs_iff]
      refine ⟨?_, one_ne_zero⟩
      simp [Biquad.toX, Coeffs.norm]

/-- **C24** is false for first order sections: the pole is not divided by `a0`.  `1/(2 - 1/z)` has its
pole at `1/2`, reported is `1`. -/
theorem C24_false_first_order_pole :
    ∃ (b : Biquad XR) (bps : BiquadPoleState XR),
      HasCoeffs b { a0 := 2, a1 := -1, a2 := 0, b0 := 1, b1 := 1, b2 := 0 } ∧
      BiquadPoleState.ofBiquad b = .ok bps ∧ bps.pz.poles.first = ofC 1 := by
  refine ⟨Biquad.toX (Coeffs.norm { a0 := 2, a1 := -1, a2 := 0, b0 := 1, b1 := 1, b2 := 0 }),
    { pz := { poles := ⟨ofC 1, ofC 0⟩, zeros := ⟨ofC (-1), ofC 0⟩ }, gain := fin (1 / 2) },
    hasCoeffs_iff.2 ⟨rfl, by simp⟩, ?_, ?_⟩
  · simp [BiquadPoleState.ofBiquad, Biquad.toX, Coeffs.norm, Biquad.getA0, Biquad.getA1, Biquad.getA2,
      Biquad.getB0, Biquad.getB1, Biquad.getB2, fin_div]
  · rfl

/-- **C24**: what first order sections report: the pole is right only if `a0 = 1`, the zero only if
`b1² = b0²`. -/
theorem C24_first_order_reported {b : Biquad XR} {k : Coeffs} (hb : HasCoeffs b k) (h1 : k.b1 ≠ 0)
    (ha2 : k.a2 = 0) (hb2 : k.b2 = 0) :
    b.getPoleZeros = .ok [⟨⟨ofC (-k.a1 : ℝ), ofC 0⟩, ⟨ofC (-k.b0 / k.b1 : ℝ), ofC 0⟩⟩] := by
  simp [Biquad.getPoleZeros, BiquadPoleState.ofBiquad, hb.a0, hb.a1, hb.a2, hb.b0, hb.b1, hb.b2, ha2, hb2,
    Bind.bind, Res.bind, pure, fin_div _ h1]

/-! ## C48 -/

section any
variable {R : Type} [FArith R]

theorem single_real {p : Cx R} (h : feq p.im (0 : R) = true) (h0 : feq (0 : R) 0 = true) :
    ComplexPair.single p = .ok ⟨p, ofR 0⟩ := by
  simp [ComplexPair.single, ComplexPair.isReal, h, h0, ofR]

theorem single_not_real {p : Cx R} (h : feq p.im (0 : R) = false) :
    ComplexPair.single p = .throw .singleNotReal := by
  simp [ComplexPair.single, ComplexPair.isReal, h]

/-- **C48**: `add (pole, zero)` rejects everything after an odd entry, NaN, and poles or zeros with an
imaginary part; the layout is unchanged (any arithmetic). -/
theorem C48_add_rejects (l : Layout R) (pole zero : Cx R)
    (h : l.numPoles % 2 = 1 ∨ pole.isNan = true ∨ zero.isNan = true ∨ feq pole.im (0 : R) = false ∨
      feq zero.im (0 : R) = false) :
    ∃ e, Layout.add pole zero l = (.throw e, l) := by
  unfold Layout.add
  simp only [bind_def, get_def]
  by_cases h1 : l.numPoles % 2 = 1
  · exact ⟨.cantAdd2ndOrder, by simp [h1]⟩
  have e1 : (l.numPoles % 2 == 1) = false := by simpa using h1
  rw [e1]
  cases h2 : pole.isNan
  case true => exact ⟨.poleIsNaN, by simp⟩
  cases h3 : zero.isNan
  case true => exact ⟨.zeroIsNaN, by simp⟩
  simp only [throwIf_false, PoleZeroPair.single]
  by_cases h4 : feq pole.im (0 : R) = false
  · exact ⟨.singleNotReal, by simp [single_not_real h4, Bind.bind, Res.bind]⟩
  · have h5 : feq zero.im (0 : R) = false := by
      rw [h2, h3] at h; simp at h; tauto
    rw [single_not_real h5]
    refine ⟨.singleNotReal, ?_⟩
    rcases hs : ComplexPair.single pole with a | e | u
    · simp [Bind.bind, Res.bind]
    · have : e = .singleNotReal := by
        unfold ComplexPair.single at hs; simp only at hs; split_ifs at hs; simpa using hs.symm
      subst this; simp [Bind.bind, Res.bind]
    · unfold ComplexPair.single at hs; simp only at hs; split_ifs at hs

/-- **C48**: and accepts everything else while there is room: one more pole, and `getPair` returns it. -/
theorem C48_add_accepts (h0 : feq (0 : R) 0 = true) (l : Layout R) (pole zero : Cx R)
    (h1 : l.numPoles % 2 = 0) (h2 : pole.isNan = false) (h3 : zero.isNan = false)
    (h4 : feq pole.im (0 : R) = true) (h5 : feq zero.im (0 : R) = true)
    (hroom : l.numPoles / 2 < l.pairs.length) :
    ∃ l', Layout.add pole zero l = (.ok (), l') ∧ l'.numPoles = l.numPoles + 1 ∧
      l'.getPair (l.numPoles / 2 : Nat) = .ok ⟨⟨pole, ofR 0⟩, ⟨zero, ofR 0⟩⟩ ∧
      ∀ i : Nat, i < l.numPoles / 2 → l'.getPair i = l.getPair i := by
  refine ⟨{ l with numPoles := l.numPoles + 1,
                    pairs := l.pairs.set (l.numPoles / 2) ⟨⟨pole, ofR 0⟩, ⟨zero, ofR 0⟩⟩ }, ?_, rfl, ?_, ?_⟩
  · unfold Layout.add
    have e1 : (l.numPoles % 2 == 1) = false := by simp [h1]
    have e2 : PoleZeroPair.single pole zero = .ok ⟨⟨pole, ofR 0⟩, ⟨zero, ofR 0⟩⟩ := by
      simp [PoleZeroPair.single, single_real h4 h0, single_real h5 h0, Bind.bind, Res.bind, pure]
    simp [bind_def, e1, h2, h3, e2, Layout.write, hroom]
  · unfold Layout.getPair
    rw [if_neg (by simp; omega), Int.toNat_natCast]
    simp [hroom]
  · intro i hi
    unfold Layout.getPair
    rw [if_neg (by simp; omega), if_neg (by simp; omega)]
    simp [List.getElem?_set_ne (by omega : l.numPoles / 2 ≠ i)]

/-- **C48**: `addPoleZeroConjugatePairs` rejects everything after an odd entry, and NaN; the layout is
unchanged (any arithmetic). -/
theorem C48_addConjugate_rejects (l : Layout R) (pole zero : Cx R)
    (h : l.numPoles % 2 = 1 ∨ pole.isNan = true ∨ zero.isNan = true) :
    ∃ e, Layout.addPoleZeroConjugatePairs pole zero l = (.throw e, l) := by
  unfold Layout.addPoleZeroConjugatePairs
  simp only [bind_def, get_def]
  by_cases h1 : l.numPoles % 2 = 1
  · exact ⟨.cantAdd2ndOrder, by simp [h1]⟩
  have e1 : (l.numPoles % 2 == 1) = false := by simpa using h1
  rw [e1]
  cases h2 : pole.isNan
  case true => exact ⟨.poleIsNaN, by simp⟩
  cases h3 : zero.isNan
  case true => exact ⟨.zeroIsNaN, by simp⟩
  rw [h2, h3] at h; simp at h; omega

/-- **C48**: and otherwise adds the pole, the zero and their conjugates. -/
theorem C48_addConjugate_accepts (l : Layout R) (pole zero : Cx R)
    (h1 : l.numPoles % 2 = 0) (h2 : pole.isNan = false) (h3 : zero.isNan = false)
    (hroom : l.numPoles / 2 < l.pairs.length) :
    ∃ l', Layout.addPoleZeroConjugatePairs pole zero l = (.ok (), l') ∧ l'.numPoles = l.numPoles + 2 ∧
      l'.getPair (l.numPoles / 2 : Nat) = .ok ⟨⟨pole, pole.conj⟩, ⟨zero, zero.conj⟩⟩ ∧
      ∀ i : Nat, i < l.numPoles / 2 → l'.getPair i = l.getPair i := by
  refine ⟨{ l with numPoles := l.numPoles + 2,
                    pairs := l.pairs.set (l.numPoles / 2) ⟨⟨pole, pole.conj⟩, ⟨zero, zero.conj⟩⟩ }, ?_, rfl, ?_, ?_⟩
  · unfold Layout.addPoleZeroConjugatePairs
    have e1 : (l.numPoles % 2 == 1) = false := by simp [h1]
    simp [bind_def, e1, h2, h3, Layout.write, hroom, PoleZeroPair.double]
  · unfold Layout.getPair
    rw [if_neg (by simp; omega), Int.toNat_natCast]
    simp [hroom]
  · intro i hi
    unfold Layout.getPair
    rw [if_neg (by simp; omega), if_neg (by simp; omega)]
    simp [List.getElem?_set_ne (by omega : l.numPoles / 2 ≠ i)]

/-- **C48**: `add (ComplexPair, ComplexPair)` rejects unmatched pairs and everything after an odd
entry; the layout is unchanged (any arithmetic). -/
theorem C48_addPair_rejects (l : Layout R) (poles zeros : ComplexPair R)
    (h : l.numPoles % 2 = 1 ∨ poles.isMatchedPair = false ∨ zeros.isMatchedPair = false) :
    ∃ e, Layout.addPair poles zeros l = (.throw e, l) := by
  unfold Layout.addPair
  simp only [bind_def, get_def]
  by_cases h1 : l.numPoles % 2 = 1
  · exact ⟨.cantAdd2ndOrder, by simp [h1]⟩
  have e1 : (l.numPoles % 2 == 1) = false := by simpa using h1
  rw [e1]
  cases h2 : poles.isMatchedPair
  case false => exact ⟨.polesNotConj, by simp⟩
  cases h3 : zeros.isMatchedPair
  case false => exact ⟨.zerosNotConj, by simp⟩
  rw [h2, h3] at h; simp at h; omega

/-- **C48**: `getPair` rejects every index outside the pairs that were added (any arithmetic). -/
theorem C48_getPair_range (l : Layout R) (i : Int) (h : i < 0 ∨ ((l.numPoles + 1) / 2 : Nat) ≤ i) :
    l.getPair i = .throw .pairIndexOutOfBounds := by
  unfold Layout.getPair
  exact if_pos (by simpa using h)

end any

/-- `isMatchedPair` for finite numbers: conjugates, or both real and both nonzero. -/
theorem C48_matched (a b : ℂ) : (ComplexPair.isMatchedPair ⟨ofC a, ofC b⟩ : Bool) = true ↔
    (a.im ≠ 0 ∧ b = starRingEnd ℂ a) ∨ (a.im = 0 ∧ b.im = 0 ∧ b ≠ 0 ∧ a ≠ 0) := by
  unfold ComplexPair.isMatchedPair
  by_cases h : a.im = 0
  · simp [h, Complex.ext_iff]
    tauto
  · simp [h]

/-- **C48**, the gap: a pair of NaN poles is accepted by `add (ComplexPair, ComplexPair)`. -/
theorem C48_nan_pair_accepted : ∃ l' : Layout XR,
    Layout.addPair ⟨⟨nan, fin 0⟩, ⟨nan, fin 0⟩⟩ ⟨ofC 1, ofC 1⟩ (Layout.storage 2) = (.ok (), l') ∧
      l'.numPoles = 2 ∧ l'.getPair 0 = .ok ⟨⟨⟨nan, fin 0⟩, ⟨nan, fin 0⟩⟩, ⟨ofC 1, ofC 1⟩⟩ := by
  refine ⟨{ (Layout.storage 2 : Layout XR) with
              numPoles := 2, pairs := [⟨⟨⟨nan, fin 0⟩, ⟨nan, fin 0⟩⟩, ⟨ofC 1, ofC 1⟩⟩] }, ?_, rfl, rfl⟩
  · unfold Layout.addPair
    have h1 : (ComplexPair.isMatchedPair (⟨⟨nan, fin 0⟩, ⟨nan, fin 0⟩⟩ : ComplexPair XR)) = true := by
      have : fne nan (fin 0) = true := rfl
      simp [ComplexPair.isMatchedPair, this]
    have h2 : (ComplexPair.isMatchedPair (⟨ofC 1, ofC 1⟩ : ComplexPair XR)) = true := by
      rw [C48_matched]; simp
    simp [bind_def, h1, h2, Layout.storage, Layout.write, PoleZeroPair.double]

/-- cases for the acceptance theorems: a real pole into an empty layout with room for two -/
example : ∃ l', Layout.add (ofC (-1)) (infinity : Cx XR) (Layout.storage 2) = (.ok (), l') ∧
    l'.numPoles = 1 := by
  obtain ⟨l', h1, h2, _⟩ := C48_add_accepts (R := XR) (by simp) (Layout.storage 2) (ofC (-1)) infinity rfl
    (by simp) (by simp) (by simp) (by simp [infinity, ofR]) (by simp [Layout.storage])
  exact ⟨l', h1, h2⟩

end Iir
