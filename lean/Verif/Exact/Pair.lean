import Verif.Lemmas.Poison
import Verif.Exact.Section
import Verif.Props.PoleZero

/-! # The section of a pole/zero pair in exact arithmetic -/

namespace Iir
open FArith Cx Exec Spec Biquad Cascade XR

noncomputable section

/-- The section with poles `p1, p2` and zeros `z1, z2` and leading coefficients 1. -/
def pairB (p1 p2 z1 z2 : ℂ) : Biquad ℝ :=
  { a0 := 1, a1 := -(p1 + p2).re, a2 := (p1 * p2).re, b1 := -(z1 + z2).re, b2 := (z1 * z2).re, b0 := 1 }

theorem Spec.Matched.sum_im {p q : ℂ} (h : Matched p q) : (p + q).im = 0 := by
  rcases h with ⟨h1, h2⟩ | rfl
  · simp [h1, h2]
  · simp

theorem Spec.Matched.prod_im {p q : ℂ} (h : Matched p q) : (p * q).im = 0 := by
  rcases h with ⟨h1, h2⟩ | rfl
  · simp [h1, h2]
  · simp; ring

theorem Spec.Matched.ofReal_sum {p q : ℂ} (h : Matched p q) : (((p + q).re : ℝ) : ℂ) = p + q :=
  Complex.ext (by simp) (by rw [h.sum_im]; simp)

theorem Spec.Matched.ofReal_prod {p q : ℂ} (h : Matched p q) : (((p * q).re : ℝ) : ℂ) = p * q :=
  Complex.ext (by simp) (by rw [h.prod_im]; simp)

theorem pairCoeffs_ofC {e : Err} {p q : ℂ} (h : Matched p q) :
    pairCoeffs e (ofC p) (ofC q) = .ok (fin (-(p + q).re), fin (p * q).re) := by
  unfold pairCoeffs
  rcases h with ⟨h1, h2⟩ | rfl
  · simp [h1, h2]
  · by_cases hp : p.im = 0
    · simp [hp]
    · simp only [ofC_im, lit_zero, fne_fin, ne_eq, hp, not_false_eq_true, decide_true, if_true, conj_ofC,
        ceq_ofC, Bool.not_true, Bool.false_eq_true, if_false, ofC_re, lit_ofNat, fin_neg, fin_mul,
        cnorm_ofC, Res.ok.injEq, Prod.mk.injEq, fin_inj]
      constructor
      · simp; ring
      · rw [Complex.normSq_apply]; simp

theorem matched_of_pairCoeffs {e : Err} {p q : ℂ} {a : XR × XR}
    (h : pairCoeffs e (ofC p) (ofC q) = .ok a) : Matched p q := by
  unfold pairCoeffs at h
  by_cases hp : p.im = 0
  · left
    by_cases hq : q.im = 0
    · exact ⟨hp, hq⟩
    · simp [hp, hq] at h
  · right
    by_cases hq : q = (starRingEnd ℂ) p
    · exact hq
    · simp [hp, hq] at h

theorem coeffsR_fin (a1 a2 b1 b2 : ℝ) : coeffsR (1 : XR) (fin a1) (fin a2) 1 (fin b1) (fin b2) =
    .ok (Biquad.toX { a0 := 1, a1 := a1, a2 := a2, b1 := b1, b2 := b2, b0 := 1 }) := by
  simp [coeffsR, fin_div, Biquad.toX]

theorem pairR_ofC {p1 p2 z1 z2 : ℂ} (hp : Matched p1 p2) (hz : Matched z1 z2) :
    pairR ⟨⟨ofC p1, ofC p2⟩, ⟨ofC z1, ofC z2⟩⟩ = .ok (pairB p1 p2 z1 z2).toX := by
  unfold pairR
  split_ifs with h
  · simp only [PoleZeroPair.isSinglePole, lit_zero, ofR_fin, ceq_ofC, Bool.and_eq_true, decide_eq_true_eq,
      Complex.ofReal_zero] at h
    obtain ⟨rfl, rfl⟩ := h
    have h1 : p1.im = 0 := by simpa using hp.sum_im
    have h2 : z1.im = 0 := by simpa using hz.sum_im
    unfold onePoleR
    simp only [ofC_im, h1, h2, lit_zero, fne_fin, ne_eq, not_true_eq_false, decide_false,
      Bool.false_eq_true, if_false, ofC_re, fin_neg]
    rw [coeffsR_fin]
    simp [pairB]
  · unfold twoPoleR
    simp only [pairCoeffs_ofC hp, pairCoeffs_ofC hz, Bind.bind, Res.bind]
    rw [coeffsR_fin]; rfl

theorem matched_of_pairR {p1 p2 z1 z2 : ℂ} {b : Biquad XR}
    (h : pairR ⟨⟨ofC p1, ofC p2⟩, ⟨ofC z1, ofC z2⟩⟩ = .ok b) : Matched p1 p2 ∧ Matched z1 z2 := by
  unfold pairR at h
  split_ifs at h with hs
  · simp only [PoleZeroPair.isSinglePole, lit_zero, ofR_fin, ceq_ofC, Bool.and_eq_true, decide_eq_true_eq,
      Complex.ofReal_zero] at hs
    obtain ⟨rfl, rfl⟩ := hs
    unfold onePoleR at h
    by_cases h1 : p1.im = 0
    · by_cases h2 : z1.im = 0
      · exact ⟨.inl ⟨h1, by simp⟩, .inl ⟨h2, by simp⟩⟩
      · simp [h1, h2] at h
    · simp [h1] at h
  · unfold twoPoleR at h
    simp only [Bind.bind, Res.bind] at h
    cases h1 : pairCoeffs .twoPolePoles (ofC p1) (ofC p2) with
    | throw e => rw [h1] at h; simp at h
    | ub u => rw [h1] at h; simp at h
    | ok a =>
      rw [h1] at h
      simp only at h
      cases h2 : pairCoeffs .twoPoleZeros (ofC z1) (ofC z2) with
      | throw e => rw [h2] at h; simp at h
      | ub u => rw [h2] at h; simp at h
      | ok a => exact ⟨matched_of_pairCoeffs h1, matched_of_pairCoeffs h2⟩

end
end Iir
