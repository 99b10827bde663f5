import Verif.Lemmas.Identify

/-! # Filters with the spectrum reversed

Replacing `z` by `-z` in all sections of a chain reverses the frequency axis; in the time domain every other sample of
input and output changes its sign. -/

namespace Iir
open Spec

/-- `z` replaced by `-z` -/
def Spec.Coeffs.mirror (k : Coeffs) : Coeffs := ⟨k.a0, -k.a1, k.a2, k.b0, -k.b1, k.b2⟩

theorem Spec.Coeffs.mirror_stable {k : Coeffs} (h : k.Stable) : k.mirror.Stable := by
  intro z hz
  have := h (-z) (by
    simp only [Coeffs.mirror] at hz
    rw [← hz]; push_cast; ring)
  rwa [norm_neg] at this

theorem alternate_alternate (x : ℕ → ℝ) : alternate (alternate x) = x := by
  funext n
  rw [alternate, alternate, ← mul_assoc, ← mul_pow]; norm_num

theorem secOut_mirror (k : Coeffs) (x : ℕ → ℝ) :
    secOut k.mirror.norm (0, 0) (alternate x) = alternate (secOut k.norm (0, 0) x) := by
  have hn : k.mirror.norm = { k.norm with a1 := -k.norm.a1, b1 := -k.norm.b1 } := by
    simp only [Coeffs.mirror, Coeffs.norm, neg_div]
  have key : ∀ n, stateAt (secStep k.mirror.norm) (0, 0) (alternate x) n =
      ((-1) ^ n * (stateAt (secStep k.norm) (0, 0) x n).1, (-1) ^ (n + 1) * (stateAt (secStep k.norm) (0, 0) x n).2) := by
    intro n
    induction n with
    | zero => simp [stateAt]
    | succ n ih =>
      rw [stateAt, ih, stateAt, hn]
      simp only [secStep, alternate]
      ext <;> simp only [pow_succ] <;> ring
  funext n
  rw [secOut, secOut, alternate, outAt, outAt, key, hn]
  simp only [secStep, alternate]
  ring

theorem chainOut_mirror (ks : List Coeffs) (x : ℕ → ℝ) :
    chainOut ((ks.map Coeffs.mirror).map Coeffs.norm) (rest (ks.map Coeffs.mirror).length) (alternate x) =
      alternate (chainOut (ks.map Coeffs.norm) (rest ks.length) x) := by
  induction ks generalizing x with
  | nil => simp [rest, chainOut_nil]
  | cons k ks ih =>
    show chainOut (k.mirror.norm :: (ks.map Coeffs.mirror).map Coeffs.norm)
        ((0, 0) :: rest (ks.map Coeffs.mirror).length) (alternate x) =
      alternate (chainOut (k.norm :: ks.map Coeffs.norm) ((0, 0) :: rest ks.length) x)
    rw [chainOut_cons, chainOut_cons, secOut_mirror, ih]

theorem circle_mirror (fr : ℝ) : (circle fr)⁻¹ = -circle (1 / 2 - fr) := by
  rw [circle, circle, ← Complex.exp_neg,
    show (2 * Real.pi * ((1 / 2 - fr : ℝ) : ℂ) * Complex.I) = Real.pi * Complex.I + -(2 * Real.pi * fr * Complex.I) by
      push_cast; ring, Complex.exp_add, Complex.exp_pi_mul_I]
  ring

theorem secH_mirror (k : Coeffs) (fr : ℝ) :
    secH k.mirror.norm (circle fr) = starRingEnd ℂ (secH k.norm (circle (1 / 2 - fr))) := by
  have hn : k.mirror.norm = { k.norm with a1 := -k.norm.a1, b1 := -k.norm.b1 } := by
    simp only [Coeffs.mirror, Coeffs.norm, neg_div]
  have hc : starRingEnd ℂ (circle (1 / 2 - fr))⁻¹ = -(circle fr)⁻¹ := by
    rw [map_inv₀, conj_circle, inv_inv, circle_mirror, neg_neg]
  rw [secH, secH, map_div₀]
  simp only [map_add, map_mul, map_pow, map_one, Complex.conj_ofReal, hc, hn]
  push_cast
  ring_nf

theorem secH_mirrors (ks : List Coeffs) (fr : ℝ) :
    (((ks.map Coeffs.mirror).map Coeffs.norm).map (secH · (circle fr))).prod =
      starRingEnd ℂ ((ks.map Coeffs.norm).map (secH · (circle (1 / 2 - fr)))).prod := by
  induction ks with
  | nil => simp
  | cons k ks ih =>
    simp only [List.map_cons, List.prod_cons, map_mul] at ih ⊢
    rw [ih, secH_mirror]

end Iir
