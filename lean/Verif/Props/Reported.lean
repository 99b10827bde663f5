import Verif.Exact.Pair
import Verif.Props.History

/-! # C47: reported poles and zeros are those of the sections -/

set_option linter.unusedSectionVars false

namespace Iir
open Spec FArith Exec XR Biquad

/-- Section `b` has exactly the poles `p1, p2` and the zeros `z1, z2`, and gain factor `g`: its
coefficients are those of `(z - p1)(z - p2)` and of `g (z - z1)(z - z2)`. -/
structure Spec.HasPolesZeros (b : Biquad XR) (p1 p2 z1 z2 : ℂ) (g : XR) : Prop where
  ex : ∃ a1 a2 b1 b2 : ℝ, AreRoots 1 a1 a2 p1 p2 ∧ AreRoots 1 b1 b2 z1 z2 ∧
    b.getA0 = fin 1 ∧ b.getA1 = fin a1 ∧ b.getA2 = fin a2 ∧
    b.getB0 = g ∧ b.getB1 = fin b1 * g ∧ b.getB2 = fin b2 * g

theorem XR.mul_fin_one (x : XR) : x * fin 1 = x := by
  show XR.mul x (fin 1) = x
  cases x <;> simp [XR.mul, signInf]

theorem XR.fin_one_mul (x : XR) : fin 1 * x = x := by
  show XR.mul (fin 1) x = x
  cases x <;> simp [XR.mul, signInf]

theorem Spec.Matched.areRoots {p q : ℂ} (h : Matched p q) : AreRoots 1 (-(p + q).re) (p * q).re p q := by
  intro z
  have h1 := h.ofReal_sum
  have h2 := h.ofReal_prod
  push_cast
  linear_combination (-z) * h1 + h2

theorem pairB_hasPolesZeros {p1 p2 z1 z2 : ℂ} (hp : Matched p1 p2) (hz : Matched z1 z2) (g : XR) :
    HasPolesZeros (scaled g (pairB p1 p2 z1 z2).toX) p1 p2 z1 z2 g :=
  ⟨_, _, _, _, hp.areRoots, hz.areRoots, rfl, by simp [getA1, scaled, toX, pairB],
    by simp [getA2, scaled, toX, pairB], by simp [getB0, scaled, toX, pairB, XR.mul_fin_one, XR.fin_one_mul],
    by simp only [getB1, scaled, toX, pairB, XR.mul_fin_one], by simp only [getB2, scaled, toX, pairB, XR.mul_fin_one]⟩

theorem scaled_one (b : Biquad ℝ) : scaled (fin 1) b.toX = b.toX := by simp [scaled, toX]

/-- **C47**: after a successful `setup`, `getPoleZeros ()` has one entry per stage, and a stage whose
entry is finite has the poles and zeros of this entry, which are two real numbers or a conjugate pair
each.  Only the first stage carries a gain factor. -/
theorem C47_reported {S : Type → Type} [StateType S XR] {T : Type} [Sample T XR] {c : Cls} {n : Nat}
    (hn1 : 1 ≤ n) (hn : n < 2 ^ 30) {f f1 : PoleFilter S XR} (h : Reach S T c n f) (call : Call XR)
    (hc : call.design.cls = c) (h1 : PoleFilter.setup n call f = (.ok (), f1)) :
    ∃ ps, f1.getPoleZeros = .ok ps ∧ ps.length = f1.getNumStages ∧
      ∀ (i : Nat) (p1 p2 z1 z2 : ℂ), ps[i]? = some ⟨⟨ofC p1, ofC p2⟩, ⟨ofC z1, ofC z2⟩⟩ →
        Matched p1 p2 ∧ Matched z1 z2 ∧
        ∃ b g, f1.getStage i = .ok b ∧ (i ≠ 0 → g = fin 1) ∧ HasPolesZeros b p1 p2 z1 z2 g := by
  have hcls : call.normDesign.cls = c := call.normDesign_cls.trans hc
  have hrun : (call.run n f.base).1 = .ok () := congrArg (fun q => q.1) h1
  have hf1 : f1 = { f with base := (call.run n f.base).2 } := (congrArg (fun q => q.2) h1).symm
  rw [Call.run_eq] at hrun hf1
  by_cases hgt : call.order n > n
  · rw [if_pos hgt] at hrun; simp at hrun
  rw [if_neg hgt] at hrun hf1
  subst hcls
  obtain ⟨ps, qs, b0, g, w, gn, e1, e2, -, -, e5, -, e7⟩ := PFB.baseSetup_result hn1 hn (by omega)
    (h.ok hn1 hn) (show _ = (Res.ok (), f1.base) from Prod.ext hrun (by rw [hf1]))
  refine ⟨ps, e1, e2.symm, fun i p1 p2 z1 z2 hi => ?_⟩
  obtain ⟨hlt, hi'⟩ := List.getElem?_eq_some_iff.1 hi
  have hlen := e5.length_eq
  have hpr : pairR ps[i] = .ok (qs[i]'(by omega)) := e5.get hlt (by omega)
  rw [hi'] at hpr
  obtain ⟨hp, hz⟩ := matched_of_pairR hpr
  have hq : qs[i]'(by omega) = (pairB p1 p2 z1 z2).toX := by
    rw [pairR_ofC hp hz] at hpr
    simpa using hpr.symm
  have hst : f1.getStage i = .ok (if i = 0 then scaled g (pairB p1 p2 z1 z2).toX
      else (pairB p1 p2 z1 z2).toX) := by
    unfold PoleFilter.getStage Cascade.getStage
    rw [if_neg (by simp; omega)]
    unfold Cascade.stageAt
    rw [e7, if_neg (by omega), List.getElem?_append_left (by simp; omega)]
    simp only [Int.toNat_natCast, List.getElem?_modify]
    rw [List.getElem?_eq_getElem (by omega), hq]
    by_cases h0 : i = 0
    · simp [h0]
    · simp [h0, Ne.symm h0]
  refine ⟨hp, hz, _, if i = 0 then g else fin 1, hst, fun h0 => by simp [h0], ?_⟩
  split_ifs
  · exact pairB_hasPolesZeros hp hz g
  · have := pairB_hasPolesZeros hp hz (fin 1)
    rwa [scaled_one] at this

end Iir
