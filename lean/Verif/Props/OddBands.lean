import Verif.Props.Stable
import Verif.Exact.Double

/-! # C51: odd-order band filters that cannot be set up

C29 and C32–C37 except, for odd orders, the band widths for which the real pole (or zero) of the prototype goes to
`z = 0`.  There the code throws: `isMatchedPair` wants both real members of a pair to be nonzero. -/

set_option linter.unusedSectionVars false

namespace Iir
open Spec XR

variable {S : Type → Type} [StateType S XR] {T : Type} [Sample T XR] {n o : ℕ} {call : Call XR} {fc fw r G : ℝ}

/-- The band is in order, the order odd and `tan (π width)` one of `xs`. -/
def Spec.RefusedBand (o : ℕ) (fc fw : ℝ) (xs : List ℝ) : Prop :=
  0 ≤ fc ∧ fc < 1 / 2 ∧ bandLo fc fw < bandHi fc fw ∧ o % 2 = 1 ∧
    Real.tan (Real.pi * (bandHi fc fw - bandLo fc fw)) ∈ xs

/-- The designs excepted from `Valid`: otherwise valid parameters, odd order and one of the critical widths. -/
def Spec.Refused (o : ℕ) : Design XR → Prop
  | .bwBandPass (fin fc) (fin fw) | .bwBandStop (fin fc) (fin fw) => RefusedBand o fc fw [1]
  | .bwBandShelf (fin fc) (fin fw) (fin g) => RefusedBand o fc fw [ofDb (g / (2 * o)), ofDb (-(g / (2 * o)))]
  | .c1BandPass (fin fc) (fin fw) (fin r) => RefusedBand o fc fw [1 / cheb1Pole o r] ∧ 0 < r
  | .c1BandStop (fin fc) (fin fw) (fin r) => RefusedBand o fc fw [cheb1Pole o r] ∧ 0 < r
  | .c2BandPass (fin fc) (fin fw) (fin r) => RefusedBand o fc fw [cheb2Pole o r] ∧ 0 < r
  | .c2BandStop (fin fc) (fin fw) (fin r) => RefusedBand o fc fw [1 / cheb2Pole o r] ∧ 0 < r
  | .c1BandShelf (fin fc) (fin fw) (fin g) (fin r) | .c2BandShelf (fin fc) (fin fw) (fin g) (fin r) =>
    RefusedBand o fc fw [1 / shelfPole o g r, 1 / shelfZero o g r] ∧ 0 < r ∧ r < |g|
  | _ => False

/-- Whatever was done with the object before, the call throws "Poles need to be complex conjugate." or the same for
zeros (message of the code, Layout.h). -/
def Spec.ThrowsNotConj (S : Type → Type) [StateType S XR] (T : Type) [Sample T XR] (n : ℕ) (call : Call XR) : Prop :=
  ThrowsAlways S T n call .polesNotConj ∨ ThrowsAlways S T n call .zerosNotConj

theorem not_noReal {A : Analog} {b : ℝ} (h : ¬ A.NoReal b) :
    A.n % 2 = 1 ∧ (DoubleErr A b .polesNotConj ∨ DoubleErr A b .zerosNotConj) := by
  unfold Analog.NoReal at h
  push Not at h
  obtain ⟨h1, h2⟩ := h
  refine ⟨h1, ?_⟩
  by_cases h3 : A.pole (A.n / 2) = -(b : ℂ)
  · exact .inl (.inl ⟨h3, rfl⟩)
  · exact .inr (.inr ⟨h3, h2 h3, rfl⟩)

section
variable {d : Design XR} {A : Analog} {w0 g0 : ℝ}

theorem refused_bandPass (hask : Asks call n o d) (hp : IsProto d n o A w0 g0)
    (hd : d.trans = bandPassTransform (fin fc) (fin fw)) (hm : d.cls.mult = 2) {xs : List ℝ}
    (h : RefusedBand o fc fw xs) (hr : ¬ A.NoReal (1 / Real.tan (Real.pi * (bandHi fc fw - bandLo fc fw)))) :
    ThrowsNotConj S T n call := by
  rw [← edgeHalf_eq] at hr
  obtain ⟨h0, h1, he, ho, -⟩ := h
  rcases (not_noReal hr).2 with h2 | h2
  · exact .inl (Spec.double_bandPass hask hp hd hm h0 h1 (edge_lt he) ho h2)
  · exact .inr (Spec.double_bandPass hask hp hd hm h0 h1 (edge_lt he) ho h2)

theorem refused_bandShelf (hask : Asks call n o d) (hp : IsProto d n o A w0 g0)
    (hd : d.trans = bandShelfTransform (fin fc) (fin fw)) (hm : d.cls.mult = 2) {xs : List ℝ}
    (h : RefusedBand o fc fw xs) (hr : ¬ A.NoReal (1 / Real.tan (Real.pi * (bandHi fc fw - bandLo fc fw)))) :
    ThrowsNotConj S T n call := by
  rw [← edgeHalf_eq] at hr
  obtain ⟨h0, h1, he, ho, -⟩ := h
  rcases (not_noReal hr).2 with h2 | h2
  · exact .inl (Spec.double_bandShelf hask hp hd hm h0 h1 (edge_lt he) ho h2)
  · exact .inr (Spec.double_bandShelf hask hp hd hm h0 h1 (edge_lt he) ho h2)

theorem refused_bandStop (hask : Asks call n o d) (hp : IsProto d n o A w0 g0)
    (hd : d.trans = bandStopTransform (fin fc) (fin fw)) (hm : d.cls.mult = 2) {xs : List ℝ}
    (h : RefusedBand o fc fw xs) (hr : ¬ A.NoReal (Real.tan (Real.pi * (bandHi fc fw - bandLo fc fw)))) :
    ThrowsNotConj S T n call := by
  rw [← edgeHalf_eq] at hr
  obtain ⟨h0, h1, he, ho, -⟩ := h
  rcases (not_noReal hr).2 with h2 | h2
  · exact .inl (Spec.double_bandStop hask hp hd hm h0 h1 (edge_lt he) ho h2)
  · exact .inr (Spec.double_bandStop hask hp hd hm h0 h1 (edge_lt he) ho h2)

end

theorem bw_real (ho : o % 2 = 1) : ¬ (butterworth o).NoReal 1 := fun h =>
  (h ho).1 (by show (butterworth o).pole (o / 2) = _; rw [bw_pole_mid ho]; simp)

theorem bwShelf_real {g b : ℝ} (ho : o % 2 = 1) (h : b = g ∨ b = 1 / g) : ¬ (butterworthShelf o g).NoReal b := by
  intro hn
  have := hn ho
  rcases h with rfl | rfl
  · apply this.2
    show some (starRingEnd ℂ ((butterworth o).pole (o / 2)) * (b : ℝ)) = some (-(b : ℂ))
    rw [bw_pole_mid ho, map_neg, map_one, neg_one_mul]
  · apply this.1
    show starRingEnd ℂ ((butterworth o).pole (o / 2)) * (1 / g : ℝ) = _
    rw [bw_pole_mid ho, map_neg, map_one, neg_one_mul]

theorem c1_real (ho : o % 2 = 1) : ¬ (chebyshevI o (chebV o (chebEps r))).NoReal (cheb1Pole o r) := by
  intro hn
  apply (hn ho).1
  show starRingEnd ℂ (chebPole o (chebV o (chebEps r)) (o / 2)) = _
  rw [chebPole_mid ho, Complex.conj_ofReal, ← Complex.ofReal_neg]
  rfl

theorem c2_real (ho : o % 2 = 1) : ¬ (chebyshevII o (chebV o (chebEpsII r))).NoReal (1 / cheb2Pole o r) := by
  intro hn
  apply (hn ho).1
  show (chebPole o (chebV o (chebEpsII r)) (o / 2))⁻¹ = _
  have hp : chebV o (chebEpsII r) = Real.arsinh (Real.sqrt ((10 : ℝ) ^ (r / 10) - 1)) / o := by
    rw [chebV, chebEpsII, one_div_one_div, chebEps]
  rw [chebPole_mid ho, cheb2Pole, ← hp]
  rw [← Complex.ofReal_inv, ← Complex.ofReal_neg, inv_neg, one_div]

theorem shelf_real {b : ℝ} (hr : 0 < r) (hG : r < |G|) (ho : o % 2 = 1) (h : b = shelfPole o G r ∨ b = shelfZero o G r) :
    ¬ (chebyshevShelf o (chebV o (shelfEps G r / shelfG G)) (chebV o (shelfEps G r))).NoReal b := by
  have hs : Real.sqrt (shelfEpsSq G r) = shelfEps G r := by
    rw [shelfEpsSq_eq hr hG, Real.sqrt_sq (shelfEps_pos hr hG).le]
  intro hn
  have hn := hn ho
  rcases h with rfl | rfl
  · apply hn.1
    show chebPole o (chebV o (shelfEps G r / shelfG G)) (o / 2) = _
    rw [chebPole_mid ho, ← Complex.ofReal_neg, shelfPole, hs, ← shelfG_eq, chebV, one_div_div]
  · apply hn.2
    show some (chebPole o (chebV o (shelfEps G r)) (o / 2)) = _
    rw [chebPole_mid ho, ← Complex.ofReal_neg, shelfZero, hs, chebV]

/-- **C51**: at the widths excepted in C29 and C32–C37 every object of the class throws; so those exceptions are exactly
the cases in which an otherwise valid design is refused. -/
theorem C51_refused {d : Design XR} (h : Asks call n o d) (hv : Refused o d) : ThrowsNotConj S T n call := by
  have ho := h.pos
  unfold Refused at hv
  split at hv
  · refine refused_bandPass h (Design.proto_bw _ h.pos h.le h.small rfl lay0_bw.1 lay0_bw.2) rfl rfl hv ?_
    have h2 := hv.2.2.2.2
    simp only [List.mem_cons, List.not_mem_nil, or_false] at h2
    rw [h2, one_div_one]; exact bw_real hv.2.2.2.1
  · refine refused_bandStop h (Design.proto_bw _ h.pos h.le h.small rfl lay0_bw.1 lay0_bw.2) rfl rfl hv ?_
    have h2 := hv.2.2.2.2
    simp only [List.mem_cons, List.not_mem_nil, or_false] at h2
    rw [h2]; exact bw_real hv.2.2.2.1
  · rename_i g
    refine refused_bandShelf h (Design.proto_bwShelf _ g h.pos h.le h.small rfl lay0_bwShelf.1 lay0_bwShelf.2) rfl
      rfl hv ?_
    have h2 := hv.2.2.2.2
    simp only [List.mem_cons, List.not_mem_nil, or_false] at h2
    have e : bwShelfRoot o g = ofDb (g / (2 * o)) := by
      rw [bwShelfRoot, ofDb, ← Real.rpow_mul (by norm_num)]
      congr 1; ring
    refine bwShelf_real hv.2.2.2.1 ?_
    rcases h2 with h2 | h2
    · right; rw [h2, e]
    · left; rw [h2, e, ofDb_neg_inv, one_div_one_div]
  · refine refused_bandPass h (Design.proto_c1 _ hv.2 h.pos h.le h.small rfl) rfl rfl hv.1 ?_
    have h2 := hv.1.2.2.2.2
    simp only [List.mem_cons, List.not_mem_nil, or_false] at h2
    rw [h2, one_div_one_div]; exact c1_real hv.1.2.2.2.1
  · refine refused_bandStop h (Design.proto_c1 _ hv.2 h.pos h.le h.small rfl) rfl rfl hv.1 ?_
    have h2 := hv.1.2.2.2.2
    simp only [List.mem_cons, List.not_mem_nil, or_false] at h2
    rw [h2]; exact c1_real hv.1.2.2.2.1
  · refine refused_bandPass h (Design.proto_c2 _ hv.2 h.pos h.le h.small rfl lay0_c2.1 lay0_c2.2) rfl rfl hv.1 ?_
    have h2 := hv.1.2.2.2.2
    simp only [List.mem_cons, List.not_mem_nil, or_false] at h2
    rw [h2]; exact c2_real hv.1.2.2.2.1
  · refine refused_bandStop h (Design.proto_c2 _ hv.2 h.pos h.le h.small rfl lay0_c2.1 lay0_c2.2) rfl rfl hv.1 ?_
    have h2 := hv.1.2.2.2.2
    simp only [List.mem_cons, List.not_mem_nil, or_false] at h2
    rw [h2]; exact c2_real hv.1.2.2.2.1
  · refine refused_bandShelf h (Design.proto_chebShelf _ hv.2.1 hv.2.2 h.pos h.le h.small rfl lay0_c1Shelf.1
      lay0_c1Shelf.2) rfl rfl hv.1 ?_
    have h2 := hv.1.2.2.2.2
    simp only [List.mem_cons, List.not_mem_nil, or_false] at h2
    refine shelf_real hv.2.1 hv.2.2 hv.1.2.2.2.1 ?_
    rcases h2 with h2 | h2 <;> rw [h2, one_div_one_div] <;> simp
  · refine refused_bandShelf h (Design.proto_chebShelf _ hv.2.1 hv.2.2 h.pos h.le h.small rfl lay0_c1Shelf.1
      lay0_c1Shelf.2) rfl rfl hv.1 ?_
    have h2 := hv.1.2.2.2.2
    simp only [List.mem_cons, List.not_mem_nil, or_false] at h2
    refine shelf_real hv.2.1 hv.2.2 hv.1.2.2.2.1 ?_
    rcases h2 with h2 | h2 <;> rw [h2, one_div_one_div] <;> simp
  · exact hv.elim

theorem band_quarter : bandLo (1 / 4) (1 / 4) = 1 / 8 ∧ bandHi (1 / 4) (1 / 4) = 3 / 8 := by
  constructor
  · rw [bandLo_eq] <;> norm_num
  · rw [bandHi_eq] <;> norm_num

/-- `Butterworth::BandPass<1>::setupN(0.25, 0.25)` throws, on whatever object: the odd-order Butterworth band of width a
quarter of the sampling rate, an unobjectionable filter. -/
theorem C51_butterworth : ThrowsAlways S T 1 (.setupN (.bwBandPass (fin (1 / 4)) (fin (1 / 4)))) .polesNotConj := by
  refine Spec.double_bandPass (o := 1) (d := .bwBandPass (fin (1 / 4)) (fin (1 / 4))) (fc := 1 / 4) (fw := 1 / 4)
    ⟨rfl, rfl, le_rfl, le_rfl, by norm_num⟩
    (Design.proto_bw _ le_rfl le_rfl (by norm_num) rfl lay0_bw.1 lay0_bw.2) rfl rfl (by norm_num)
    (by norm_num) (edge_lt (by rw [band_quarter.1, band_quarter.2]; norm_num)) rfl (.inl ⟨?_, rfl⟩)
  show (butterworth 1).pole (1 / 2) = _
  rw [bw_pole_mid rfl, edgeHalf_eq, band_quarter.1, band_quarter.2,
    show Real.pi * (3 / 8 - 1 / 8) = Real.pi / 4 by ring, Real.tan_pi_div_four]
  simp

/-- The hypotheses of `C51_refused` are met by band stops of width 1/4 of the sampling rate, too. -/
example : ThrowsNotConj S T 3 (.setupN (.bwBandStop (fin (1 / 4)) (fin (1 / 4)))) :=
  C51_refused (o := 3) (d := .bwBandStop (fin (1 / 4)) (fin (1 / 4))) ⟨rfl, rfl, by norm_num, le_rfl, by norm_num⟩
    ⟨by norm_num, by norm_num, by rw [band_quarter.1, band_quarter.2]; norm_num, rfl, by
      rw [band_quarter.1, band_quarter.2, show Real.pi * (3 / 8 - 1 / 8) = Real.pi / 4 by ring, Real.tan_pi_div_four]
      simp⟩

end Iir
