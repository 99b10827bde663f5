import Verif.Props.Reported
import Verif.Props.Stable

/-! # C21 and C47 for valid designs: everything stored and reported is finite -/

set_option linter.unusedSectionVars false

namespace Iir
open Spec FArith Exec XR Biquad Cx

/-! ## Finite results have finite operands -/

theorem XR.fin_of_neg {x : XR} {r : ℝ} (h : -x = fin r) : ∃ s, x = fin s := by
  change XR.neg x = _ at h
  cases x <;> simp_all [XR.neg]

theorem XR.fin_of_add {x y : XR} {r : ℝ} (h : x + y = fin r) : (∃ s, x = fin s) ∧ ∃ s, y = fin s := by
  change XR.add x y = _ at h
  cases x <;> cases y <;> simp_all [XR.add]

theorem XR.fin_of_mul {x y : XR} {r : ℝ} (h : x * y = fin r) : (∃ s, x = fin s) ∧ ∃ s, y = fin s := by
  change XR.mul x y = _ at h
  cases x <;> cases y <;> simp_all [XR.mul, signInf] <;> split_ifs at h

theorem XR.div_one (x : XR) : x / fin 1 = x := by
  change XR.div x (fin 1) = x
  cases x <;> simp [XR.div]

theorem XR.eq_of_feq {x : XR} {r : ℝ} (h : feq x (fin r) = true) : x = fin r := by
  cases x with
  | fin s => simp at h; rw [h]
  | _ => cases h

theorem coeffsR_one {a1 a2 b1 b2 : XR} {b : Biquad XR} (h : coeffsR 1 a1 a2 1 b1 b2 = .ok b) :
    b = { a0 := fin 1, a1 := a1, a2 := a2, b0 := fin 1, b1 := b1, b2 := b2 } := by
  unfold coeffsR at h
  split_ifs at h
  have e : (1 : XR) = fin 1 := lit_one
  simp only [Res.ok.injEq] at h
  rw [← h, e]
  simp only [XR.div_one]

/-- a pair whose coefficients are finite is finite -/
theorem pairCoeffs_finite {e : Err} {p1 p2 : Cx XR} {r s : ℝ} (h : pairCoeffs e p1 p2 = .ok (fin r, fin s)) :
    ∃ z1 z2 : ℂ, p1 = ofC z1 ∧ p2 = ofC z2 := by
  obtain ⟨x1, y1⟩ := p1
  obtain ⟨x2, y2⟩ := p2
  unfold pairCoeffs at h
  split_ifs at h with h1 h2 h3
  · simp only [Res.ok.injEq, Prod.mk.injEq] at h
    obtain ⟨ha, hb⟩ := h
    obtain ⟨-, u, rfl⟩ := XR.fin_of_mul ha
    obtain ⟨-, v, hv⟩ := XR.fin_of_add hb
    obtain ⟨⟨w, rfl⟩, -⟩ := XR.fin_of_mul hv
    simp only [Bool.not_eq_true', Bool.not_eq_false] at h2
    simp only [ceq, conj, Bool.and_eq_true] at h2
    rw [fin_neg] at h2
    rw [XR.eq_of_feq h2.1, XR.eq_of_feq h2.2]
    exact ⟨⟨u, w⟩, ⟨u, -w⟩, rfl, rfl⟩
  · simp only [Res.ok.injEq, Prod.mk.injEq] at h
    obtain ⟨ha, hb⟩ := h
    obtain ⟨⟨u, rfl⟩, v, rfl⟩ := XR.fin_of_mul hb
    simp only [fne, lit_zero, Bool.not_eq_true', Bool.not_eq_false] at h1 h3
    rw [XR.eq_of_feq h1, XR.eq_of_feq h3]
    exact ⟨⟨u, 0⟩, ⟨v, 0⟩, rfl, rfl⟩

theorem pairR_finite {pr : PoleZeroPair XR} {b : Biquad XR} (h : pairR pr = .ok b) {g : XR} {k : Coeffs}
    (hk : HasCoeffs (scaled g b) k) : ∃ p1 p2 z1 z2 : ℂ, pr = ⟨⟨ofC p1, ofC p2⟩, ⟨ofC z1, ofC z2⟩⟩ := by
  have hb : ∃ a1 a2 b1 b2 : ℝ, b.a1 = fin a1 ∧ b.a2 = fin a2 ∧ b.b1 = fin b1 ∧ b.b2 = fin b2 := by
    rw [hasCoeffs_iff] at hk
    obtain ⟨e, -⟩ := hk
    have h1 := congrArg Biquad.a1 e
    have h2 := congrArg Biquad.a2 e
    have h3 := congrArg Biquad.b1 e
    have h4 := congrArg Biquad.b2 e
    obtain ⟨⟨b1, h3⟩, -⟩ := XR.fin_of_mul h3
    obtain ⟨⟨b2, h4⟩, -⟩ := XR.fin_of_mul h4
    exact ⟨_, _, b1, b2, h1, h2, h3, h4⟩
  obtain ⟨a1, a2, b1, b2, e1, e2, e3, e4⟩ := hb
  obtain ⟨⟨p1, p2⟩, ⟨z1, z2⟩⟩ := pr
  unfold pairR at h
  split_ifs at h with hs
  · simp only [PoleZeroPair.isSinglePole, ceq, ofR, Bool.and_eq_true, lit_zero] at hs
    unfold onePoleR at h
    split_ifs at h with hp hz
    rw [show (0 : XR) = fin 0 from lit_zero] at h
    have hb := coeffsR_one h
    subst hb
    obtain ⟨u, hu⟩ := XR.fin_of_neg e1
    obtain ⟨v, hv⟩ := XR.fin_of_neg e3
    simp only [fne, lit_zero, Bool.not_eq_true', Bool.not_eq_false] at hp hz
    obtain ⟨x1, y1⟩ := p1
    obtain ⟨x2, y2⟩ := p2
    obtain ⟨x3, y3⟩ := z1
    obtain ⟨x4, y4⟩ := z2
    simp only at hs hp hz hu hv
    subst hu hv
    rw [XR.eq_of_feq hp, XR.eq_of_feq hz, XR.eq_of_feq hs.1.1, XR.eq_of_feq hs.1.2, XR.eq_of_feq hs.2.1,
      XR.eq_of_feq hs.2.2]
    exact ⟨⟨u, 0⟩, ⟨0, 0⟩, ⟨v, 0⟩, ⟨0, 0⟩, rfl⟩
  · unfold twoPoleR at h
    simp only [Bind.bind, Res.bind] at h
    cases h1 : pairCoeffs .twoPolePoles p1 p2 with
    | throw e => rw [h1] at h; simp at h
    | ub u => rw [h1] at h; simp at h
    | ok a =>
      rw [h1] at h
      simp only at h
      cases h2 : pairCoeffs .twoPoleZeros z1 z2 with
      | throw e => rw [h2] at h; simp at h
      | ub u => rw [h2] at h; simp at h
      | ok c =>
        rw [h2] at h
        simp only at h
        have hb := coeffsR_one h
        obtain ⟨x, y⟩ := a
        obtain ⟨u, v⟩ := c
        subst hb
        simp only at e1 e2 e3 e4
        subst e1 e2 e3 e4
        obtain ⟨w1, w2, rfl, rfl⟩ := pairCoeffs_finite h1
        obtain ⟨w3, w4, rfl, rfl⟩ := pairCoeffs_finite h2
        exact ⟨_, _, _, _, rfl⟩

theorem scaled_fin_one (b : Biquad XR) : scaled (fin 1) b = b := by
  simp [scaled, XR.mul_fin_one]

/-! ## Statements -/

variable {S : Type → Type} [StateType S XR] {T : Type} [Sample T XR]

/-- **C47** without the proviso that the entry is finite: if the coefficients of all stages are finite, so are all
entries of `getPoleZeros ()`. -/
theorem C47_finite {c : Cls} {n : Nat}
    (hn1 : 1 ≤ n) (hn : n < 2 ^ 30) {f f1 : PoleFilter S XR} (h : Reach S T c n f) (call : Call XR)
    (hc : call.design.cls = c) (h1 : PoleFilter.setup n call f = (.ok (), f1)) {ks : List Coeffs}
    (hks : HasSections f1.base.cascade.stages ks) {ps : List (PoleZeroPair XR)} (hps : f1.getPoleZeros = .ok ps) :
    ∀ pr ∈ ps, ∃ p1 p2 z1 z2 : ℂ, pr = ⟨⟨ofC p1, ofC p2⟩, ⟨ofC z1, ofC z2⟩⟩ := by
  have hcls : call.normDesign.cls = c := call.normDesign_cls.trans hc
  have hrun : (call.run n f.base).1 = .ok () := congrArg (fun q => q.1) h1
  have hf1 : f1 = { f with base := (call.run n f.base).2 } := (congrArg (fun q => q.2) h1).symm
  rw [Call.run_eq] at hrun hf1
  by_cases hgt : call.order n > n
  · rw [if_pos hgt] at hrun; simp at hrun
  rw [if_neg hgt] at hrun hf1
  subst hcls
  obtain ⟨ps', qs, b0, g, w, gn, e1, e2, -, -, e5, -, e7⟩ := PFB.baseSetup_result hn1 hn (by omega)
    (h.ok hn1 hn) (show _ = (Res.ok (), f1.base) from Prod.ext hrun (by rw [hf1]))
  change f1.base.getPoleZeros = .ok ps at hps
  rw [e1] at hps
  obtain rfl : ps' = ps := by simpa using hps
  have hfin : ∀ b ∈ f1.base.cascade.stages, ∃ k, HasCoeffs b k := fun b hb => by
    obtain ⟨i, hi, rfl⟩ := List.getElem_of_mem hb
    exact ⟨_, hks.get hi (by rw [← hks.length_eq]; exact hi)⟩
  intro pr hpr
  obtain ⟨i, hi, rfl⟩ := List.getElem_of_mem hpr
  have hlen := e5.length_eq
  have hq : pairR ps'[i] = .ok (qs[i]'(by omega)) := e5.get hi (by omega)
  have hm : scaled (if i = 0 then g else fin 1) (qs[i]'(by omega)) ∈ f1.base.cascade.stages := by
    rw [e7, if_neg (by omega)]
    refine List.mem_append_left _ (List.mem_iff_getElem?.2 ⟨i, ?_⟩)
    rw [List.getElem?_modify, List.getElem?_eq_getElem (by omega)]
    by_cases h0 : i = 0
    · simp [h0]
    · simp [h0, Ne.symm h0, scaled_fin_one]
  obtain ⟨k, hk⟩ := hfin _ hm
  exact pairR_finite hq hk

theorem sections_of_stable {f : PoleFilter S XR} (hst : StableFilter f) :
    ∃ ks, HasSections f.base.cascade.stages ks ∧ ∀ k ∈ ks, k.Stable := by
  unfold StableFilter at hst
  generalize f.base.cascade.stages = bs at hst
  induction bs with
  | nil => exact ⟨[], .nil, by simp⟩
  | cons b bs ih =>
    obtain ⟨ks, h1, h2⟩ := ih fun b hb => hst b (List.mem_cons_of_mem _ hb)
    obtain ⟨k, h3, h4⟩ := hst b List.mem_cons_self
    exact ⟨k :: ks, .cons h3 h1, List.forall_mem_cons.2 ⟨h4, h2⟩⟩

/-- **C47** for valid parameters: the setup succeeds, and entry `i` of `getPoleZeros ()` consists of two poles inside
the unit circle and two zeros, each two real numbers or a conjugate pair, and stage `i` has exactly these; only the first
stage carries a gain. -/
theorem C47_valid_design {call : Call XR} {n o : ℕ} {d : Design XR} (ha : Asks call n o d) (hv : Valid o d) :
    AfterSetup S T n call fun f => ∃ ps, f.getPoleZeros = .ok ps ∧ ps.length = f.getNumStages ∧
      ∀ i < ps.length, ∃ (p1 p2 z1 z2 : ℂ) (b : Biquad XR) (g : ℝ),
        ps[i]? = some ⟨⟨ofC p1, ofC p2⟩, ⟨ofC z1, ofC z2⟩⟩ ∧ Matched p1 p2 ∧ Matched z1 z2 ∧ ‖p1‖ < 1 ∧ ‖p2‖ < 1 ∧
        f.getStage i = .ok b ∧ (i ≠ 0 → g = 1) ∧ HasPolesZeros b p1 p2 z1 z2 (fin g) := by
  intro f hf
  obtain ⟨f1, hset, hs, hst⟩ := C29_stable (S := S) (T := T) ha hv f hf
  refine ⟨f1, hset, hs, ?_⟩
  obtain ⟨ps, e1, e2, e3⟩ := C47_reported (ha.pos.trans ha.le) ha.small hf call rfl hset
  refine ⟨ps, e1, e2, fun i hi => ?_⟩
  obtain ⟨ks, hks, -⟩ := sections_of_stable hst
  obtain ⟨p1, p2, z1, z2, hp⟩ := C47_finite (ha.pos.trans ha.le) ha.small hf call rfl hset hks e1 ps[i]
    (List.getElem_mem hi)
  have hi' : ps[i]? = some ⟨⟨ofC p1, ofC p2⟩, ⟨ofC z1, ofC z2⟩⟩ := by rw [List.getElem?_eq_getElem hi, hp]
  obtain ⟨m1, m2, b, g, hb, hg, hpz⟩ := e3 i p1 p2 z1 z2 hi'
  have hmem : b ∈ f1.base.cascade.stages := by
    unfold PoleFilter.getStage Cascade.getStage at hb
    split_ifs at hb
    unfold Cascade.stageAt at hb
    split at hb
    · rename_i x hx
      cases hb
      exact List.mem_of_getElem? hx
    · simp at hb
  obtain ⟨k, hk, hkst⟩ := hst b hmem
  obtain ⟨a1, a2, b1, b2, r1, r2, c0, c1, c2, c3, c4, c5⟩ := hpz.ex
  have hg' : g = fin k.b0 := by rw [← c3, hk.b0]
  have k0 : k.a0 = 1 := by have := hk.a0; rw [c0] at this; simpa using this.symm
  have k1 : k.a1 = a1 := by have := hk.a1; rw [c1] at this; simpa using this.symm
  have k2 : k.a2 = a2 := by have := hk.a2; rw [c2] at this; simpa using this.symm
  have hroot : ∀ z : ℂ, z = p1 ∨ z = p2 → ‖z‖ < 1 := fun z hz => by
    apply hkst z
    have := r1 z
    rw [k0, k1, k2]
    rcases hz with rfl | rfl <;> simp_all
  refine ⟨p1, p2, z1, z2, b, k.b0, hi', m1, m2, hroot p1 (.inl rfl), hroot p2 (.inr rfl), hb, fun h0 => ?_, hg' ▸ hpz⟩
  have := hg h0
  rw [hg'] at this
  simpa using this

/-- **C21** for pole filters with valid parameters: the setup succeeds and no stage holds a NaN (nor an infinity). -/
theorem C21_valid_design_partial {call : Call XR} {n o : ℕ} {d : Design XR} (ha : Asks call n o d) (hv : Valid o d) :
    AfterSetup S T n call fun f => ∀ b ∈ f.base.cascade.stages, ¬ HasNaN b ∧ ∃ k, HasCoeffs b k :=
  (C29_stable ha hv).mono fun f hf b hb => by
    obtain ⟨k, hk, -⟩ := hf b hb
    refine ⟨?_, k, hk⟩
    rw [(hasCoeffs_iff.1 hk).1]
    simp [HasNaN, toX]

/-- **C21** for RBJ filters with valid parameters. -/
theorem C21_valid_rbj_partial (d : RBJ.Design ℝ) (h : ValidRBJ d) :
    AfterRBJ (finRBJ d) fun b => ¬ HasNaN b ∧ ∃ k, HasCoeffs b k := by
  intro f
  obtain ⟨f', h1, h2, k, hk, -⟩ := C42_stable d h f
  refine ⟨f', h1, h2, ?_, k, hk⟩
  rw [(hasCoeffs_iff.1 hk).1]
  simp [HasNaN, toX]

/-- a case: `Butterworth::BandPass<3>` -/
example : AfterSetup S T 3 (.setupN (.bwBandPass (fin (1 / 4)) (fin (1 / 8))))
    fun f => ∀ b ∈ f.base.cascade.stages, ¬ HasNaN b ∧ ∃ k, HasCoeffs b k :=
  C21_valid_design_partial (o := 3) (d := .bwBandPass (fin (1 / 4)) (fin (1 / 8)))
    ⟨rfl, rfl, by norm_num, le_rfl, by norm_num⟩
    ⟨by norm_num, by norm_num, by rw [band_ex.1, band_ex.2]; norm_num, fun _ h => by
      rw [band_ex.1, band_ex.2, List.mem_singleton, show Real.pi * (5 / 16 - 3 / 16) = Real.pi / 8 by ring] at h
      have : Real.tan (Real.pi / 8) < Real.tan (Real.pi / 4) :=
        Real.tan_lt_tan_of_nonneg_of_lt_pi_div_two (by positivity) (by linarith [Real.pi_pos]) (by linarith [Real.pi_pos])
      rw [Real.tan_pi_div_four, h] at this
      exact lt_irrefl _ this⟩

end Iir
