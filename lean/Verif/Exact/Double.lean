import Verif.Exact.After

/-! # Band transforms of a real pole that becomes a pole at 0

For odd orders the real root of the prototype may be such that one of its two images is 0; the code takes
the pair for not matching and throws. -/

set_option linter.unusedSectionVars false

namespace Iir
open FArith Cx Exec Spec XR Finset Biquad Cascade

noncomputable section

local notation "conjC" => starRingEnd ℂ

theorem not_isMatchedPair {p q : ℂ} (h : Matched p q) (h0 : p = 0 ∨ q = 0) :
    (⟨ofC p, ofC q⟩ : ComplexPair XR).isMatchedPair = false := by
  unfold ComplexPair.isMatchedPair
  simp only [ofC_im, ofC_re, lit_zero, fne_fin, feq_fin, conj_ofC, ceq_ofC]
  rcases h with ⟨h1, h2⟩ | h
  · rcases h0 with rfl | rfl <;> simp [h1]
  · subst h
    rcases h0 with rfl | h0
    · simp
    · have : p = 0 := by simpa using h0
      subst this; simp

theorem fail_addPair {p z : ComplexPair XR} {e : Err} {l : Layout XR} (hl : l.numPoles % 2 = 0)
    (h : (p.isMatchedPair = false ∧ e = .polesNotConj) ∨
      (p.isMatchedPair = true ∧ z.isMatchedPair = false ∧ e = .zerosNotConj)) :
    Layout.addPair p z l = (.throw e, l) := by
  have h1 : (l.numPoles % 2 == 1) = false := by rw [hl]; rfl
  rcases h with ⟨h2, rfl⟩ | ⟨h2, h3, rfl⟩
  · simp [Layout.addPair, bind_def, h1, h2]
  · simp [Layout.addPair, bind_def, h1, h2, h3]

theorem fail_bandLayout {n : ℕ} {P Z : ℕ → ℂ × ℂ} {body : ℕ → Exec (Layout XR) Unit}
    {last : Exec (Layout XR) Unit}
    (hb : ∀ k < n / 2, body k = (do
      Layout.addPoleZeroConjugatePairs (ofC (P k).1) (ofC (Z k).1)
      Layout.addPoleZeroConjugatePairs (ofC (P k).2) (ofC (Z k).2)))
    {p z : ComplexPair XR} (hl : last = Layout.addPair p z) {e : Err}
    (h : (p.isMatchedPair = false ∧ e = .polesNotConj) ∨
      (p.isMatchedPair = true ∧ z.isMatchedPair = false ∧ e = .zerosNotConj))
    {L : ℕ} (hL : n ≤ L) {w g : XR} {s : Layout XR} (hs : Layout.Stored [] 0 L w g s) :
    ∃ s', (Exec.loop (n / 2) body >>= fun _ => last) s = (.throw e, s') := by
  have hd := done_bandLayout (n := 2 * (n / 2)) (P := P) (Z := Z) (body := body) (last := Exec.pure ())
    (fun k hk => hb k (by omega)) (by rw [if_neg (by omega)]) (fun h => by omega) (L := L) (by omega) (w := w) (g := g)
  obtain ⟨s1, e1, h1⟩ := hd.run hs
  rw [show 2 * (n / 2) / 2 = n / 2 by omega, bind_def] at e1
  rw [bind_def]
  revert e1
  rcases Exec.loop (n / 2) body s with ⟨r, s2⟩
  cases r with
  | ok a =>
    simp only [pure_def', Prod.mk.injEq, true_and]
    rintro rfl
    exact ⟨s2, by rw [hl]; exact fail_addPair (by rw [h1.numPoles]; omega) h⟩
  | throw e => simp
  | ub u => simp

theorem bpRoots_double (a : ℝ) {b : ℝ} (hb : 0 < b) :
    (bpRoots a b (some (-b : ℂ))).1 = 0 ∨ (bpRoots a b (some (-b : ℂ))).2 = 0 := by
  have h := (bpRoots_image a hb (r := some (-b : ℂ)) (by rintro z hz; cases hz; simpa using hb.le)).poly
  obtain ⟨c, hc, e⟩ := h
  set ρ := bpRoots a b (some (-b : ℂ))
  have e1 := e 1
  have e2 := e (-1)
  have e0 := e 0
  simp only [SMap.poly, form, bpMap] at e0 e1 e2
  rw [← mul_eq_zero]
  have hc1 : (1 : ℂ) = c * (2 * b) := by linear_combination e0
  linear_combination (e1 + e2) / 2 - e0

theorem bsRoots_double (a : ℝ) {b : ℝ} (hb : 0 < b) :
    (bsRoots a b (some (-b : ℂ))).1 = 0 ∨ (bsRoots a b (some (-b : ℂ))).2 = 0 := by
  have h := (bsRoots_image a hb (r := some (-b : ℂ)) (by rintro z hz; cases hz; simpa using hb.le)).poly
  obtain ⟨c, hc, e⟩ := h
  set ρ := bsRoots a b (some (-b : ℂ))
  have e1 := e 1
  have e2 := e (-1)
  have e0 := e 0
  simp only [SMap.poly, form, bsMap] at e0 e1 e2
  rw [← mul_eq_zero]
  linear_combination (e1 + e2) / 2 - e0

section
variable {A : Analog} {a : Layout XR} {L0 : ℕ} {g0 : XR} {l : Layout XR} {L : ℕ}

/-- which check fails -/
def DoubleErr (A : Analog) (b : ℝ) (e : Err) : Prop :=
  (A.pole (A.n / 2) = -(b : ℂ) ∧ e = .polesNotConj) ∨
  (A.pole (A.n / 2) ≠ -(b : ℂ) ∧ A.zero (A.n / 2) = some (-(b : ℂ)) ∧ e = .zerosNotConj)

theorem bandPassTransform_double (hA : A.Sym) (hl : A.Left) {wn : XR} (ha : a.Stored A.stored A.n L0 wn g0)
    {fc fw : ℝ} (h0 : 0 ≤ fc) (h1 : fc < 1 / 2) (he : edgeLo fc fw < edgeHi fc fw) (hodd : A.n % 2 = 1) {e : Err}
    (hd : DoubleErr A (1 / Real.tan (edgeHalf fc fw)) e) (hL : l.pairs.length = L) (hn : A.n ≤ L) :
    ∃ l', bandPassTransform (fin fc) (fin fw) a l = (.throw e, l') := by
  have ht := tan_edgeHalf_pos he
  have hb : 0 < 1 / Real.tan (edgeHalf fc fw) := one_div_pos.2 ht
  obtain ⟨hp, hz⟩ := hl.roots
  have e2 : (1 / FArith.tan ((fin (edgeHi fc fw) - fin (edgeLo fc fw)) * 0.5) : XR) =
      fin (1 / Real.tan (edgeHalf fc fw)) := by
    rw [tanHalf_fin he, lit_one, fin_div _ ht.ne']
  generalize 1 / Real.tan (edgeHalf fc fw) = b at *
  generalize hA' : bandA fc fw = aa at *
  have hm : ∃ l1, bpLayout (fin aa) (fin b) a { l with numPoles := 0 } = (.throw e, l1) := by
    unfold bpLayout
    simp only [ha.numPoles]
    refine fail_bandLayout (P := fun k => bpRoots aa b (some (A.pole k))) (Z := fun k => bpRoots aa b (A.zero k))
      (p := ⟨ofC (bpRoots aa b (some (A.pole (A.n / 2)))).1, ofC (bpRoots aa b (some (A.pole (A.n / 2)))).2⟩)
      (z := ⟨ofC (bpRoots aa b (A.zero (A.n / 2))).1, ofC (bpRoots aa b (A.zero (A.n / 2))).2⟩)
      ?_ ?_ ?_ hn (Layout.reset_stored hL)
    · intro k hk
      rw [ha.getPair (A.stored_pair hk), lift_bind_ok]
      have := bpTransform_rootX aa hb (hp k (by omega))
      rw [rootX] at this
      simp only [this, bpTransform_rootX aa hb (hz k (by omega))]
    · simp only [hodd, beq_self_eq_true, if_true]
      rw [ha.getPair (A.stored_odd hodd), lift_bind_ok]
      have := bpTransform_rootX aa hb (hp (A.n / 2) (by omega))
      rw [rootX] at this
      simp only [this, bpTransform_rootX aa hb (hz (A.n / 2) (by omega))]
    · have i1 := bpRoots_image aa hb (hp (A.n / 2) (by omega))
      have i2 := bpRoots_image aa hb (hz (A.n / 2) (by omega))
      rcases hd with ⟨h2, h3⟩ | ⟨h2, h3, h4⟩
      · refine .inl ⟨not_isMatchedPair (i1.matched (hA.pole_conj hodd)) ?_, h3⟩
        rw [h2]; exact bpRoots_double aa hb
      · have n1 := i1.ne (by simpa using h2)
        refine .inr ⟨isMatchedPair_ofC (i1.matched (hA.pole_conj hodd)) n1.1 n1.2,
          not_isMatchedPair (i2.matched (hA.zero_conj hodd)) ?_, h4⟩
        rw [h3]; exact bpRoots_double aa hb
  obtain ⟨l1, e1⟩ := hm
  refine ⟨l1, ?_⟩
  unfold bandPassTransform
  simp only [bind_def, checkFreq_ok h0 h1, Layout.reset, modify_def, bandEdges_fin, bandA_fin he, hA', e2, e1]

theorem bandShelfTransform_double (hA : A.Sym) (hl : A.Left) {wn : XR} (ha : a.Stored A.stored A.n L0 wn g0)
    {fc fw : ℝ} (h0 : 0 ≤ fc) (h1 : fc < 1 / 2) (he : edgeLo fc fw < edgeHi fc fw) (hodd : A.n % 2 = 1) {e : Err}
    (hd : DoubleErr A (1 / Real.tan (edgeHalf fc fw)) e) (hL : l.pairs.length = L) (hn : A.n ≤ L) :
    ∃ l', bandShelfTransform (fin fc) (fin fw) a l = (.throw e, l') := by
  obtain ⟨l1, e1⟩ := bandPassTransform_double hA hl ha h0 h1 he hodd hd hL hn
  exact ⟨l1, by unfold bandShelfTransform; simp only [bind_def, e1]⟩

theorem bandStopTransform_double (hA : A.Sym) (hl : A.Left) {wn : XR} (ha : a.Stored A.stored A.n L0 wn g0)
    {fc fw : ℝ} (h0 : 0 ≤ fc) (h1 : fc < 1 / 2) (he : edgeLo fc fw < edgeHi fc fw) (hodd : A.n % 2 = 1) {e : Err}
    (hd : DoubleErr A (Real.tan (edgeHalf fc fw)) e) (hL : l.pairs.length = L) (hn : A.n ≤ L) :
    ∃ l', bandStopTransform (fin fc) (fin fw) a l = (.throw e, l') := by
  have hb := tan_edgeHalf_pos he
  obtain ⟨hp, hz⟩ := hl.roots
  have e2 := tanHalf_fin he
  generalize Real.tan (edgeHalf fc fw) = b at *
  generalize hA' : bandA fc fw = aa at *
  have hpi := fun k (hk : k < A.n) => (bsRoots_image aa hb (hp k hk)).swap
  have hzi := fun k (hk : k < A.n) => (bsRoots_image aa hb (hz k hk)).swap
  have hm : ∃ l1, bsLayout (fin aa) (fin b) a { l with numPoles := 0 } = (.throw e, l1) := by
    unfold bsLayout
    simp only [ha.numPoles]
    refine fail_bandLayout (P := fun k => bsRoots aa b (some (A.pole k)))
      (Z := fun k => trick (bsRoots aa b (A.zero k)))
      (p := ⟨ofC (bsRoots aa b (some (A.pole (A.n / 2)))).1, ofC (bsRoots aa b (some (A.pole (A.n / 2)))).2⟩)
      (z := ⟨ofC (bsRoots aa b (A.zero (A.n / 2))).1, ofC (bsRoots aa b (A.zero (A.n / 2))).2⟩)
      ?_ ?_ ?_ hn (Layout.reset_stored hL)
    · intro k hk
      rw [ha.getPair (A.stored_pair hk), lift_bind_ok]
      have := bsTransform_rootX aa hb (hp k (by omega))
      rw [rootX] at this
      simp only [this, bsTransform_rootX aa hb (hz k (by omega)), conjTrick_ofC]
    · simp only [hodd, beq_self_eq_true, if_true]
      rw [ha.getPair (A.stored_odd hodd), lift_bind_ok]
      have := bsTransform_rootX aa hb (hp (A.n / 2) (by omega))
      rw [rootX] at this
      simp only [this, bsTransform_rootX aa hb (hz (A.n / 2) (by omega))]
    · have i1 := hpi (A.n / 2) (by omega)
      have i2 := hzi (A.n / 2) (by omega)
      rcases hd with ⟨h2, h3⟩ | ⟨h2, h3, h4⟩
      · refine .inl ⟨not_isMatchedPair (i1.matched (hA.pole_conj hodd)) ?_, h3⟩
        rw [h2]; exact bsRoots_double aa hb
      · have n1 := i1.ne (by simpa using h2)
        refine .inr ⟨isMatchedPair_ofC (i1.matched (hA.pole_conj hodd)) n1.1 n1.2,
          not_isMatchedPair (i2.matched (hA.zero_conj hodd)) ?_, h4⟩
        rw [h3]; exact bsRoots_double aa hb
  obtain ⟨l1, e1⟩ := hm
  refine ⟨l1, ?_⟩
  unfold bandStopTransform
  simp only [bind_def, checkFreq_ok h0 h1, Layout.reset, modify_def, bandEdges_fin, bandA_fin he, hA', e2, e1]

end

/-! ## `setup` then throws on every object -/

variable {S : Type → Type} [StateType S XR] {T : Type} [Sample T XR] {n o : ℕ}

/-- Whatever was done with an object of the class before, the call throws `e`. -/
def Spec.ThrowsAlways (S : Type → Type) [StateType S XR] (T : Type) [Sample T XR] (n : ℕ) (call : Call XR) (e : Err) :
    Prop :=
  ∀ f : PoleFilter S XR, Reach S T call.design.cls n f → (PoleFilter.setup n call f).1 = .throw e

/-- The prototype can be built. -/
theorem IsProto.build_ok {d : Design XR} {A : Analog} {w0 g0 : ℝ} (hp : IsProto d n o A w0 g0) :
    (d.build (o : ℤ) (d.cls.lay0 n)).1 = .ok () := by
  obtain ⟨la, ela, _⟩ := hp.build.run (Cls.lay0_stored d.cls n)
  rw [ela]

theorem Spec.throws_of {call : Call XR} {d : Design XR} (hask : Asks call n o d) {A : Analog} {w0 g0 : ℝ}
    (hp : IsProto d n o A w0 g0) {e : Err}
    (ht : ∀ a l : Layout XR, a.Stored A.stored A.n ((n + 1) / 2) (fin w0) (fin g0) →
      l.pairs.length = (n * d.cls.mult + 1) / 2 → ∃ l', d.trans a l = (.throw e, l')) :
    ThrowsAlways S T n call e := by
  intro f hf
  have ho1 := hask.pos
  have hon := hask.le
  have hn : n < 1073741824 := hask.small
  have hcls : call.normDesign.cls = call.design.cls := call.normDesign_cls
  have hd := hask.design
  obtain ⟨h1, -⟩ := Call.run_fresh (S := S) (T := T) (by omega) hn hf rfl (by rw [hask.order]; omega)
    (fun _ => by rw [← hcls, hd, hask.order]; exact hp.build_ok)
  have : (PoleFilter.setup n call f).1 = (call.run n f.base).1 := rfl
  rw [this, h1, Call.run_eq, if_neg (by rw [hask.order]; omega), hask.order, ← hcls, hd]
  obtain ⟨la, ela, sla⟩ := hp.build.run (Cls.lay0_stored d.cls n)
  obtain ⟨a, ea, ha⟩ : ∃ a, d.proto (o : ℤ) (PoleFilter.initBase d.cls n : PFB XR).analog = (.ok (), a) ∧
      a.lay = la := by
    cases hs : d.stale (o : ℤ) (PoleFilter.initBase d.cls n : PFB XR).analog with
    | false =>
      refine ⟨_, d.proto_hit hs, ?_⟩
      have := d.fresh_hit (by omega) hs
      rw [this] at ela
      exact congrArg Prod.snd ela
    | true =>
      have e : d.build (o : ℤ) (PoleFilter.initBase d.cls n : PFB XR).analog.lay =
        d.build (o : ℤ) (d.cls.lay0 n) := rfl
      refine ⟨{ d.setKey (o : ℤ) (PoleFilter.initBase d.cls n : PFB XR).analog with lay := la }, ?_, rfl⟩
      rw [d.proto_miss hs, e, ela]
  have hok := PFB.ok_init (R := XR) d.cls n
  obtain ⟨l, et⟩ := ht a.lay (PoleFilter.initBase d.cls n : PFB XR).digital (by rw [ha]; exact sla)
    (by rw [hok.digital.2, Cls.maxDigital_eq])
  rw [PFB.baseSetup_proto, ea]
  simp only
  rw [PFB.rest_apply]
  simp only
  rw [et]

variable {call : Call XR} {d : Design XR} {A : Analog} {w0 g0 fc fw : ℝ}

theorem Spec.double_bandPass (hask : Asks call n o d) (hp : IsProto d n o A w0 g0)
    (hd : d.trans = bandPassTransform (fin fc) (fin fw)) (hm : d.cls.mult = 2) (h0 : 0 ≤ fc) (h1 : fc < 1 / 2)
    (he : edgeLo fc fw < edgeHi fc fw) (hodd : o % 2 = 1) {e : Err}
    (hdb : DoubleErr A (1 / Real.tan (edgeHalf fc fw)) e) : ThrowsAlways S T n call e :=
  Spec.throws_of hask hp fun a l ha hl => by
    have := hask.le
    rw [hd]; exact bandPassTransform_double hp.sym hp.left ha h0 h1 he (by rw [hp.n_eq]; exact hodd) hdb hl
      (by rw [hp.n_eq, hm]; omega)

theorem Spec.double_bandShelf (hask : Asks call n o d) (hp : IsProto d n o A w0 g0)
    (hd : d.trans = bandShelfTransform (fin fc) (fin fw)) (hm : d.cls.mult = 2) (h0 : 0 ≤ fc) (h1 : fc < 1 / 2)
    (he : edgeLo fc fw < edgeHi fc fw) (hodd : o % 2 = 1) {e : Err}
    (hdb : DoubleErr A (1 / Real.tan (edgeHalf fc fw)) e) : ThrowsAlways S T n call e :=
  Spec.throws_of hask hp fun a l ha hl => by
    have := hask.le
    rw [hd]; exact bandShelfTransform_double hp.sym hp.left ha h0 h1 he (by rw [hp.n_eq]; exact hodd) hdb hl
      (by rw [hp.n_eq, hm]; omega)

theorem Spec.double_bandStop (hask : Asks call n o d) (hp : IsProto d n o A w0 g0)
    (hd : d.trans = bandStopTransform (fin fc) (fin fw)) (hm : d.cls.mult = 2) (h0 : 0 ≤ fc) (h1 : fc < 1 / 2)
    (he : edgeLo fc fw < edgeHi fc fw) (hodd : o % 2 = 1) {e : Err}
    (hdb : DoubleErr A (Real.tan (edgeHalf fc fw)) e) : ThrowsAlways S T n call e :=
  Spec.throws_of hask hp fun a l ha hl => by
    have := hask.le
    rw [hd]; exact bandStopTransform_double hp.sym hp.left ha h0 h1 he (by rw [hp.n_eq]; exact hodd) hdb hl
      (by rw [hp.n_eq, hm]; omega)

end
end Iir
