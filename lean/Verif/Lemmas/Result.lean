import Verif.Lemmas.Cache

/-! # The configuration after a successful `setup` -/

set_option linter.unusedSectionVars false

namespace Iir
open FArith Cx Exec Spec Biquad Cascade

variable {R : Type} [FArith R]

theorem Cascade.placePairs_ok {ps : List (PoleZeroPair R)} {bs : List (Biquad R)}
    (h : ps.length ≤ bs.length) (hok : (placePairs ps bs).1 = .ok ()) :
    ∃ qs, List.Forall₂ (fun p b => pairR p = .ok b) ps qs ∧
      (placePairs ps bs).2 = qs ++ bs.drop ps.length := by
  induction ps generalizing bs with
  | nil => exact ⟨[], .nil, by cases bs <;> rfl⟩
  | cons p ps ih =>
    cases bs with
    | nil => simp at h
    | cons b bs =>
      simp only [placePairs] at hok ⊢
      cases hp : pairR p with
      | ok b' =>
        rw [hp] at hok
        obtain ⟨qs, h1, h2⟩ := ih (by simpa using h) hok
        exact ⟨b' :: qs, .cons hp h1, by simp [h2]⟩
      | throw e => rw [hp] at hok; simp at hok
      | ub u => rw [hp] at hok; simp at hok

/-- All `getPoleZeros ()` returns. -/
theorem PFB.poleZerosLoop_ok {l : Layout R} {N L : Nat} (hl : l.AtMost N L) (hL : (N + 1) / 2 ≤ L) (k : Nat)
    (hk : k ≤ (l.numPoles + 1) / 2) : poleZerosLoop l k = .ok (l.pairs.take k) := by
  induction k with
  | zero => rfl
  | succ k ih =>
    have h1 := hl.1
    have h2 := hl.2
    have hk2 : k < l.pairs.length := by omega
    have hget : l.getPair (k : Int) = .ok l.pairs[k] := by
      unfold Layout.getPair
      rw [if_neg (by simp; omega)]
      simp [List.getElem?_eq_getElem hk2]
    simp only [poleZerosLoop, Bind.bind, Res.bind, ih (by omega), hget, pure]
    rw [List.take_add_one, List.getElem?_eq_getElem hk2]; rfl

/-- The normalisation applied: `m_normalGain` over the gain at `m_normalW` of the sections before. -/
def normFactor (w g : R) (numStages M : Nat) (st : List (Biquad R)) : Res R := do
  let h ← Cascade.response { numStages := numStages, maxStages := M, stages := st } (w / (2 * pi))
  return g / cabs h

theorem Cascade.setLayout_result {l : Layout R} {c c' : Cascade R} {M N : Nat} (hc : c.Ok M) (h1 : 1 ≤ M)
    (hl : l.AtMost N ((N + 1) / 2)) (hM : (N + 1) / 2 ≤ M) (h : setLayout l c = (.ok (), c')) :
    ∃ (qs : List (Biquad R)) (b0 : Biquad R) (g : R), identR = .ok b0 ∧
      List.Forall₂ (fun p b => pairR p = .ok b) (l.pairs.take ((l.numPoles + 1) / 2)) qs ∧
      normFactor l.normalW l.normalGain ((l.numPoles + 1) / 2) M
        (qs ++ List.replicate (M - (l.numPoles + 1) / 2) b0) = .ok g ∧
      c' = { numStages := (l.numPoles + 1) / 2, maxStages := M,
             stages := (if (l.numPoles + 1) / 2 < 1 then qs else qs.modify 0 (scaled g)) ++
              List.replicate (M - (l.numPoles + 1) / 2) b0 } := by
  obtain ⟨b0, h0⟩ := identR_of_setLayout hc h1 h
  have hk : (l.numPoles + 1) / 2 ≤ M := by have := hl.1; omega
  have hk2 : (l.numPoles + 1) / 2 ≤ l.pairs.length := by have := hl.1; have := hl.2; omega
  rw [setLayout_eq hc h0 hk2 hk] at h
  simp only at h
  have hlen : (l.pairs.take ((l.numPoles + 1) / 2)).length = (l.numPoles + 1) / 2 := by
    rw [List.length_take]; omega
  have hpp := placePairs_ok (ps := l.pairs.take ((l.numPoles + 1) / 2)) (bs := List.replicate M b0)
    (by rw [hlen, List.length_replicate]; exact hk)
  generalize placePairs (l.pairs.take ((l.numPoles + 1) / 2)) (List.replicate M b0) = pp at h hpp
  rcases pp with ⟨r, st⟩
  cases r with
  | throw e => simp at h
  | ub u => simp at h
  | ok _ =>
    obtain ⟨qs, h2, h3⟩ := hpp rfl
    simp only [hlen, List.drop_replicate] at h3
    subst h3
    simp only [finish] at h
    have hql := h2.length_eq
    rw [hlen] at hql
    cases hr : Cascade.response (Cascade.mk ((l.numPoles + 1) / 2) M
        (qs ++ List.replicate (M - (l.numPoles + 1) / 2) b0)) (l.normalW / (2 * pi)) with
    | throw e => rw [hr] at h; simp at h
    | ub u => rw [hr] at h; simp at h
    | ok hh =>
      rw [hr] at h
      refine ⟨qs, b0, l.normalGain / cabs hh, h0, h2, by simp [normFactor, hr, Bind.bind, Res.bind, pure], ?_⟩
      have := congrArg Prod.snd h
      simp only at this
      rw [← this]
      split_ifs with hlt
      · rfl
      · congr 1
        cases qs with
        | nil => rw [List.length_nil] at hql; omega
        | cons q qs => rfl

variable {n : Nat}

/-- Everything about the object after a `setup` that succeeded. -/
theorem PFB.baseSetup_result (hn1 : 1 ≤ n) (hn : n < 1073741824) {o : Int} (ho : o ≤ n) {d : Design R}
    {p p' : PFB R} (hp : p.Ok d.cls n) (h : d.baseSetup o p = (.ok (), p')) :
    ∃ (ps : List (PoleZeroPair R)) (qs : List (Biquad R)) (b0 : Biquad R) (g w gn : R),
      p'.getPoleZeros = .ok ps ∧ p'.cascade.numStages = ps.length ∧
      ps.length = (p'.analog.lay.numPoles * d.cls.mult + 1) / 2 ∧
      identR = .ok b0 ∧
      List.Forall₂ (fun p b => pairR p = .ok b) ps qs ∧
      normFactor w gn ps.length (PoleFilter.numStages d.cls n)
        (qs ++ List.replicate (PoleFilter.numStages d.cls n - ps.length) b0) = .ok g ∧
      p'.cascade.stages = (if ps.length < 1 then qs else qs.modify 0 (scaled g)) ++
        List.replicate (PoleFilter.numStages d.cls n - ps.length) b0 := by
  have hpok := PFB.ok_baseSetup hn1 hn ho hp (by rw [h]; simp)
  rw [h] at hpok
  simp only at hpok
  rw [PFB.baseSetup_proto] at h
  rcases hq : d.proto o p.analog with ⟨r, a⟩
  rw [hq] at h
  cases r with
  | throw e => simp at h
  | ub u => simp at h
  | ok _ =>
    simp only at h
    have ha : a.lay.AtMost n ((n + 1) / 2) := by
      have := d.proto_atMost hn1 hn ho hp.analog (by rw [hq]; simp)
      rwa [hq] at this
    have han : p'.analog = a := by
      have := PFB.rest_analog d { p with analog := a }
      rwa [h] at this
    rw [PFB.rest_apply] at h
    have ht := d.trip_trans (U := fun _ => True) ha (Nat.le_refl _) p.digital hp.digital
    simp only at h
    revert h ht
    rcases d.trans a.lay p.digital with ⟨r, l⟩
    cases r with
    | throw e => intro h; simp at h
    | ub u => intro h; simp at h
    | ok _ =>
      simp only
      intro h ht
      have hp'd : p'.digital = l := (congrArg (fun q => q.2.digital) h).symm
      have hsl : Cascade.setLayout l p.cascade = (.ok (), p'.cascade) := by
        have e1 : (Cascade.setLayout l p.cascade).1 = .ok () := congrArg (fun q => q.1) h
        have e2 : (Cascade.setLayout l p.cascade).2 = p'.cascade := congrArg (fun q => q.2.cascade) h
        exact Prod.ext e1 e2
      have hM1 : 1 ≤ PoleFilter.numStages d.cls n := by
        unfold PoleFilter.numStages
        rw [Cls.maxDigital_eq]
        have hms : 1 ≤ d.cls.mult := by cases d <;> simp [Design.cls, Cls.mult]
        have h5 : n * 1 ≤ n * d.cls.mult := Nat.mul_le_mul_left n hms
        omega
      have hlat : l.AtMost (d.cls.maxDigital n) ((d.cls.maxDigital n + 1) / 2) := by
        rw [← hp'd]; exact hpok.digital
      obtain ⟨qs, b0, g, h1, h2, h3, h4⟩ := Cascade.setLayout_result hp.cascade hM1 hlat
        (Nat.le_refl _) hsl
      have hlen : (l.pairs.take ((l.numPoles + 1) / 2)).length = (l.numPoles + 1) / 2 := by
        have := hlat.1; have := hlat.2
        rw [List.length_take]; omega
      refine ⟨_, qs, b0, g, l.normalW, l.normalGain, ?_, ?_, ?_, h1, h2, ?_, ?_⟩
      · unfold PFB.getPoleZeros
        rw [hp'd]
        exact PFB.poleZerosLoop_ok hlat (Nat.le_refl _) _ (Nat.le_refl _)
      · rw [h4, hlen]
      · rw [hlen, ht.1, han]
      · rw [hlen]; exact h3
      · rw [h4, hlen]

end Iir
