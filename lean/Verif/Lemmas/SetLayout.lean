import Verif.Lemmas.Setup

/-! # What `Cascade::setLayout` does, as a function of the layout

`setLayout` overwrites all sections: the result depends on the layout and on the number of sections
only, not on what the sections were before. -/

set_option linter.unusedSectionVars false

namespace Iir
open FArith Cx Exec

variable {R : Type} [FArith R]

namespace Biquad

/-- the value `setCoefficients` stores -/
def coeffsR (a0 a1 a2 b0 b1 b2 : R) : Res (Biquad R) :=
  if FArith.isNan a0 || FArith.isNan a1 || FArith.isNan a2 || FArith.isNan b0 || FArith.isNan b1
    || FArith.isNan b2 then .throw .coeffNaN
  else .ok { a0 := a0, a1 := a1 / a0, a2 := a2 / a0, b0 := b0 / a0, b1 := b1 / a0, b2 := b2 / a0 }

/-- a member function that stores `r`, or throws without effect -/
def Stores (m : Exec (Biquad R) Unit) (r : Res (Biquad R)) : Prop := ∀ b, m b =
  match r with
  | .ok b' => (.ok (), b')
  | .throw e => (.throw e, b)
  | .ub u => (.ub u, b)

theorem stores_setCoefficients (a0 a1 a2 b0 b1 b2 : R) :
    Stores (setCoefficients a0 a1 a2 b0 b1 b2) (coeffsR a0 a1 a2 b0 b1 b2) := by
  intro b
  unfold setCoefficients coeffsR
  simp only [bind_def]
  cases FArith.isNan a0 <;> simp
  cases FArith.isNan a1 <;> simp
  cases FArith.isNan a2 <;> simp
  cases FArith.isNan b0 <;> simp
  cases FArith.isNan b1 <;> simp
  cases FArith.isNan b2 <;> simp

/-- the value `setOnePole` stores -/
def onePoleR (p z : Cx R) : Res (Biquad R) :=
  if fne p.im 0 then .throw .imagPole
  else if fne z.im 0 then .throw .imagZero
  else coeffsR 1 (-p.re) 0 1 (-z.re) 0

theorem stores_setOnePole (p z : Cx R) : Stores (setOnePole p z) (onePoleR p z) := by
  intro b
  unfold setOnePole onePoleR
  simp only [bind_def]
  cases fne p.im 0 <;> simp
  cases fne z.im 0 <;> simp
  exact stores_setCoefficients _ _ _ _ _ _ b

/-- the value `setTwoPole` stores -/
def twoPoleR (p1 z1 p2 z2 : Cx R) : Res (Biquad R) := do
  let a ← pairCoeffs .twoPolePoles p1 p2
  let b ← pairCoeffs .twoPoleZeros z1 z2
  coeffsR 1 a.1 a.2 1 b.1 b.2

theorem stores_setTwoPole (p1 z1 p2 z2 : Cx R) :
    Stores (setTwoPole p1 z1 p2 z2) (twoPoleR p1 z1 p2 z2) := by
  intro s
  unfold setTwoPole twoPoleR
  simp only [bind_def, lift_def]
  rcases pairCoeffs .twoPolePoles p1 p2 with a | e | u <;> simp only [Bind.bind, Res.bind]
  rcases pairCoeffs .twoPoleZeros z1 z2 with b | e | u <;> simp only
  exact stores_setCoefficients _ _ _ _ _ _ s

/-- the value `setPoleZeroPair` stores -/
def pairR (pr : PoleZeroPair R) : Res (Biquad R) :=
  if pr.isSinglePole then onePoleR pr.poles.first pr.zeros.first
  else twoPoleR pr.poles.first pr.zeros.first pr.poles.second pr.zeros.second

theorem stores_setPoleZeroPair (pr : PoleZeroPair R) : Stores (setPoleZeroPair pr) (pairR pr) := by
  unfold setPoleZeroPair pairR
  split_ifs
  · exact stores_setOnePole _ _
  · exact stores_setTwoPole _ _ _ _

/-- the value `setIdentity` stores -/
def identR : Res (Biquad R) := coeffsR 1 0 0 1 0 0

theorem coeffsR_throw {a0 a1 a2 b0 b1 b2 : R} {r : Res (Biquad R)} (h : coeffsR a0 a1 a2 b0 b1 b2 = r) :
    (∃ b, r = .ok b) ∨ r = .throw .coeffNaN := by
  subst h; unfold coeffsR; split_ifs <;> simp

theorem stores_setIdentity : Stores (setIdentity : Exec (Biquad R) Unit) identR :=
  stores_setCoefficients _ _ _ _ _ _

theorem pairR_not_ub (pr : PoleZeroPair R) (u : UB) : pairR pr ≠ .ub u := by
  intro h
  have := setPoleZeroPair_not_ub pr Biquad.default u
  rw [stores_setPoleZeroPair pr, h] at this
  exact this rfl

/-- `applyScale` -/
def scaled (k : R) (b : Biquad R) : Biquad R :=
  { b with b0 := b.b0 * k, b1 := b.b1 * k, b2 := b.b2 * k }

end Biquad

namespace Cascade
open Biquad

/-- Store the sections of `ps` over `bs`, stopping at the first pair that is rejected. -/
def placePairs : List (PoleZeroPair R) → List (Biquad R) → Res Unit × List (Biquad R)
  | p :: ps, b :: bs =>
    match pairR p with
    | .ok b' => ((placePairs ps bs).1, b' :: (placePairs ps bs).2)
    | .throw e => (.throw e, b :: bs)
    | .ub u => (.ub u, b :: bs)
  | _, bs => (.ok (), bs)

theorem placePairs_length (ps : List (PoleZeroPair R)) (bs : List (Biquad R)) :
    (placePairs ps bs).2.length = bs.length := by
  induction ps generalizing bs with
  | nil => cases bs <;> rfl
  | cons p ps ih =>
    cases bs with
    | nil => rfl
    | cons b bs => rw [placePairs]; cases pairR p <;> simp [ih]

/-- The sections after the ones the pairs are for stay. -/
theorem placePairs_append (ps : List (PoleZeroPair R)) (bs cs : List (Biquad R))
    (h : ps.length ≤ bs.length) :
    placePairs ps (bs ++ cs) = ((placePairs ps bs).1, (placePairs ps bs).2 ++ cs) := by
  induction ps generalizing bs with
  | nil => cases bs <;> cases cs <;> rfl
  | cons p ps ih =>
    cases bs with
    | nil => simp at h
    | cons b bs =>
      simp only [List.length_cons, Nat.add_le_add_iff_right] at h
      simp only [List.cons_append, placePairs]
      cases pairR p <;> simp [ih _ h]

theorem placePairs_snoc (ps : List (PoleZeroPair R)) (p : PoleZeroPair R) (bs : List (Biquad R))
    (h : ps.length < bs.length) :
    placePairs (ps ++ [p]) bs =
      match placePairs ps bs with
      | (.ok _, cs) =>
        (match pairR p with
        | .ok b' => (.ok (), cs.set ps.length b')
        | .throw e => (.throw e, cs)
        | .ub u => (.ub u, cs))
      | r => r := by
  induction ps generalizing bs with
  | nil =>
    cases bs with
    | nil => simp at h
    | cons b bs =>
      have h0 : ∀ l : List (Biquad R), placePairs [] l = (.ok (), l) := fun l => by cases l <;> rfl
      simp only [List.nil_append, h0]
      rw [placePairs]
      cases pairR p <;> simp [h0]
  | cons q ps ih =>
    cases bs with
    | nil => simp at h
    | cons b bs =>
      simp only [List.length_cons, Nat.add_lt_add_iff_right] at h
      simp only [List.cons_append, placePairs]
      rcases pairR q with b' | e | u
      · simp only [ih _ h]
        rcases placePairs ps bs with ⟨r, cs⟩
        cases r
        · simp only
          cases pairR p <;> simp
        · rfl
        · rfl
      · rfl
      · rfl

/-- effect on a cascade of storing `r` in section `i` -/
def stored (i : Nat) (r : Res (Biquad R)) (c : Cascade R) : Res Unit × Cascade R :=
  match r with
  | .ok b' => (.ok (), { c with stages := c.stages.set i b' })
  | .throw e => (.throw e, c)
  | .ub u => (.ub u, c)

theorem onStage_eq {c : Cascade R} {i : Nat} {m : Exec (Biquad R) Unit} {r : Res (Biquad R)}
    (h : i < c.stages.length) (hm : Stores m r) : onStage i m c = stored i r c := by
  unfold onStage stored
  rw [List.getElem?_eq_getElem h]
  simp only [hm c.stages[i]]
  cases r <;> simp

theorem loop_setIdentity {c : Cascade R} {b0 : Biquad R} (h0 : identR = .ok b0) (n : Nat)
    (h : n ≤ c.stages.length) :
    Exec.loop n (fun i => onStage i Biquad.setIdentity) c =
      (.ok (), { c with stages := List.replicate n b0 ++ c.stages.drop n }) := by
  induction n with
  | zero => simp [Exec.loop]
  | succ n ih =>
    rw [Exec.loop, bind_def', ih (by omega)]
    simp only
    rw [onStage_eq (by simp; omega) stores_setIdentity, h0]
    simp only [stored, Prod.mk.injEq, true_and]
    congr 1
    rw [List.set_append_right _ _ (by simp), List.replicate_succ', List.append_assoc]
    congr 1
    rw [List.length_replicate, Nat.sub_self]
    have : c.stages.drop n = c.stages[n] :: c.stages.drop (n + 1) := List.drop_eq_getElem_cons h
    rw [this]; rfl

theorem loop_pairs {l : Layout R} {c : Cascade R} (k : Nat) (hk : k ≤ (l.numPoles + 1) / 2)
    (hl : (l.numPoles + 1) / 2 ≤ l.pairs.length) (hc : k ≤ c.stages.length) :
    Exec.loop k (fun i => do
        let pr ← Exec.lift (l.getPair i)
        onStage i (Biquad.setPoleZeroPair pr)) c =
      ((placePairs (l.pairs.take k) c.stages).1,
        { c with stages := (placePairs (l.pairs.take k) c.stages).2 }) := by
  induction k with
  | zero => cases hs : c.stages <;> simp [Exec.loop, placePairs, ← hs]
  | succ k ih =>
    rw [Exec.loop, bind_def', ih (by omega) (by omega)]
    have hp : l.pairs[k]? = some l.pairs[k] := List.getElem?_eq_getElem (by omega)
    have htake : l.pairs.take (k + 1) = l.pairs.take k ++ [l.pairs[k]] := by
      rw [List.take_add_one, hp]; rfl
    have hlen : (l.pairs.take k).length = k := by rw [List.length_take]; omega
    rw [htake, placePairs_snoc _ _ _ (by omega)]
    have hlen2 := placePairs_length (l.pairs.take k) c.stages
    rcases hpp : placePairs (l.pairs.take k) c.stages with ⟨r, cs⟩
    rw [hpp] at hlen2
    simp only at hlen2
    cases r
    · have hget : l.getPair (k : Int) = .ok l.pairs[k] := by
        unfold Layout.getPair
        rw [if_neg (by simp; omega)]
        simp [hp]
      simp only [bind_def, hget, lift_ok]
      rw [onStage_eq (by simp; omega) (stores_setPoleZeroPair _), hlen]
      unfold stored
      cases pairR l.pairs[k] <;> rfl
    · rfl
    · rfl

/-- What `setLayout` does after the sections have been set. -/
def finish (w g : R) (c : Cascade R) : Res Unit × Cascade R :=
  match c.response (w / (2 * pi)) with
  | .ok h =>
    (.ok (), if c.numStages < 1 then c
      else { c with stages := c.stages.modify 0 (scaled (g / cabs h)) })
  | .throw e => (.throw e, c)
  | .ub u => (.ub u, c)

/-- `setLayout` as a function of the layout and the number of sections. -/
theorem setLayout_eq {l : Layout R} {c : Cascade R} {M : Nat} (hc : c.Ok M) {b0 : Biquad R}
    (h0 : identR = .ok b0) (hl : (l.numPoles + 1) / 2 ≤ l.pairs.length)
    (hM : (l.numPoles + 1) / 2 ≤ M) :
    setLayout l c =
      let p := placePairs (l.pairs.take ((l.numPoles + 1) / 2)) (List.replicate M b0)
      let c' : Cascade R := { numStages := (l.numPoles + 1) / 2, maxStages := M, stages := p.2 }
      match p.1 with
      | .ok _ => finish l.normalW l.normalGain c'
      | .throw e => (.throw e, c')
      | .ub u => (.ub u, c') := by
  obtain ⟨hm, hlen, hn⟩ := hc
  unfold setLayout
  simp only [bind_def, modify_def, get_def, hm]
  rw [show decide ((l.numPoles + 1) / 2 > M) = false by simp; omega]
  simp only [throwIf_false]
  rw [loop_setIdentity h0 M (by simp; omega)]
  simp only
  rw [List.drop_eq_nil_of_le (by omega), List.append_nil,
    loop_pairs _ (Nat.le_refl _) hl (by simpa using hM)]
  simp only
  have hpl := placePairs_length (l.pairs.take ((l.numPoles + 1) / 2)) (List.replicate M b0)
  generalize placePairs (l.pairs.take ((l.numPoles + 1) / 2)) (List.replicate M b0) = pp at hpl ⊢
  rcases pp with ⟨r, cs⟩
  simp only [List.length_replicate] at hpl
  cases r
  · simp only [lift_def]
    unfold finish
    simp only
    rcases Cascade.response { numStages := (l.numPoles + 1) / 2, maxStages := M, stages := cs }
      (l.normalW / (2 * pi)) with h | e | u
    · simp only [Cascade.applyScale, bind_def, get_def]
      split_ifs with hk
      · rfl
      · cases cs with
        | nil => exfalso; change 0 = M at hpl; omega
        | cons b cs => rfl
    · rfl
    · rfl
  · rfl
  · rfl

/-- If `setLayout` succeeds on an object with at least one section, its result is the function of
`setLayout_eq`. -/
theorem identR_of_setLayout {l : Layout R} {c : Cascade R} {M : Nat} (hc : c.Ok M) (h1 : 1 ≤ M)
    {c' : Cascade R} (h : setLayout l c = (.ok (), c')) : ∃ b0 : Biquad R, identR = .ok b0 := by
  cases h0 : (identR : Res (Biquad R)) with
  | ok b => exact ⟨b, rfl⟩
  | ub u => rcases coeffsR_throw h0 with ⟨b, hb⟩ | hb <;> simp at hb
  | throw e =>
    exfalso
    obtain ⟨hm, hlen, hn⟩ := hc
    unfold setLayout at h
    simp only [bind_def, modify_def, get_def, hm] at h
    have hloop : ∀ (n : Nat) (c : Cascade R), 1 ≤ n → 1 ≤ c.stages.length →
        Exec.loop n (fun i => onStage i Biquad.setIdentity) c = (.throw e, c) := by
      intro n
      induction n with
      | zero => intro c h; omega
      | succ n ih =>
        intro c _ hc
        rw [Exec.loop, bind_def']
        rcases Nat.eq_zero_or_pos n with rfl | hn
        · simp only [Exec.loop, pure_def']
          rw [onStage_eq hc stores_setIdentity, h0]; rfl
        · rw [ih c hn hc]
    cases hd : decide ((l.numPoles + 1) / 2 > M)
    · rw [hd] at h
      simp only [throwIf_false] at h
      rw [hloop M _ h1 (by simp; omega)] at h
      simp at h
    · rw [hd] at h
      simp at h

end Cascade
end Iir
