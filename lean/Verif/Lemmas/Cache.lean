import Verif.Lemmas.History
import Verif.Props.Setup

/-! # The prototype cache: what it holds after any history -/

set_option linter.unusedSectionVars false

namespace Iir
open FArith Cx Exec Spec

variable {R : Type} [FArith R]

theorem Call.normDesign_cls (call : Call R) : call.normDesign.cls = call.design.cls := by
  cases call <;> simp [Call.normDesign, Call.design, Design.mapFreq_cls]

theorem Call.run_eq (n : Nat) (call : Call R) (p : PFB R) :
    call.run n p = if call.order n > n then (.throw .orderTooHigh, p)
      else call.normDesign.baseSetup (call.order n) p := by
  cases call with
  | setup fs d => simp [Call.run, Call.order, Call.normDesign, Design.overFs_eq]
  | setupN d => simp [Call.run, Call.order, Call.normDesign]
  | setupReq o fs d =>
    by_cases h : o > (n : Int)
    · simp [Call.run, Call.order, bind_def, h]
    · simp [Call.run, Call.order, Call.normDesign, Design.overFs_eq, bind_def, h]
  | setupNReq o d =>
    by_cases h : o > (n : Int)
    · simp [Call.run, Call.order, bind_def, h]
    · simp [Call.run, Call.order, Call.normDesign, bind_def, h]

/-- What the construction of a prototype can throw. -/
def BuildErr (e : Err) : Prop :=
  e = .poleIsNaN ∨ e = .zeroIsNaN ∨ e = .singleNotReal ∨ e = .cantAdd2ndOrder

/-- throws only those -/
def BuildThrows {α : Type} (m : Exec (Layout R) α) : Prop := ∀ l e, (m l).1 = .throw e → BuildErr e

theorem BuildThrows.bind {α β : Type} {m : Exec (Layout R) α} {f : α → Exec (Layout R) β}
    (hm : BuildThrows m) (hf : ∀ a, BuildThrows (f a)) : BuildThrows (m >>= f) := by
  intro l e
  have h1 := hm l
  rw [bind_def]
  revert h1
  rcases m l with ⟨r, l1⟩
  cases r <;> simp only <;> intro h1
  · exact hf _ _ _
  · intro h2; cases h2; exact h1 _ rfl
  · simp

theorem BuildThrows.loop {body : Nat → Exec (Layout R) Unit} (n : Nat) (h : ∀ i, BuildThrows (body i)) :
    BuildThrows (Exec.loop n body) := by
  induction n with
  | zero => intro l e h; simp [Exec.loop] at h
  | succ n ih => exact BuildThrows.bind (m := Exec.loop n body) ih fun _ => h n

theorem buildThrows_throwIf (b : Bool) {e : Err} (he : BuildErr e) :
    BuildThrows (R := R) (Exec.throwIf b e) := by
  intro l e'
  cases b
  · simp
  · simp only [throwIf_true, Res.throw.injEq]; rintro rfl; exact he

theorem buildThrows_write (i : Nat) (pr : PoleZeroPair R) : BuildThrows (Layout.write i pr) := by
  intro l e; unfold Layout.write; split_ifs <;> simp

theorem buildThrows_modify (f : Layout R → Layout R) : BuildThrows (Exec.modify f) := by
  intro l e; simp

theorem buildThrows_pure {α : Type} (a : α) : BuildThrows (R := R) (Exec.pure a) := by
  intro l e; simp

theorem buildThrows_get : BuildThrows (R := R) Exec.get := by intro l e; simp

theorem buildThrows_intChecked (i : Int) : BuildThrows (R := R) (intChecked i) := by
  intro l e; unfold intChecked; split_ifs <;> simp

theorem buildThrows_polarC (x y : R) : BuildThrows (R := R) (Exec.lift (polarC x y)) := by
  intro l e; rw [lift_def]; unfold polarC; cases FArith.polar x y <;> simp

theorem buildThrows_addConj (p z : Cx R) : BuildThrows (Layout.addPoleZeroConjugatePairs p z) :=
  .bind buildThrows_get fun _ => .bind (buildThrows_throwIf _ (.inr (.inr (.inr rfl)))) fun _ =>
    .bind (buildThrows_throwIf _ (.inl rfl)) fun _ => .bind (buildThrows_throwIf _ (.inr (.inl rfl)))
    fun _ => .bind (buildThrows_write _ _) fun _ => buildThrows_modify _

theorem buildThrows_add (p z : Cx R) : BuildThrows (Layout.add p z) :=
  .bind buildThrows_get fun _ => .bind (buildThrows_throwIf _ (.inr (.inr (.inr rfl)))) fun _ =>
    .bind (buildThrows_throwIf _ (.inl rfl)) fun _ => .bind (buildThrows_throwIf _ (.inr (.inl rfl)))
    fun _ => .bind (fun l e h => by
      rw [lift_def] at h
      unfold PoleZeroPair.single ComplexPair.single at h
      simp only [Bind.bind, Res.bind] at h
      split_ifs at h <;> simp at h <;> exact .inr (.inr (.inl h.symm)))
    fun _ => .bind (buildThrows_write _ _) fun _ => buildThrows_modify _

theorem buildThrows_oddTail (o : Int) (p z : Cx R) :
    BuildThrows (if o % 2 == 1 then Layout.add p z else Exec.pure ()) := by
  split_ifs
  · exact buildThrows_add p z
  · exact buildThrows_pure _

theorem Design.build_throws (o : Int) : (d : Design R) → BuildThrows (d.build o)
  | .bwLowPass _ | .bwHighPass _ | .bwBandPass _ _ | .bwBandStop _ _ =>
    .bind (buildThrows_modify _) fun _ => .bind (buildThrows_intChecked _) fun _ =>
      .bind (.loop _ fun _ => .bind (buildThrows_polarC _ _) fun _ => buildThrows_addConj _ _)
      fun _ => buildThrows_oddTail _ _ _
  | .bwLowShelf _ _ | .bwHighShelf _ _ | .bwBandShelf _ _ _ =>
    .bind (buildThrows_modify _) fun _ => .bind (buildThrows_intChecked _) fun _ =>
      .bind (.loop _ fun _ => .bind (buildThrows_polarC _ _) fun _ =>
        .bind (buildThrows_polarC _ _) fun _ => buildThrows_addConj _ _)
      fun _ => buildThrows_oddTail _ _ _
  | .c1LowPass _ r | .c1HighPass _ r | .c1BandPass _ _ r | .c1BandStop _ _ r =>
    .bind (buildThrows_modify _) fun _ => .bind (buildThrows_intChecked _) fun _ =>
      .bind (.loop _ fun _ => buildThrows_addConj _ _) fun _ => by
        split_ifs
        · exact .bind (buildThrows_add _ _) fun _ => buildThrows_modify _
        · exact buildThrows_modify _
  | .c1LowShelf _ _ _ | .c1HighShelf _ _ _ | .c1BandShelf _ _ _ _ =>
    .bind (buildThrows_modify _) fun _ => .bind (buildThrows_intChecked _) fun _ =>
      .bind (.loop _ fun _ => buildThrows_addConj _ _) fun _ => buildThrows_oddTail _ _ _
  | .c2LowPass _ _ | .c2HighPass _ _ | .c2BandPass _ _ _ | .c2BandStop _ _ _ =>
    .bind (buildThrows_modify _) fun _ => .bind (buildThrows_intChecked _) fun _ =>
      .bind (.loop _ fun _ => buildThrows_addConj _ _) fun _ => buildThrows_oddTail _ _ _
  | .c2LowShelf _ _ _ | .c2HighShelf _ _ _ | .c2BandShelf _ _ _ _ =>
    .bind (buildThrows_modify _) fun _ => .bind (buildThrows_intChecked _) fun _ =>
      .bind (.loop _ fun _ => buildThrows_addConj _ _) fun _ => buildThrows_oddTail _ _ _

/-! ## Calling `setup` twice -/

section twice
variable {n : Nat} {o : Int} {d : Design R}

/-- the `design` step -/
def Design.proto (o : Int) (d : Design R) : Exec (Proto R) Unit :=
  Proto.cached (d.stale o) (d.setKey o) (d.build o)

theorem Design.proto_hit {a : Proto R} (h : d.stale o a = false) : d.proto o a = (.ok (), a) := by
  unfold Design.proto; rw [Proto.cached_apply, h]; rfl

theorem Design.proto_miss {a : Proto R} (h : d.stale o a = true) :
    d.proto o a = ((d.build o a.lay).1, { d.setKey o a with lay := (d.build o a.lay).2 }) := by
  unfold Design.proto; rw [Proto.cached_apply, h, if_pos rfl, Design.setKey_lay]

theorem Design.proto_atMost (hn1 : 1 ≤ n) (hn : n < 1073741824) (ho : o ≤ n) {a : Proto R}
    (ha : a.lay.AtMost n ((n + 1) / 2)) (hu : ∀ u, (d.proto o a).1 ≠ .ub u) :
    (d.proto o a).2.lay.AtMost n ((n + 1) / 2) := by
  have := Proto.trip_cached (stale := d.stale o) (d.good_build hn1 hn ho) (d.setKey_lay o)
    (builtPoles_le ho hn1) a ha
  unfold Design.proto at hu ⊢
  revert this hu
  rcases Proto.cached (d.stale o) (d.setKey o) (d.build o) a with ⟨r, a1⟩
  cases r
  · exact fun _ h => h
  · exact fun _ h => h
  · exact fun h _ => (h _ rfl).elim

theorem Design.build_has (hn1 : 1 ≤ n) (hn : n < 1073741824) (ho : o ≤ n) {l : Layout R}
    (hl : l.AtMost n ((n + 1) / 2)) (hok : (d.build o l).1 = .ok ()) :
    (d.build o l).2.Has (builtPoles o) ((n + 1) / 2) := by
  have := d.good_build hn1 hn ho l hl
  revert this hok
  rcases d.build o l with ⟨r, l1⟩
  rintro rfl h
  exact h

/-- designing the prototype again changes nothing visible -/
theorem Design.proto_twice (hn1 : 1 ≤ n) (hn : n < 1073741824) (ho : o ≤ n) {a a1 : Proto R}
    (ha : a.lay.AtMost n ((n + 1) / 2)) (h : d.proto o a = (.ok (), a1)) :
    ∃ a2 k, d.proto o a1 = (.ok (), a2) ∧ a1.lay.AtMost n ((n + 1) / 2) ∧
      Layout.Same k ((n + 1) / 2) ((n + 1) / 2) a1.lay a2.lay := by
  have ha1 : a1.lay.AtMost n ((n + 1) / 2) := by
    have := d.proto_atMost hn1 hn ho ha (by rw [h]; simp)
    rwa [h] at this
  cases hs : d.stale o a with
  | false =>
    rw [d.proto_hit hs] at h
    cases h
    exact ⟨a, _, d.proto_hit hs, ha, .refl ⟨rfl, ha.2⟩⟩
  | true =>
    cases hs1 : d.stale o a1 with
    | false => exact ⟨a1, _, d.proto_hit hs1, ha1, .refl ⟨rfl, ha1.2⟩⟩
    | true =>
      rw [d.proto_miss hs] at h
      have e1 : (d.build o a.lay).1 = .ok () := congrArg Prod.fst h
      have e2 : (d.build o a.lay).2 = a1.lay := congrArg (fun q => q.2.lay) h
      obtain ⟨h1, h2⟩ := d.build_same hn1 ho hn1 ho a.lay a1.lay ⟨ha.2, ha1.2⟩
        (fun hc => by rw [← e2, (d.keepsNrm_build o hc a.lay).1])
        (fun hc => by rw [← e2, (d.keepsNrm_build o hc a.lay).2])
      have h3 := h2 e1
      rw [e2] at h3
      refine ⟨{ d.setKey o a1 with lay := (d.build o a1.lay).2 }, _, ?_, ha1, h3⟩
      rw [d.proto_miss hs1, ← h1, e1]

theorem PFB.rest_analog (d : Design R) (p : PFB R) : (PFB.rest d p).2.analog = p.analog := by
  rw [PFB.rest_apply]
  rcases d.trans p.analog.lay p.digital with ⟨r, l⟩
  cases r <;> rfl

theorem PFB.baseSetup_proto (o : Int) (d : Design R) (p : PFB R) :
    d.baseSetup o p =
      match d.proto o p.analog with
      | (.ok _, a) => PFB.rest d { p with analog := a }
      | (.throw e, a) => (.throw e, { p with analog := a })
      | (.ub u, a) => (.ub u, { p with analog := a }) := PFB.baseSetup_apply o d p

theorem PFB.ok_baseSetup (hn1 : 1 ≤ n) (hn : n < 1073741824) (ho : o ≤ n) {p : PFB R}
    (hp : p.Ok d.cls n) (hu : ∀ u, (d.baseSetup o p).1 ≠ .ub u) :
    (d.baseSetup o p).2.Ok d.cls n := by
  have := PFB.trip_baseSetup hn1 hn ho d p hp
  revert this hu
  rcases d.baseSetup o p with ⟨r, p1⟩
  cases r
  · exact fun _ h => h
  · exact fun _ h => h
  · exact fun h _ => (h _ rfl).elim

/-- If the prototype was designed, repeating the call has the same outcome. -/
theorem PFB.baseSetup_twice (hn1 : 1 ≤ n) (hn : n < 1073741824) (ho : o ≤ n) {p : PFB R}
    (hp : p.Ok d.cls n) (hd : (d.proto o p.analog).1 = .ok ())
    (hu : ∀ u, (d.baseSetup o p).1 ≠ .ub u) :
    (d.baseSetup o (d.baseSetup o p).2).1 = (d.baseSetup o p).1 ∧
      ((d.baseSetup o p).1 = .ok () →
        PFB.Agree (d.baseSetup o p).2 (d.baseSetup o (d.baseSetup o p).2).2) := by
  have hp1 := PFB.ok_baseSetup hn1 hn ho hp hu
  rcases hq : d.proto o p.analog with ⟨r, a1⟩
  rw [hq] at hd
  simp only at hd
  subst hd
  obtain ⟨a2, k, h1, h2, h3⟩ := d.proto_twice hn1 hn ho hp.analog hq
  have e1 : d.baseSetup o p = PFB.rest d { p with analog := a1 } := by
    rw [PFB.baseSetup_proto, hq]
  have e3 : (d.baseSetup o p).2.analog = a1 := by rw [e1, PFB.rest_analog]
  have e2 : d.baseSetup o (d.baseSetup o p).2 =
      PFB.rest d { (d.baseSetup o p).2 with analog := a2 } := by
    rw [PFB.baseSetup_proto, e3, h1]
  have h4 : a2.lay.AtMost n ((n + 1) / 2) :=
    ⟨by rw [h3.veq.right.1, ← h3.veq.left.1]; exact h2.1, h3.veq.right.2⟩
  have := PFB.rest_same (d := d) hn1 (p := { p with analog := a1 })
    (p' := { (d.baseSetup o p).2 with analog := a2 }) ⟨hp.cascade, hp.digital, h2⟩
    ⟨hp1.cascade, hp1.digital, h4⟩ h3
  rw [e2]
  generalize hg : (d.baseSetup o p).2 = p1 at this ⊢
  rw [e1] at hg ⊢
  rw [hg] at this
  exact ⟨this.1.symm, this.2⟩

end twice

/-! ## Histories -/

/-- compares equal to zero -/
def IsZero (x : R) : Prop := FArith.feq x 0 = true

/-- Comparison of parameters.  Doubles that compare equal are the same value or zeros of different
sign; the laws say which operations of the prototypes do not see that sign.  They hold for IEEE
doubles (with `exp (±0) = pow (10, ±0) = 1`), and for exact arithmetic, which has one zero. -/
class SignedZeros (R : Type) [FArith R] : Prop where
  eq_or : ∀ x y : R, FArith.feq x y = true → x = y ∨ (IsZero x ∧ IsZero y)
  neg : ∀ x : R, IsZero x → IsZero (-x)
  decibel : ∀ x : R, IsZero x → IsZero (x * 0.1 * FArith.ln10)
  div20 : ∀ x : R, IsZero x → IsZero (x / 20)
  exp : ∀ x y : R, IsZero x → IsZero y → FArith.exp x = FArith.exp y
  pow : ∀ x y : R, IsZero x → IsZero y → FArith.pow 10 x = FArith.pow 10 y
  fabs : ∀ x y : R, IsZero x → IsZero y → FArith.fabs x = FArith.fabs y
  lt : ∀ x y : R, IsZero x → IsZero y → FArith.flt x 0 = FArith.flt y 0
  le : ∀ z x y : R, IsZero x → IsZero y → FArith.fle z x = FArith.fle z y
  sub : ∀ x y : R, IsZero x → IsZero y → IsZero (x - y)
  sub_left : ∀ x y z : R, IsZero x → IsZero y → ¬ IsZero z → x - z = y - z
  sub_right : ∀ x y z : R, IsZero x → IsZero y → ¬ IsZero z → z - x = z - y

/-- the same value, or zeros of possibly different sign -/
def SameButSign (x y : R) : Prop := x = y ∨ (IsZero x ∧ IsZero y)

section
variable [SignedZeros R]

theorem SameButSign.neg {x y : R} (h : SameButSign x y) : SameButSign (-x) (-y) := by
  rcases h with rfl | ⟨h1, h2⟩
  · exact .inl rfl
  · exact .inr ⟨SignedZeros.neg _ h1, SignedZeros.neg _ h2⟩

theorem SameButSign.sub {x y r s : R} (h : SameButSign x y) (h' : SameButSign r s) :
    SameButSign (x - r) (y - s) := by
  rcases h with rfl | ⟨h1, h2⟩ <;> rcases h' with rfl | ⟨h3, h4⟩
  · exact .inl rfl
  · by_cases hx : IsZero x
    · exact .inr ⟨SignedZeros.sub _ _ hx h3, SignedZeros.sub _ _ hx h4⟩
    · exact .inl (SignedZeros.sub_right _ _ _ h3 h4 hx)
  · by_cases hr : IsZero r
    · exact .inr ⟨SignedZeros.sub _ _ h1 hr, SignedZeros.sub _ _ h2 hr⟩
    · exact .inl (SignedZeros.sub_left _ _ _ h1 h2 hr)
  · exact .inr ⟨SignedZeros.sub _ _ h1 h3, SignedZeros.sub _ _ h2 h4⟩

theorem SameButSign.exp {x y : R} (h : SameButSign x y) :
    FArith.exp (x * 0.1 * FArith.ln10) = FArith.exp (y * 0.1 * FArith.ln10) := by
  rcases h with rfl | ⟨h1, h2⟩
  · rfl
  · exact SignedZeros.exp _ _ (SignedZeros.decibel _ h1) (SignedZeros.decibel _ h2)

theorem SameButSign.pow {x y : R} (h : SameButSign x y) :
    FArith.pow (10 : R) (x / 20) = FArith.pow 10 (y / 20) := by
  rcases h with rfl | ⟨h1, h2⟩
  · rfl
  · exact SignedZeros.pow _ _ (SignedZeros.div20 _ h1) (SignedZeros.div20 _ h2)

theorem SameButSign.fabs {x y : R} (h : SameButSign x y) : FArith.fabs x = FArith.fabs y := by
  rcases h with rfl | ⟨h1, h2⟩
  · rfl
  · exact SignedZeros.fabs _ _ h1 h2

theorem SameButSign.lt {x y : R} (h : SameButSign x y) : FArith.flt x 0 = FArith.flt y 0 := by
  rcases h with rfl | ⟨h1, h2⟩
  · rfl
  · exact SignedZeros.lt _ _ h1 h2

theorem SameButSign.le (z : R) {x y : R} (h : SameButSign x y) : FArith.fle z x = FArith.fle z y := by
  rcases h with rfl | ⟨h1, h2⟩
  · rfl
  · exact SignedZeros.le _ _ _ h1 h2

theorem SameButSign.ite {x y r s : R} (c : Prop) [Decidable c] (h : SameButSign x y) (h' : SameButSign r s) :
    SameButSign (if c then x else r) (if c then y else s) := by
  split_ifs
  · exact h
  · exact h'

end

/-- the parameters of the prototype -/
def Design.params : Design R → R × R
  | .bwLowPass _ | .bwHighPass _ | .bwBandPass _ _ | .bwBandStop _ _ => (0, 0)
  | .bwLowShelf _ g | .bwHighShelf _ g | .bwBandShelf _ _ g => (g, 0)
  | .c1LowPass _ r | .c1HighPass _ r | .c1BandPass _ _ r | .c1BandStop _ _ r
  | .c2LowPass _ r | .c2HighPass _ r | .c2BandPass _ _ r | .c2BandStop _ _ r => (0, r)
  | .c1LowShelf _ g r | .c1HighShelf _ g r | .c1BandShelf _ _ g r
  | .c2LowShelf _ g r | .c2HighShelf _ g r | .c2BandShelf _ _ g r => (g, r)

theorem Butterworth.lowShelfBuild_sign [SignedZeros R] (o : Int) {g g' : R} (hg : SameButSign g g') :
    Butterworth.lowShelfBuild o g = Butterworth.lowShelfBuild o g' := by
  unfold Butterworth.lowShelfBuild
  rw [hg.pow]

theorem ChebyshevI.lowPassBuild_sign [SignedZeros R] (o : Int) {r r' : R} (hr : SameButSign r r') :
    ChebyshevI.lowPassBuild o r = ChebyshevI.lowPassBuild o r' := by
  unfold ChebyshevI.lowPassBuild
  rw [hr.neg.exp, hr.neg.pow]

theorem ChebyshevII.lowPassBuild_sign [SignedZeros R] (o : Int) {r r' : R} (hr : SameButSign r r') :
    ChebyshevII.lowPassBuild o r = ChebyshevII.lowPassBuild o r' := by
  unfold ChebyshevII.lowPassBuild
  rw [hr.exp]

theorem ChebyshevI.lowShelfBuild_sign [SignedZeros R] (o : Int) {g g' r r' : R} (hg : SameButSign g g')
    (hr : SameButSign r r') : ChebyshevI.lowShelfBuild o g r = ChebyshevI.lowShelfBuild o g' r' := by
  have h1 := SameButSign.ite (FArith.fle (FArith.fabs (-g')) r' = true) (.inl (rfl : FArith.fabs (-g') = _)) hr
  have h2 := SameButSign.ite (FArith.flt (-g') 0 = true) h1.neg h1
  unfold ChebyshevI.lowShelfBuild
  simp only [hg.neg.pow, hg.neg.fabs, hg.neg.lt, hr.le, (hg.neg.sub h2).pow]

theorem ChebyshevII.lowShelfBuild_sign [SignedZeros R] (o : Int) {g g' r r' : R} (hg : SameButSign g g')
    (hr : SameButSign r r') : ChebyshevII.lowShelfBuild o g r = ChebyshevII.lowShelfBuild o g' r' :=
  ChebyshevI.lowShelfBuild_sign o hg hr

/-- the body of `design` of the prototype of a class -/
def Cls.build (o : Int) (g r : R) : Cls → Exec (Layout R) Unit
  | .bwLowPass | .bwHighPass | .bwBandPass | .bwBandStop => Butterworth.lowPassBuild o
  | .bwLowShelf | .bwHighShelf | .bwBandShelf => Butterworth.lowShelfBuild o g
  | .c1LowPass | .c1HighPass | .c1BandPass | .c1BandStop => ChebyshevI.lowPassBuild o r
  | .c2LowPass | .c2HighPass | .c2BandPass | .c2BandStop => ChebyshevII.lowPassBuild o r
  | .c1LowShelf | .c1HighShelf | .c1BandShelf => ChebyshevI.lowShelfBuild o g r
  | .c2LowShelf | .c2HighShelf | .c2BandShelf => ChebyshevII.lowShelfBuild o g r

theorem Design.build_cls (o : Int) (d : Design R) : d.build o = d.cls.build o d.params.1 d.params.2 := by
  cases d <;> simp only [Design.build, Design.cls, Design.params, Cls.build]

theorem Design.build_of_params [SignedZeros R] {o : Int} {d d' : Design R} (hc : d.cls = d'.cls)
    (h1 : SameButSign d.params.1 d'.params.1) (h2 : SameButSign d.params.2 d'.params.2) :
    d.build o = d'.build o := by
  rw [Design.build_cls, Design.build_cls, hc]
  cases d'.cls <;> simp only [Cls.build]
  all_goals
    first
    | with_reducible exact Butterworth.lowShelfBuild_sign o h1
    | with_reducible exact ChebyshevI.lowPassBuild_sign o h2
    | with_reducible exact ChebyshevII.lowPassBuild_sign o h2
    | with_reducible exact ChebyshevI.lowShelfBuild_sign o h1 h2
    | with_reducible exact ChebyshevII.lowShelfBuild_sign o h1 h2

theorem SameButSign.of_key [SignedZeros R] {x y : R} (h : FArith.feq x y = true) : SameButSign y x := by
  rcases SignedZeros.eq_or _ _ h with rfl | h
  · exact .inl rfl
  · exact .inr h.symm

theorem Design.stale_setKey [SignedZeros R] {o o' : Int} {d d' : Design R} (hc : d.cls = d'.cls)
    {a : Proto R} {l : Layout R} (h : d.stale o { d'.setKey o' a with lay := l } = false) :
    o = o' ∧ SameButSign d.params.1 d'.params.1 ∧ SameButSign d.params.2 d'.params.2 := by
  cases d <;> cases d' <;> simp only [Design.cls, reduceCtorEq] at hc <;>
    simp only [Design.stale, Design.setKey, Design.params, Bool.or_eq_false_iff, bne_eq_false_iff_eq, fne,
      Bool.not_eq_false'] at h ⊢
  all_goals first
    | exact ⟨h.symm, .inl rfl, .inl rfl⟩
    | exact ⟨h.1.symm, .of_key h.2, .inl rfl⟩
    | exact ⟨h.1.symm, .inl rfl, .of_key h.2⟩
    | exact ⟨h.1.1.symm, .of_key h.2, .of_key h.1.2⟩

/-- The layout of the prototype of a newly constructed object. -/
def Cls.lay0 (c : Cls) (n : Nat) : Layout R := (PoleFilter.initBase c n : PFB R).analog.lay

theorem Cls.lay0_atMost (c : Cls) (n : Nat) : (c.lay0 n : Layout R).AtMost n ((n + 1) / 2) :=
  (PFB.ok_init c n).analog

/-- The cache is coherent: where it would be used for an order other than -1, it holds what
construction on a new object gives. -/
structure Proto.Coh (c : Cls) (n : Nat) (a : Proto R) : Prop where
  atMost : a.lay.AtMost n ((n + 1) / 2)
  nrm : c.c1lp = false → a.lay.Nrm (c.lay0 n : Layout R).normalW (c.lay0 n : Layout R).normalGain
  coh : ∀ (d : Design R) (o : Int), d.cls = c → o ≠ -1 → o ≤ n → d.stale o a = false →
    (d.build o (c.lay0 n)).1 = .ok () →
    Layout.Same (builtPoles o) ((n + 1) / 2) ((n + 1) / 2) a.lay (d.build o (c.lay0 n)).2

/-- A new object finds its cache filled only for Chebyshev I shelves of order 0. -/
theorem Design.fresh_hit {n : Nat} {o : Int} {d : Design R} (ho : o ≠ -1)
    (h : d.stale o (PoleFilter.initBase d.cls n : PFB R).analog = false) :
    d.build o (d.cls.lay0 n) = (.ok (), d.cls.lay0 n) := by
  have hm : ∀ o : Int, o ≠ -1 → ((-1 : Int) != o) = true := by
    intro o h; simp; omega
  cases d with
  | c1LowShelf fc g r =>
    simp only [Design.stale, PoleFilter.initBase, Design.cls, Cls.protoInit, ChebyshevI.lowShelfInit,
      Bool.or_eq_false_iff, bne_eq_false_iff_eq] at h
    obtain ⟨⟨rfl, -⟩, -⟩ := h
    rfl
  | c1HighShelf fc g r =>
    simp only [Design.stale, PoleFilter.initBase, Design.cls, Cls.protoInit, ChebyshevI.lowShelfInit,
      Bool.or_eq_false_iff, bne_eq_false_iff_eq] at h
    obtain ⟨⟨rfl, -⟩, -⟩ := h
    rfl
  | c1BandShelf fc fw g r =>
    simp only [Design.stale, PoleFilter.initBase, Design.cls, Cls.protoInit, ChebyshevI.lowShelfInit,
      Bool.or_eq_false_iff, bne_eq_false_iff_eq] at h
    obtain ⟨⟨rfl, -⟩, -⟩ := h
    rfl
  | _ =>
    simp [Design.stale, PoleFilter.initBase, Design.cls, Cls.protoInit, Butterworth.lowPassInit,
      Butterworth.lowShelfInit, ChebyshevI.lowPassInit, ChebyshevII.lowPassInit,
      ChebyshevII.lowShelfInit, hm o ho] at h

variable {n : Nat}

theorem Proto.coh_init (hn1 : 1 ≤ n) (c : Cls) : Proto.Coh c n (PoleFilter.initBase c n : PFB R).analog where
  atMost := Cls.lay0_atMost c n
  nrm _ := ⟨rfl, rfl⟩
  coh d o hc ho hon hs hok := by
    subst hc
    have h := d.fresh_hit ho hs
    have hb : builtPoles o = 0 := by
      have h0 : (d.cls.lay0 n : Layout R).numPoles = 0 := rfl
      have := d.build_same (n' := n) hn1 hon hn1 hon (d.cls.lay0 n) (d.cls.lay0 n)
        ⟨(Cls.lay0_atMost _ n).2, (Cls.lay0_atMost _ n).2⟩ (fun _ => rfl) (fun _ => rfl)
      have := (this.2 hok).veq.left.1
      rw [h] at this
      exact this.symm.trans h0
    rw [h, hb]
    exact .refl ⟨rfl, (Cls.lay0_atMost _ n).2⟩

theorem Proto.Coh.design [SignedZeros R] (hn1 : 1 ≤ n) (hn : n < 1073741824) {c : Cls} {a : Proto R}
    (ha : Proto.Coh c n a) {d : Design R} (hc : d.cls = c) {o : Int} (ho : o ≤ n)
    (hu : ∀ u, (d.proto o a).1 ≠ .ub u) : Proto.Coh c n (d.proto o a).2 := by
  have hat := d.proto_atMost hn1 hn ho ha.atMost hu
  cases hs : d.stale o a with
  | false => rw [d.proto_hit hs]; exact ha
  | true =>
    rw [d.proto_miss hs] at hat ⊢
    refine ⟨hat, fun h => ?_, fun d' o' hc' ho' hon' hs' hok' => ?_⟩
    · have h1 := d.keepsNrm_build o (by rw [hc]; exact h) a.lay
      exact ⟨h1.1.trans (ha.nrm h).1, h1.2.trans (ha.nrm h).2⟩
    · obtain ⟨rfl, hp1, hp2⟩ := d'.stale_setKey (hc'.trans hc.symm) hs'
      rw [Design.build_of_params (hc'.trans hc.symm) hp1 hp2] at hok' ⊢
      have := d.build_same (n' := n) hn1 hon' hn1 hon' a.lay (c.lay0 n)
        ⟨ha.atMost.2, (Cls.lay0_atMost c n).2⟩ (fun h => (ha.nrm (hc ▸ h)).1)
        (fun h => (ha.nrm (hc ▸ h)).2)
      exact this.2 (this.1.trans hok')

theorem Spec.Reach.coh [SignedZeros R] {S : Type → Type} [StateType S R] {T : Type} [Sample T R]
    (hn1 : 1 ≤ n) (hn : n < 1073741824) {c : Cls} {f : PoleFilter S R} (h : Reach S T c n f) :
    Proto.Coh c n f.base.analog := by
  induction h with
  | new => exact Proto.coh_init hn1 c
  | call f f' op r hf hop he hr ih =>
    have e : f' = (op.exec n f).2 := by rw [he]
    have hr' : ∀ u, (op.exec n f).1 ≠ .ub u := by rw [he]; exact hr
    rw [e]
    cases op with
    | setup call =>
      have h2 : (Op.exec n (.setup call : Op T R) f).2.base = (call.run n f.base).2 := rfl
      have h3 : (Op.exec n (.setup call : Op T R) f).1 = (call.run n f.base).1 := rfl
      rw [h2]
      rw [h3] at hr'
      rw [Call.run_eq] at hr' ⊢
      split_ifs with ho
      · exact ih
      · rw [if_neg ho] at hr'
        rw [PFB.baseSetup_proto] at hr' ⊢
        have := ih.design hn1 hn (call.normDesign_cls.trans hop) (o := call.order n) (by omega)
        revert hr' this
        rcases call.normDesign.proto (call.order n) f.base.analog with ⟨r, a⟩
        cases r <;> simp only
        · intro _ h1
          rw [PFB.rest_analog]
          exact h1 (by simp)
        · intro _ h1; exact h1 (by simp)
        · intro h1; exact (h1 _ rfl).elim
    | filter x =>
      have : (Op.exec n (.filter x : Op T R) f).2.base = f.base := by
        simp only [Op.exec, Exec.bind_def, PoleFilter.filter, Exec.zoom, CascadeStages.filter]
        rcases (Sample.ofR _ : Res T) with a | e | u <;> rfl
      rw [this]; exact ih
    | reset => exact ih
    | scale k => exact ih

/-- On any object with a coherent cache: if the call succeeds on a new object it succeeds here with
the same visible result; if construction of the prototype succeeds there, the outcome is the same. -/
theorem PFB.baseSetup_fresh (hn1 : 1 ≤ n) {p : PFB R}
    {d : Design R} (hp : p.Ok d.cls n) (hcoh : Proto.Coh d.cls n p.analog) {o : Int} (ho0 : o ≠ -1)
    (ho : o ≤ n) (hb : (d.build o (d.cls.lay0 n)).1 = .ok ()) :
    (d.baseSetup o p).1 = (d.baseSetup o (PoleFilter.initBase d.cls n)).1 ∧
      ((d.baseSetup o p).1 = .ok () →
        PFB.Agree (d.baseSetup o p).2 (d.baseSetup o (PoleFilter.initBase d.cls n)).2) := by
  have hproto : ∀ q : PFB R, q.Ok d.cls n → Proto.Coh d.cls n q.analog →
      ∃ a, d.proto o q.analog = (.ok (), a) ∧
        Layout.Same (builtPoles o) ((n + 1) / 2) ((n + 1) / 2) a.lay (d.build o (d.cls.lay0 n)).2 := by
    intro q hq hqc
    cases hs : d.stale o q.analog with
    | false => exact ⟨_, d.proto_hit hs, hqc.coh d o rfl ho0 ho hs hb⟩
    | true =>
      have := d.build_same (n' := n) hn1 ho hn1 ho q.analog.lay (d.cls.lay0 n)
        ⟨hq.analog.2, (Cls.lay0_atMost _ n).2⟩ (fun h => (hqc.nrm h).1) (fun h => (hqc.nrm h).2)
      have h1 := this.1.trans hb
      exact ⟨_, by rw [d.proto_miss hs, h1], this.2 h1⟩
  obtain ⟨a, h1, h2⟩ := hproto p hp hcoh
  obtain ⟨a0, h3, h4⟩ := hproto _ (PFB.ok_init d.cls n) (Proto.coh_init hn1 d.cls)
  have hle := builtPoles_le ho hn1
  rw [PFB.baseSetup_proto, PFB.baseSetup_proto, h1, h3]
  exact PFB.rest_same (d := d) hn1 (p := { p with analog := a })
    (p' := { (PoleFilter.initBase d.cls n : PFB R) with analog := a0 })
    ⟨hp.cascade, hp.digital, ⟨h2.veq.left.1 ▸ hle, h2.veq.left.2⟩⟩
    ⟨(PFB.ok_init d.cls n).cascade, (PFB.ok_init d.cls n).digital,
      ⟨h4.veq.left.1 ▸ hle, h4.veq.left.2⟩⟩ (h2.trans h4.symm)

/-- A call that succeeds on a new object has constructed the prototype. -/
theorem PFB.build_of_fresh {d : Design R} {o : Int} (ho0 : o ≠ -1)
    (h : (d.baseSetup o (PoleFilter.initBase d.cls n)).1 = .ok ()) :
    (d.build o (d.cls.lay0 n)).1 = .ok () := by
  cases hs : d.stale o (PoleFilter.initBase d.cls n : PFB R).analog with
  | false => rw [d.fresh_hit ho0 hs]
  | true =>
    rw [PFB.baseSetup_proto, d.proto_miss hs] at h
    have e : d.build o (PoleFilter.initBase d.cls n : PFB R).analog.lay = d.build o (d.cls.lay0 n) := rfl
    rw [e] at h
    revert h
    rcases d.build o (d.cls.lay0 n) with ⟨r, l⟩
    cases r <;> simp

/-- Same for a call rejected for another reason. -/
theorem PFB.build_of_fresh_throw {d : Design R} {o : Int} (ho0 : o ≠ -1) {e : Err} (he : ¬BuildErr e)
    (h : (d.baseSetup o (PoleFilter.initBase d.cls n)).1 = .throw e) :
    (d.build o (d.cls.lay0 n)).1 = .ok () := by
  cases hs : d.stale o (PoleFilter.initBase d.cls n : PFB R).analog with
  | false => rw [d.fresh_hit ho0 hs]
  | true =>
    rw [PFB.baseSetup_proto, d.proto_miss hs] at h
    have e1 : d.build o (PoleFilter.initBase d.cls n : PFB R).analog.lay = d.build o (d.cls.lay0 n) := rfl
    rw [e1] at h
    have hb := d.build_throws o (d.cls.lay0 n)
    revert h hb
    rcases d.build o (d.cls.lay0 n) with ⟨r, l⟩
    cases r
    · intros; rfl
    · intro h hb
      simp only [Res.throw.injEq] at h
      subst h
      exact (he (hb _ rfl)).elim
    · intro h; simp at h

end Iir
