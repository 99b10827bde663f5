import Verif.Lemmas.Visible

/-! # `setup` as a function of its arguments: transforms, sections, cache -/

set_option linter.unusedSectionVars false

namespace Iir
open FArith Cx Exec

variable {R : Type} [FArith R]

/-! ## Transforms -/

section transforms
open Layout
variable {k L L' : Nat}

theorem mapLayout_congr {a a' : Layout R} (h : VEq k L L' a a') (tr : Cx R → Cx R) :
    mapLayout tr a = mapLayout tr a' := by
  unfold mapLayout
  simp only [h.left.1, h.right.1]
  rw [loop_congr (body' := fun i => do
    let pair ← Exec.lift (a'.getPair i)
    Layout.addPoleZeroConjugatePairs (tr pair.poles.first) (tr pair.zeros.first))]
  · split_ifs with ho
    · rw [h.getPair (i := k / 2) (by simp at ho; omega)]
    · rfl
  · intro i hi
    rw [h.getPair (by omega)]

theorem bpLayout_congr {a a' : Layout R} (h : VEq k L L' a a') (x y : R) :
    bpLayout x y a = bpLayout x y a' := by
  unfold bpLayout
  simp only [h.left.1, h.right.1]
  rw [loop_congr (body' := fun i => do
    let pair ← Exec.lift (a'.getPair i)
    Layout.addPoleZeroConjugatePairs (bpTransform x y pair.poles.first).first (bpTransform x y pair.zeros.first).first
    Layout.addPoleZeroConjugatePairs (bpTransform x y pair.poles.first).second (bpTransform x y pair.zeros.first).second)]
  · split_ifs with ho
    · rw [h.getPair (i := k / 2) (by simp at ho; omega)]
    · rfl
  · intro i hi
    rw [h.getPair (by omega)]

theorem bsLayout_congr {a a' : Layout R} (h : VEq k L L' a a') (x y : R) :
    bsLayout x y a = bsLayout x y a' := by
  unfold bsLayout
  simp only [h.left.1, h.right.1]
  rw [loop_congr (body' := fun i => do
    let pair ← Exec.lift (a'.getPair i)
    Layout.addPoleZeroConjugatePairs (bsTransform x y pair.poles.first).first (conjTrick (bsTransform x y pair.zeros.first)).first
    Layout.addPoleZeroConjugatePairs (bsTransform x y pair.poles.first).second (conjTrick (bsTransform x y pair.zeros.first)).second)]
  · split_ifs with ho
    · rw [h.getPair (i := k / 2) (by simp at ho; omega)]
    · rfl
  · intro i hi
    rw [h.getPair (by omega)]

/-- same stored poles and same normalisation -/
structure Layout.Same (k L L' : Nat) (l l' : Layout R) : Prop where
  veq : VEq k L L' l l'
  w : l.normalW = l'.normalW
  g : l.normalGain = l'.normalGain

theorem Layout.Same.symm {l l' : Layout R} (h : Same k L L' l l') : Same k L' L l' l :=
  ⟨h.veq.symm, h.w.symm, h.g.symm⟩

theorem Layout.Same.trans {L'' : Nat} {l l' l'' : Layout R} (h : Same k L L' l l')
    (h' : Same k L' L'' l' l'') : Same k L L'' l l'' :=
  ⟨h.veq.trans h'.veq, h.w.trans h'.w, h.g.trans h'.g⟩

theorem Layout.Same.refl {l : Layout R} (h : l.Has k L) : Same k L L l l := ⟨.refl h, rfl, rfl⟩

/-- The transforms depend on the stored poles and the normalisation of the prototype only. -/
theorem Design.trans_congr {a a' : Layout R} (h : Same k L L' a a') :
    (d : Design R) → d.trans a = d.trans a'
  | .bwLowPass _ | .bwLowShelf _ _ | .c1LowPass _ _ | .c1LowShelf _ _ _
  | .c2LowPass _ _ | .c2LowShelf _ _ _ => by
    simp only [Design.trans, lowPassTransform, mapLayout_congr h.veq, h.w, h.g]
  | .bwHighPass _ | .bwHighShelf _ _ | .c1HighPass _ _ | .c1HighShelf _ _ _
  | .c2HighPass _ _ | .c2HighShelf _ _ _ => by
    simp only [Design.trans, highPassTransform, mapLayout_congr h.veq, h.w, h.g]
  | .bwBandPass _ _ | .c1BandPass _ _ _ | .c2BandPass _ _ _ => by
    simp only [Design.trans, bandPassTransform, bpLayout_congr h.veq, h.w, h.g]
  | .bwBandStop _ _ | .c1BandStop _ _ _ | .c2BandStop _ _ _ => by
    simp only [Design.trans, bandStopTransform, bsLayout_congr h.veq, h.g]
  | .bwBandShelf _ _ _ | .c1BandShelf _ _ _ _ | .c2BandShelf _ _ _ _ => by
    simp only [Design.trans, bandShelfTransform, bandPassTransform, bpLayout_congr h.veq, h.w, h.g]

variable {a : Layout R}

theorem rtrip_checkFreq {P : Layout R → Layout R → Prop} (fc : R) :
    RTrip P (checkFreq fc) (checkFreq fc) (fun _ => P) fun _ _ _ => True := by
  unfold checkFreq
  exact RTrip.bind (RTrip.throwIf (Q := fun _ => P) (fun _ _ _ _ => trivial) fun _ _ h _ => h)
    fun _ => RTrip.throwIf (fun _ _ _ _ => trivial) fun _ _ h _ => h

theorem rtrip_mapLayout (ha : (a.numPoles + 1) / 2 ≤ L) (ha' : (a.numPoles + 1) / 2 ≤ L')
    (tr : Cx R → Cx R) :
    RTrip (VEq 0 L L') (mapLayout tr a) (mapLayout tr a) (fun _ => VEq a.numPoles L L')
      fun _ _ _ => True := by
  unfold mapLayout
  refine RTrip.bind (Q := fun _ => VEq (2 * (a.numPoles / 2)) L L') ?_ fun _ => ?_
  · refine RTrip.loop (I := fun i => VEq (2 * i) L L') _ fun i hi => ?_
    exact RTrip.bind (rtrip_lift _) fun _ => rtrip_addConj _ _ (by omega) (by omega)
  · split_ifs with ho
    · simp only [beq_iff_eq] at ho
      refine RTrip.bind (rtrip_lift _) fun pr => ?_
      have := rtrip_add (L := L) (L' := L') (k := a.numPoles / 2) (tr pr.poles.first) (tr pr.zeros.first)
        (by omega) (by omega)
      rwa [show 2 * (a.numPoles / 2) + 1 = a.numPoles by omega] at this
    · simp only [beq_iff_eq] at ho
      rw [show 2 * (a.numPoles / 2) = a.numPoles by omega]
      exact RTrip.pure fun _ _ h => h

theorem rtrip_bpLayout (ha : a.numPoles ≤ L) (ha' : a.numPoles ≤ L') (x y : R) :
    RTrip (VEq 0 L L') (bpLayout x y a) (bpLayout x y a) (fun _ => VEq (a.numPoles * 2) L L')
      fun _ _ _ => True := by
  unfold bpLayout
  refine RTrip.bind (Q := fun _ => VEq (4 * (a.numPoles / 2)) L L') ?_ fun _ => ?_
  · refine RTrip.loop (I := fun i => VEq (4 * i) L L') _ fun i hi => ?_
    refine RTrip.bind (rtrip_lift _) fun pr => ?_
    refine RTrip.bind (Q := fun _ => VEq (2 * (2 * i + 1)) L L') ?_ fun _ => ?_
    · have := rtrip_addConj (L := L) (L' := L') (k := 2 * i) (bpTransform x y pr.poles.first).first
        (bpTransform x y pr.zeros.first).first (by omega) (by omega)
      rwa [show 2 * (2 * i) + 2 = 2 * (2 * i + 1) by omega, show 2 * (2 * i) = 4 * i by omega] at this
    · have := rtrip_addConj (L := L) (L' := L') (k := 2 * i + 1) (bpTransform x y pr.poles.first).second
        (bpTransform x y pr.zeros.first).second (by omega) (by omega)
      rwa [show 2 * (2 * i + 1) + 2 = 4 * (i + 1) by omega] at this
  · split_ifs with ho
    · simp only [beq_iff_eq] at ho
      refine RTrip.bind (rtrip_lift _) fun pr => ?_
      have := rtrip_addPair (L := L) (L' := L') (k := 2 * (a.numPoles / 2)) (bpTransform x y pr.poles.first)
        (bpTransform x y pr.zeros.first) (by omega) (by omega)
      rwa [show 2 * (2 * (a.numPoles / 2)) + 2 = a.numPoles * 2 by omega,
        show 2 * (2 * (a.numPoles / 2)) = 4 * (a.numPoles / 2) by omega] at this
    · simp only [beq_iff_eq] at ho
      rw [show 4 * (a.numPoles / 2) = a.numPoles * 2 by omega]
      exact RTrip.pure fun _ _ h => h

theorem rtrip_bsLayout (ha : a.numPoles ≤ L) (ha' : a.numPoles ≤ L') (x y : R) :
    RTrip (VEq 0 L L') (bsLayout x y a) (bsLayout x y a) (fun _ => VEq (a.numPoles * 2) L L')
      fun _ _ _ => True := by
  unfold bsLayout
  refine RTrip.bind (Q := fun _ => VEq (4 * (a.numPoles / 2)) L L') ?_ fun _ => ?_
  · refine RTrip.loop (I := fun i => VEq (4 * i) L L') _ fun i hi => ?_
    refine RTrip.bind (rtrip_lift _) fun pr => ?_
    refine RTrip.bind (Q := fun _ => VEq (2 * (2 * i + 1)) L L') ?_ fun _ => ?_
    · have := rtrip_addConj (L := L) (L' := L') (k := 2 * i) (bsTransform x y pr.poles.first).first
        (conjTrick (bsTransform x y pr.zeros.first)).first (by omega) (by omega)
      rwa [show 2 * (2 * i) + 2 = 2 * (2 * i + 1) by omega, show 2 * (2 * i) = 4 * i by omega] at this
    · have := rtrip_addConj (L := L) (L' := L') (k := 2 * i + 1) (bsTransform x y pr.poles.first).second
        (conjTrick (bsTransform x y pr.zeros.first)).second (by omega) (by omega)
      rwa [show 2 * (2 * i + 1) + 2 = 4 * (i + 1) by omega] at this
  · split_ifs with ho
    · simp only [beq_iff_eq] at ho
      refine RTrip.bind (rtrip_lift _) fun pr => ?_
      have := rtrip_addPair (L := L) (L' := L') (k := 2 * (a.numPoles / 2)) (bsTransform x y pr.poles.first)
        (bsTransform x y pr.zeros.first) (by omega) (by omega)
      rwa [show 2 * (2 * (a.numPoles / 2)) + 2 = a.numPoles * 2 by omega,
        show 2 * (2 * (a.numPoles / 2)) = 4 * (a.numPoles / 2) by omega] at this
    · simp only [beq_iff_eq] at ho
      rw [show 4 * (a.numPoles / 2) = a.numPoles * 2 by omega]
      exact RTrip.pure fun _ _ h => h

theorem rtrip_setNormalSame {k L L' : Nat} (w g : R) :
    RTrip (VEq k L L') (Layout.setNormal w g) (Layout.setNormal w g)
      (fun _ => Same k L L') fun _ _ _ => True :=
  RTrip.modify fun _ _ h => ⟨⟨h.left, h.right, h.pairs⟩, rfl, rfl⟩

theorem rtrip_lowPassTransform (fc : R) (ha : (a.numPoles + 1) / 2 ≤ L)
    (ha' : (a.numPoles + 1) / 2 ≤ L') :
    RTrip (Sized L L') (lowPassTransform fc a) (lowPassTransform fc a)
      (fun _ => Same a.numPoles L L') fun _ _ _ => True := by
  unfold lowPassTransform
  exact RTrip.bind (rtrip_checkFreq _) fun _ => RTrip.bind rtrip_reset fun _ =>
    RTrip.bind (rtrip_mapLayout ha ha' _) fun _ => rtrip_setNormalSame _ _

theorem rtrip_highPassTransform (fc : R) (ha : (a.numPoles + 1) / 2 ≤ L)
    (ha' : (a.numPoles + 1) / 2 ≤ L') :
    RTrip (Sized L L') (highPassTransform fc a) (highPassTransform fc a)
      (fun _ => Same a.numPoles L L') fun _ _ _ => True := by
  unfold highPassTransform
  exact RTrip.bind (rtrip_checkFreq _) fun _ => RTrip.bind rtrip_reset fun _ =>
    RTrip.bind (rtrip_mapLayout ha ha' _) fun _ => rtrip_setNormalSame _ _

theorem rtrip_bandPassTransform (fc fw : R) (ha : a.numPoles ≤ L) (ha' : a.numPoles ≤ L') :
    RTrip (Sized L L') (bandPassTransform fc fw a) (bandPassTransform fc fw a)
      (fun _ => Same (a.numPoles * 2) L L') fun _ _ _ => True := by
  unfold bandPassTransform
  refine RTrip.bind (rtrip_checkFreq _) fun _ => RTrip.bind rtrip_reset fun _ => ?_
  exact RTrip.bind (rtrip_bpLayout ha ha' _ _) fun _ => rtrip_setNormalSame _ _

theorem rtrip_bandStopTransform (fc fw : R) (ha : a.numPoles ≤ L) (ha' : a.numPoles ≤ L') :
    RTrip (Sized L L') (bandStopTransform fc fw a) (bandStopTransform fc fw a)
      (fun _ => Same (a.numPoles * 2) L L') fun _ _ _ => True := by
  unfold bandStopTransform
  refine RTrip.bind (rtrip_checkFreq _) fun _ => RTrip.bind rtrip_reset fun _ => ?_
  refine RTrip.bind (rtrip_bsLayout ha ha' _ _) fun _ => ?_
  split_ifs <;> exact rtrip_setNormalSame _ _

theorem rtrip_bandShelfTransform (fc fw : R) (ha : a.numPoles ≤ L) (ha' : a.numPoles ≤ L') :
    RTrip (Sized L L') (bandShelfTransform fc fw a) (bandShelfTransform fc fw a)
      (fun _ => Same (a.numPoles * 2) L L') fun _ _ _ => True := by
  unfold bandShelfTransform
  exact RTrip.bind (rtrip_bandPassTransform fc fw ha ha') fun _ =>
    RTrip.modify fun _ _ h => ⟨⟨h.veq.left, h.veq.right, h.veq.pairs⟩, rfl, rfl⟩

theorem Design.rtrip_trans : (d : Design R) →
    (ha : (a.numPoles * d.cls.mult + 1) / 2 ≤ L) → (ha' : (a.numPoles * d.cls.mult + 1) / 2 ≤ L') →
    RTrip (Sized L L') (d.trans a) (d.trans a) (fun _ => Same (a.numPoles * d.cls.mult) L L')
      fun _ _ _ => True
  | .bwLowPass _, ha, ha' | .bwLowShelf _ _, ha, ha' | .c1LowPass _ _, ha, ha'
  | .c1LowShelf _ _ _, ha, ha' | .c2LowPass _ _, ha, ha' | .c2LowShelf _ _ _, ha, ha' => by
    simp only [Design.cls, Cls.mult, Nat.mul_one] at ha ha' ⊢
    exact rtrip_lowPassTransform _ ha ha'
  | .bwHighPass _, ha, ha' | .bwHighShelf _ _, ha, ha' | .c1HighPass _ _, ha, ha'
  | .c1HighShelf _ _ _, ha, ha' | .c2HighPass _ _, ha, ha' | .c2HighShelf _ _ _, ha, ha' => by
    simp only [Design.cls, Cls.mult, Nat.mul_one] at ha ha' ⊢
    exact rtrip_highPassTransform _ ha ha'
  | .bwBandPass _ _, ha, ha' | .c1BandPass _ _ _, ha, ha' | .c2BandPass _ _ _, ha, ha' => by
    simp only [Design.cls, Cls.mult] at ha ha' ⊢
    exact rtrip_bandPassTransform _ _ (by omega) (by omega)
  | .bwBandStop _ _, ha, ha' | .c1BandStop _ _ _, ha, ha' | .c2BandStop _ _ _, ha, ha' => by
    simp only [Design.cls, Cls.mult] at ha ha' ⊢
    exact rtrip_bandStopTransform _ _ (by omega) (by omega)
  | .bwBandShelf _ _ _, ha, ha' | .c1BandShelf _ _ _ _, ha, ha' | .c2BandShelf _ _ _ _, ha, ha' => by
    simp only [Design.cls, Cls.mult] at ha ha' ⊢
    exact rtrip_bandShelfTransform _ _ (by omega) (by omega)

end transforms

/-! ## `setLayout` -/

section setLayout
open Layout Cascade Biquad

/-- Same layout, same number of sections: same outcome, and the same cascade if the identity section
is accepted (or the call succeeds). -/
theorem Cascade.setLayout_same {l l' : Layout R} {k L L' M : Nat} (h : Same k L L' l l')
    {c c' : Cascade R} (hc : c.Ok M) (hc' : c'.Ok M) (h1 : 1 ≤ M) (hL : (k + 1) / 2 ≤ L)
    (hL' : (k + 1) / 2 ≤ L') (hM : (k + 1) / 2 ≤ M) :
    (setLayout l c).1 = (setLayout l' c').1 ∧
      ((setLayout l c).1 = .ok () → (setLayout l c).2 = (setLayout l' c').2) := by
  cases h0 : (identR : Res (Biquad R)) with
  | ok b0 =>
    have e1 := setLayout_eq (l := l) hc h0 (by rw [h.veq.left.1, h.veq.left.2]; exact hL)
      (by rw [h.veq.left.1]; exact hM)
    have e2 := setLayout_eq (l := l') hc' h0 (by rw [h.veq.right.1, h.veq.right.2]; exact hL')
      (by rw [h.veq.right.1]; exact hM)
    rw [h.veq.left.1, h.w, h.g, h.veq.pairs] at e1
    rw [h.veq.right.1] at e2
    rw [e1, e2]
    exact ⟨rfl, fun _ => rfl⟩
  | ub u => rcases coeffsR_throw h0 with ⟨b, hb⟩ | hb <;> simp at hb
  | throw e =>
    have hloop : ∀ (n : Nat) (c : Cascade R), 1 ≤ n → 1 ≤ c.stages.length →
        Exec.loop n (fun i => onStage i Biquad.setIdentity) c = (.throw e, c) := by
      intro n
      induction n with
      | zero => intro c h; omega
      | succ n ih =>
        intro c _ hc
        rw [Exec.loop, bind_def']
        rcases Nat.eq_zero_or_pos n with rfl | hn
        · simp only [Exec.loop, pure_def']
          rw [onStage_eq hc stores_setIdentity, h0]; rfl
        · rw [ih c hn hc]
    have key : ∀ (l : Layout R) (c : Cascade R), c.Ok M → l.numPoles = k →
        (setLayout l c).1 = .throw e := by
      intro l c hc hk
      unfold setLayout
      simp only [bind_def, modify_def, get_def, hc.maxStages]
      rw [show decide ((l.numPoles + 1) / 2 > M) = false by rw [hk]; simp; omega]
      simp only [throwIf_false]
      rw [hloop M _ h1 (by have := hc.length; simp; omega)]
    rw [key l c hc h.veq.left.1, key l' c' hc' h.veq.right.1]
    exact ⟨rfl, fun h => by simp at h⟩

end setLayout

/-! ## Objects -/

namespace PFB

/-- `setup` after the prototype has been designed -/
def rest (d : Design R) : Exec (PFB R) Unit := do
  let s ← Exec.get
  onDigital (d.trans s.analog.lay)
  let s ← Exec.get
  onCascade (Cascade.setLayout s.digital)

theorem baseSetup_apply (o : Int) (d : Design R) (p : PFB R) :
    d.baseSetup o p =
      match Proto.cached (d.stale o) (d.setKey o) (d.build o) p.analog with
      | (.ok _, a) => rest d { p with analog := a }
      | (.throw e, a) => (.throw e, { p with analog := a })
      | (.ub u, a) => (.ub u, { p with analog := a }) := by
  rw [Design.baseSetup_eq]
  unfold designWith
  rw [bind_def]
  unfold onAnalog Exec.zoom
  rcases Proto.cached (d.stale o) (d.setKey o) (d.build o) p.analog with ⟨r, a⟩
  cases r <;> rfl

theorem rest_apply (d : Design R) (p : PFB R) :
    rest d p =
      match d.trans p.analog.lay p.digital with
      | (.ok _, l) => ((Cascade.setLayout l p.cascade).1,
          { p with digital := l, cascade := (Cascade.setLayout l p.cascade).2 })
      | (.throw e, l) => (.throw e, { p with digital := l })
      | (.ub u, l) => (.ub u, { p with digital := l }) := by
  unfold rest
  simp only [bind_def, get_def, onDigital, onCascade, Exec.zoom]
  rcases d.trans p.analog.lay p.digital with ⟨r, l⟩
  cases r <;> rfl

/-- Transform part: same prototype, same outcome and same digital layout, whatever the sizes. -/
theorem trans_same {n n' k : Nat} {d : Design R} {p p' : PFB R} (hp : p.Ok d.cls n)
    (hp' : p'.Ok d.cls n')
    (ha : Layout.Same k ((n + 1) / 2) ((n' + 1) / 2) p.analog.lay p'.analog.lay) :
    (d.trans p.analog.lay p.digital).1 = (d.trans p'.analog.lay p'.digital).1 ∧
      ((d.trans p.analog.lay p.digital).1 = .ok () → Layout.Same (k * d.cls.mult)
        ((d.cls.maxDigital n + 1) / 2) ((d.cls.maxDigital n' + 1) / 2)
        (d.trans p.analog.lay p.digital).2 (d.trans p'.analog.lay p'.digital).2) := by
  have h1 : k ≤ n := ha.veq.left.1 ▸ hp.analog.1
  have h2 : k ≤ n' := ha.veq.right.1 ▸ hp'.analog.1
  have h3 := Nat.mul_le_mul_right d.cls.mult h1
  have h4 := Nat.mul_le_mul_right d.cls.mult h2
  have e : p.analog.lay.numPoles = k := ha.veq.left.1
  have := d.rtrip_trans (a := p.analog.lay) (L := (d.cls.maxDigital n + 1) / 2)
    (L' := (d.cls.maxDigital n' + 1) / 2) (by rw [Cls.maxDigital_eq, e]; omega)
    (by rw [Cls.maxDigital_eq, e]; omega)
  rw [e] at this
  rw [← d.trans_congr ha]
  exact this.outcome ⟨hp.digital.2, hp'.digital.2⟩

/-- What a caller can see of the base class members. -/
structure Agree (p p' : PFB R) : Prop where
  cascade : p.cascade = p'.cascade
  digital : ∃ k L L', Layout.Same k L L' p.digital p'.digital

/-- Same prototype: same outcome, and what is visible agrees on success. -/
theorem rest_same {n k : Nat} {d : Design R} (hn1 : 1 ≤ n) {p p' : PFB R} (hp : p.Ok d.cls n)
    (hp' : p'.Ok d.cls n)
    (ha : Layout.Same k ((n + 1) / 2) ((n + 1) / 2) p.analog.lay p'.analog.lay) :
    (rest d p).1 = (rest d p').1 ∧
      ((rest d p).1 = .ok () → Agree (rest d p).2 (rest d p').2) := by
  have h1 : k ≤ n := ha.veq.left.1 ▸ hp.analog.1
  have h3 := Nat.mul_le_mul_right d.cls.mult h1
  have ht := trans_same hp hp' ha
  rw [rest_apply, rest_apply]
  revert ht
  rcases d.trans p.analog.lay p.digital with ⟨r, l⟩
  rcases d.trans p'.analog.lay p'.digital with ⟨r', l'⟩
  rintro ⟨h, hl⟩
  dsimp only at h hl
  subst h
  cases r
  · simp only
    replace hl := hl rfl
    have hms : 1 ≤ d.cls.mult := by cases d <;> simp [Design.cls, Cls.mult]
    have h5 : n * 1 ≤ n * d.cls.mult := Nat.mul_le_mul_left n hms
    have := Cascade.setLayout_same hl hp.cascade hp'.cascade
      (by unfold PoleFilter.numStages; rw [Cls.maxDigital_eq]; omega)
      (by rw [Cls.maxDigital_eq]; omega) (by rw [Cls.maxDigital_eq]; omega)
      (by unfold PoleFilter.numStages; rw [Cls.maxDigital_eq]; omega)
    exact ⟨this.1, fun h => ⟨this.2 h, _, _, _, hl⟩⟩
  · exact ⟨rfl, fun h => by simp at h⟩
  · exact ⟨rfl, fun h => by simp at h⟩

theorem Agree.symm {p p' : PFB R} (h : Agree p p') : Agree p' p :=
  ⟨h.cascade.symm, let ⟨k, L, L', hl⟩ := h.digital; ⟨k, L', L, hl.symm⟩⟩

theorem poleZerosLoop_same {k L L' : Nat} {l l' : Layout R} (h : Layout.Same k L L' l l') (m : Nat)
    (hm : m ≤ (k + 1) / 2) : poleZerosLoop l m = poleZerosLoop l' m := by
  induction m with
  | zero => rfl
  | succ m ih => rw [poleZerosLoop, poleZerosLoop, ih (by omega), h.veq.getPair (by omega)]

theorem Agree.getPoleZeros {p p' : PFB R} (h : Agree p p') : p.getPoleZeros = p'.getPoleZeros := by
  obtain ⟨k, L, L', hl⟩ := h.digital
  unfold PFB.getPoleZeros
  rw [hl.veq.left.1, hl.veq.right.1]
  exact poleZerosLoop_same hl _ (Nat.le_refl _)

theorem Agree.sameConfig {S : Type → Type} [StateType S R] {f g : PoleFilter S R}
    (h : Agree f.base g.base) : Spec.SameConfig f g where
  numStages := by simp [PoleFilter.getNumStages, h.cascade]
  stage i := by simp [PoleFilter.getStage, h.cascade]
  response nf := by simp [PoleFilter.response, h.cascade]
  poleZeros := h.getPoleZeros
  stages := by rw [h.cascade]

end PFB

/-! ## The prototype cache -/

/-- The classes whose prototype is `ChebyshevI::AnalogLowPass` (the only one that sets its
normalisation in `design`). -/
def Cls.c1lp : Cls → Bool
  | .c1LowPass | .c1HighPass | .c1BandPass | .c1BandStop => true
  | _ => false

theorem Design.keepsNrm_build (o : Int) : (d : Design R) → d.cls.c1lp = false →
    KeepsNrm (d.build o)
  | .bwLowPass _, _ | .bwHighPass _, _ | .bwBandPass _ _, _ | .bwBandStop _ _, _ =>
    Butterworth.keepsNrm_lowPass o
  | .bwLowShelf _ g, _ | .bwHighShelf _ g, _ | .bwBandShelf _ _ g, _ =>
    Butterworth.keepsNrm_lowShelf o g
  | .c1LowShelf _ g r, _ | .c1HighShelf _ g r, _ | .c1BandShelf _ _ g r, _ =>
    ChebyshevI.keepsNrm_lowShelf o g r
  | .c2LowPass _ r, _ | .c2HighPass _ r, _ | .c2BandPass _ _ r, _ | .c2BandStop _ _ r, _ =>
    ChebyshevII.keepsNrm_lowPass o r
  | .c2LowShelf _ g r, _ | .c2HighShelf _ g r, _ | .c2BandShelf _ _ g r, _ =>
    ChebyshevII.keepsNrm_lowShelf o g r

/-- Adding what is known about the normalisation to a relational triple. -/
theorem SameBuild.nrm {n n' : Nat} {o : Int} {m : Exec (Layout R) Unit} (h : SameBuild n n' o m)
    (hk : KeepsNrm m) (l l' : Layout R) (hs : Layout.Sized ((n + 1) / 2) ((n' + 1) / 2) l l')
    (hw : l.normalW = l'.normalW) (hg : l.normalGain = l'.normalGain) :
    (m l).1 = (m l').1 ∧ ((m l).1 = .ok () →
      Layout.Same (builtPoles o) ((n + 1) / 2) ((n' + 1) / 2) (m l).2 (m l').2) := by
  obtain ⟨h1, h4⟩ := h.outcome hs
  have h2 := hk l
  have h3 := hk l'
  exact ⟨h1, fun h => ⟨h4 h, by rw [h2.1, h3.1, hw], by rw [h2.2, h3.2, hg]⟩⟩

theorem ChebyshevI.same_lowPass' {n n' : Nat} {o : Int} (hn1 : 1 ≤ n) (ho : o ≤ n) (hn1' : 1 ≤ n')
    (ho' : o ≤ n') (r : R) (l l' : Layout R)
    (hs : Layout.Sized ((n + 1) / 2) ((n' + 1) / 2) l l') :
    (ChebyshevI.lowPassBuild o r l).1 = (ChebyshevI.lowPassBuild o r l').1 ∧
      ((ChebyshevI.lowPassBuild o r l).1 = .ok () →
        Layout.Same (builtPoles o) ((n + 1) / 2) ((n' + 1) / 2) (ChebyshevI.lowPassBuild o r l).2
          (ChebyshevI.lowPassBuild o r l').2) := by
  obtain ⟨h1, h4⟩ := (ChebyshevI.same_lowPass hn1 ho hn1' ho' r).outcome hs
  refine ⟨h1, fun h => ?_⟩
  obtain ⟨h5, h2, h3⟩ := h4 h
  exact ⟨h5, by rw [h2.1, h3.1], by rw [h2.2, h3.2]⟩

/-- Construction of the prototype on two layouts: same outcome, same poles. -/
theorem Design.build_same {n n' : Nat} {o : Int} (hn1 : 1 ≤ n) (ho : o ≤ n) (hn1' : 1 ≤ n')
    (ho' : o ≤ n') (d : Design R) (l l' : Layout R)
    (hs : Layout.Sized ((n + 1) / 2) ((n' + 1) / 2) l l')
    (hw : d.cls.c1lp = false → l.normalW = l'.normalW)
    (hg : d.cls.c1lp = false → l.normalGain = l'.normalGain) :
    (d.build o l).1 = (d.build o l').1 ∧ ((d.build o l).1 = .ok () →
      Layout.Same (builtPoles o) ((n + 1) / 2) ((n' + 1) / 2) (d.build o l).2 (d.build o l').2) := by
  match d, hw, hg with
  | .bwLowPass _, hw, hg | .bwHighPass _, hw, hg | .bwBandPass _ _, hw, hg
  | .bwBandStop _ _, hw, hg =>
    exact (Butterworth.same_lowPass hn1 ho hn1' ho').nrm (Butterworth.keepsNrm_lowPass o) l l' hs
      (hw rfl) (hg rfl)
  | .bwLowShelf _ g, hw, hg | .bwHighShelf _ g, hw, hg | .bwBandShelf _ _ g, hw, hg =>
    exact (Butterworth.same_lowShelf hn1 ho hn1' ho' g).nrm (Butterworth.keepsNrm_lowShelf o g)
      l l' hs (hw rfl) (hg rfl)
  | .c1LowShelf _ g r, hw, hg | .c1HighShelf _ g r, hw, hg | .c1BandShelf _ _ g r, hw, hg =>
    exact (ChebyshevI.same_lowShelf hn1 ho hn1' ho' g r).nrm (ChebyshevI.keepsNrm_lowShelf o g r)
      l l' hs (hw rfl) (hg rfl)
  | .c2LowPass _ r, hw, hg | .c2HighPass _ r, hw, hg | .c2BandPass _ _ r, hw, hg
  | .c2BandStop _ _ r, hw, hg =>
    exact (ChebyshevII.same_lowPass hn1 ho hn1' ho' r).nrm (ChebyshevII.keepsNrm_lowPass o r)
      l l' hs (hw rfl) (hg rfl)
  | .c2LowShelf _ g r, hw, hg | .c2HighShelf _ g r, hw, hg | .c2BandShelf _ _ g r, hw, hg =>
    exact (ChebyshevII.same_lowShelf hn1 ho hn1' ho' g r).nrm (ChebyshevII.keepsNrm_lowShelf o g r)
      l l' hs (hw rfl) (hg rfl)
  | .c1LowPass _ r, _, _ | .c1HighPass _ r, _, _ | .c1BandPass _ _ r, _, _
  | .c1BandStop _ _ r, _, _ =>
    exact ChebyshevI.same_lowPass' hn1 ho hn1' ho' r l l' hs

theorem Proto.cached_apply (stale : Proto R → Bool) (setKey : Proto R → Proto R)
    (build : Exec (Layout R) Unit) (a : Proto R) :
    Proto.cached stale setKey build a =
      if stale a then ((build (setKey a).lay).1, { setKey a with lay := (build (setKey a).lay).2 })
      else (.ok (), a) := by
  unfold Proto.cached
  simp only [bind_def, get_def]
  split_ifs
  · simp only [bind_def, modify_def, Proto.onLay, Exec.zoom]
  · rfl

end Iir
