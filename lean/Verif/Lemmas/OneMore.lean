import Verif.Lemmas.Overflow
import Verif.Lemmas.Template
import Verif.Props.History

/-! # An order that is one above an odd `FilterOrder`

The arrays of pairs have the same length for an odd template order and the next one. -/

set_option linter.unusedSectionVars false

namespace Iir
open FArith Cx Exec Spec

variable {R : Type} [FArith R] {n : ℕ}

/-! ## One pair too many in the digital layout -/

namespace LessRoom

theorem addPair (p z : ComplexPair R) : LessRoom (Layout.addPair p z) :=
  get (fun k => do
    Exec.throwIf (k % 2 == 1) .cantAdd2ndOrder
    Exec.throwIf (!p.isMatchedPair) .polesNotConj
    Exec.throwIf (!z.isMatchedPair) .zerosNotConj
    Layout.write (k / 2) (PoleZeroPair.double p.first z.first p.second z.second)
    Exec.modify fun l => { l with numPoles := l.numPoles + 2 }) (fun _ => rfl) fun _ =>
    bind (throwIf _ _) fun _ => bind (throwIf _ _) fun _ => bind (throwIf _ _) fun _ =>
      bind (write _ _) fun _ => counted 2

theorem checkFreq (fc : R) : LessRoom (Iir.checkFreq fc : Exec (Layout R) Unit) :=
  bind (throwIf _ _) fun _ => throwIf _ _

theorem mapLayout (tr : Cx R → Cx R) (a : Layout R) : LessRoom (Iir.mapLayout tr a) := by
  unfold Iir.mapLayout
  refine bind (loop (fun _ => bind (lift _) fun _ => addConj _ _) _) fun _ => ?_
  split_ifs
  · exact bind (lift _) fun _ => add _ _
  · exact pure ()

theorem bpLayout (x y : R) (a : Layout R) : LessRoom (Iir.bpLayout x y a) := by
  unfold Iir.bpLayout
  refine bind (loop (fun _ => bind (lift _) fun _ => bind (addConj _ _) fun _ => addConj _ _) _) fun _ => ?_
  split_ifs
  · exact bind (lift _) fun _ => addPair _ _
  · exact pure ()

theorem bsLayout (x y : R) (a : Layout R) : LessRoom (Iir.bsLayout x y a) := by
  unfold Iir.bsLayout
  refine bind (loop (fun _ => bind (lift _) fun _ => bind (addConj _ _) fun _ => addConj _ _) _) fun _ => ?_
  split_ifs
  · exact bind (lift _) fun _ => addPair _ _
  · exact pure ()

theorem bandPass (fc fw : R) (a : Layout R) : LessRoom (bandPassTransform fc fw a) :=
  bind (checkFreq _) fun _ => bind reset fun _ => bind (bpLayout _ _ _) fun _ => setNormal _ _

theorem trans (d : Design R) (a : Layout R) : LessRoom (d.trans a) := by
  match d with
  | .bwLowPass _ | .bwLowShelf _ _ | .c1LowPass _ _ | .c1LowShelf _ _ _ | .c2LowPass _ _ | .c2LowShelf _ _ _ =>
    exact bind (checkFreq _) fun _ => bind reset fun _ => bind (mapLayout _ _) fun _ => setNormal _ _
  | .bwHighPass _ | .bwHighShelf _ _ | .c1HighPass _ _ | .c1HighShelf _ _ _ | .c2HighPass _ _ | .c2HighShelf _ _ _ =>
    exact bind (checkFreq _) fun _ => bind reset fun _ => bind (mapLayout _ _) fun _ => setNormal _ _
  | .bwBandPass _ _ | .c1BandPass _ _ _ | .c2BandPass _ _ _ => exact bandPass _ _ _
  | .bwBandStop _ _ | .c1BandStop _ _ _ | .c2BandStop _ _ _ =>
    refine bind (checkFreq _) fun _ => bind reset fun _ => bind (bsLayout _ _ _) fun _ => ?_
    split_ifs <;> exact setNormal _ _
  | .bwBandShelf _ _ _ | .c1BandShelf _ _ _ _ | .c2BandShelf _ _ _ _ =>
    exact bind (bandPass _ _ _) fun _ => setNormal _ _

end LessRoom

theorem ifOk_addPair {p z : ComplexPair R} {m L : ℕ} (hm : m % 2 = 0) :
    IfOk (Layout.Fits m L) (Layout.addPair p z) (Layout.Fits (m + 2) L) := by
  intro l h
  obtain ⟨h1, h2, h3⟩ := h
  have h4 : (m % 2 == 1) = false := by simp; omega
  simp only [Layout.addPair, bind_def, get_def, h1, h4, throwIf_false]
  cases !p.isMatchedPair <;> cases !z.isMatchedPair <;> simp only [throwIf_false, throwIf_true, Layout.write]
  split_ifs with h5
  · simp only [modify_def, h1]
    exact ⟨rfl, by simpa using h2, by omega⟩
  · trivial

theorem ifOk_throwIf {P Q : Layout R → Prop} {b : Bool} {e : Err} {m : Exec (Layout R) Unit} (h : IfOk P m Q) :
    IfOk P (Exec.throwIf b e >>= fun _ => m) Q := by
  intro l hl
  cases b
  · exact h l hl
  · trivial

theorem ifOk_checkFreq {P Q : Layout R → Prop} {fc : R} {m : Exec (Layout R) Unit} (h : IfOk P m Q) :
    IfOk P (checkFreq fc >>= fun _ => m) Q := by
  intro l hl
  have := h l hl
  simp only [checkFreq, bind_def] at this ⊢
  cases !flt fc 0.5 <;> cases flt fc 0 <;> simp only [throwIf_false, throwIf_true]
  exact this

theorem ifOk_bands {L : ℕ} {f : Cx R → Cx R → ComplexPair R × ComplexPair R} {g : Cx R → Cx R → ComplexPair R × ComplexPair R}
    (a : Layout R) :
    IfOk (Layout.Fits 0 L) (do
      Exec.loop (a.numPoles / 2) fun i => do
        let pair ← Exec.lift (a.getPair i)
        Layout.addPoleZeroConjugatePairs (f pair.poles.first pair.zeros.first).1.first (f pair.poles.first pair.zeros.first).2.first
        Layout.addPoleZeroConjugatePairs (f pair.poles.first pair.zeros.first).1.second (f pair.poles.first pair.zeros.first).2.second
      if a.numPoles % 2 == 1 then do
        let pair ← Exec.lift (a.getPair (a.numPoles / 2 : ℕ))
        Layout.addPair (g pair.poles.first pair.zeros.first).1 (g pair.poles.first pair.zeros.first).2
      else Exec.pure ()) (Layout.Fits (2 * a.numPoles) L) := by
  refine Trip.bind (Q := fun _ => Layout.Fits (4 * (a.numPoles / 2)) L)
    (Trip.loop (I := fun i => Layout.Fits (4 * i) L) _ fun i _ => ?_) fun _ => ?_
  · refine ifOk_lift fun pr => Trip.bind (Q := fun _ => Layout.Fits (4 * i + 2) L) (ifOk_addConj (by omega)) fun _ => ?_
    exact ifOk_addConj (by omega)
  · split_ifs with h
    · refine ifOk_lift fun pr => ?_
      have h1 : 4 * (a.numPoles / 2) + 2 = 2 * a.numPoles := by simp at h; omega
      rw [← h1]
      exact ifOk_addPair (by omega)
    · have h1 : 4 * (a.numPoles / 2) = 2 * a.numPoles := by simp at h; omega
      rw [h1]; exact Trip.pure fun _ h => h

theorem ifOk_bandPass {L : ℕ} (fc fw : R) (a : Layout R) :
    IfOk (fun l => l.pairs.length = L) (bandPassTransform fc fw a) (Layout.Fits (2 * a.numPoles) L) :=
  ifOk_checkFreq <| Trip.bind ifOk_reset fun _ => Trip.bind (Q := fun _ => Layout.Fits (2 * a.numPoles) L)
    (ifOk_bands (f := fun p z => (bpTransform _ _ p, bpTransform _ _ z)) (g := fun p z => (bpTransform _ _ p, bpTransform _ _ z)) a)
    fun _ => ifOk_setNormal _ _

/-- A band transform that succeeds has its poles, twice as many, inside the array. -/
theorem Design.ifOk_trans {L : ℕ} {d : Design R} (h : d.cls.mult = 2) (a : Layout R) :
    IfOk (fun l => l.pairs.length = L) (d.trans a) (Layout.Fits (2 * a.numPoles) L) := by
  match d, h with
  | .bwBandPass _ _, _ | .c1BandPass _ _ _, _ | .c2BandPass _ _ _, _ => exact ifOk_bandPass _ _ a
  | .bwBandStop _ _, _ | .c1BandStop _ _ _, _ | .c2BandStop _ _ _, _ =>
    refine ifOk_checkFreq <| Trip.bind ifOk_reset fun _ => Trip.bind (Q := fun _ => Layout.Fits (2 * a.numPoles) L)
      (ifOk_bands (f := fun p z => (bsTransform _ _ p, conjTrick (bsTransform _ _ z)))
        (g := fun p z => (bsTransform _ _ p, bsTransform _ _ z)) a) fun _ => ?_
    split_ifs <;> exact ifOk_setNormal _ _
  | .bwBandShelf _ _ _, _ | .c1BandShelf _ _ _ _, _ | .c2BandShelf _ _ _ _, _ =>
    exact Trip.bind (Q := fun _ => Layout.Fits (2 * a.numPoles) L) (ifOk_bandPass _ _ a) fun _ => ifOk_setNormal _ _

theorem Design.trans_reset (d : Design R) (a l : Layout R) (k : ℕ) :
    (d.trans a { l with numPoles := k }).1 = (d.trans a l).1 := by
  have key : ∀ (fc : R) (m : Exec (Layout R) Unit),
      ((checkFreq fc >>= fun _ => Layout.reset >>= fun _ => m) { l with numPoles := k }).1 =
        ((checkFreq fc >>= fun _ => Layout.reset >>= fun _ => m) l).1 := by
    intro fc m
    simp only [checkFreq, bind_def]
    cases !flt fc 0.5 <;> cases flt fc 0 <;> simp only [throwIf_false, throwIf_true] <;> rfl
  have shelf : ∀ fc fw : R, (bandShelfTransform fc fw a { l with numPoles := k }).1 = (bandShelfTransform fc fw a l).1 := by
    intro fc fw
    have h := key fc (do
      bpLayout (cos (((bandEdges fc fw).2 + (bandEdges fc fw).1) * 0.5) / cos (((bandEdges fc fw).2 - (bandEdges fc fw).1) * 0.5))
        (1 / tan (((bandEdges fc fw).2 - (bandEdges fc fw).1) * 0.5)) a
      Layout.setNormal (2 * atan (sqrt (tan (((bandEdges fc fw).2 + a.normalW) * 0.5) *
        tan (((bandEdges fc fw).1 + a.normalW) * 0.5)))) a.normalGain)
    have e : ∀ l : Layout R, (bandShelfTransform fc fw a l).1 = (bandPassTransform fc fw a l).1 := by
      intro l
      simp only [bandShelfTransform, bind_def]
      rcases bandPassTransform fc fw a l with ⟨_ | _ | _, l⟩ <;> rfl
    rw [e, e]; exact h
  cases d <;> first | exact key _ _ | exact shelf _ _

/-! ## Objects -/

theorem PFB.Ok.next {d : Design R} (hodd : n % 2 = 1) (hm : d.cls.mult = 1) {p : PFB R} (h : p.Ok d.cls n) :
    p.Ok d.cls (n + 1) := by
  have e1 : d.cls.maxDigital n = n := by rw [Cls.maxDigital_eq, hm, mul_one]
  have e2 : d.cls.maxDigital (n + 1) = n + 1 := by rw [Cls.maxDigital_eq, hm, mul_one]
  have e3 : (n + 1 + 1) / 2 = (n + 1) / 2 := by omega
  obtain ⟨h1, h2, h3⟩ := h
  unfold PoleFilter.numStages at h1
  rw [e1] at h1 h2
  refine ⟨?_, ?_, ?_⟩
  · unfold PoleFilter.numStages; rw [e2, e3]; exact h1
  · rw [e2, e3]; exact ⟨h2.1.trans (by omega), h2.2⟩
  · rw [e3]; exact ⟨h3.1.trans (by omega), h3.2⟩

end Iir
