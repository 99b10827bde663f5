import Verif.Model.Inherited
import Verif.Lemmas.Cache

/-! # Prototypes with more pairs than the storage has room for -/

set_option linter.unusedSectionVars false

namespace Iir
open FArith Cx Exec Spec

variable {R : Type} [FArith R]

/-! ## The same program on a layout with less room -/

/-- same number of poles, and `l'` has at least as much room -/
def Layout.Rel (l l' : Layout R) : Prop := l.numPoles = l'.numPoles ∧ l.pairs.length ≤ l'.pairs.length

/-- With less room the program ends in the same way, or writes out of bounds. -/
def LessRoom {α : Type} (m : Exec (Layout R) α) : Prop := ∀ l l', Layout.Rel l l' →
  (m l).1 = .ub .outOfBounds ∨ ((m l).1 = (m l').1 ∧ Layout.Rel (m l).2 (m l').2)

namespace LessRoom
variable {α β : Type}

theorem pure (a : α) : LessRoom (Exec.pure a : Exec (Layout R) α) := fun _ _ h => .inr ⟨rfl, h⟩

theorem lift (r : Res α) : LessRoom (Exec.lift r : Exec (Layout R) α) := fun l l' h => by
  cases r <;> exact .inr ⟨rfl, h⟩

theorem intChecked (i : ℤ) : LessRoom (Iir.intChecked i : Exec (Layout R) ℤ) := fun l l' h => by
  unfold Iir.intChecked
  split_ifs <;> exact .inr ⟨rfl, h⟩

theorem bind {m : Exec (Layout R) α} {f : α → Exec (Layout R) β} (hm : LessRoom m) (hf : ∀ a, LessRoom (f a)) :
    LessRoom (m >>= f) := by
  intro l l' h
  simp only [bind_def]
  rcases hm l l' h with h1 | ⟨h1, h2⟩
  · left
    revert h1
    rcases m l with ⟨_ | _ | _, l1⟩ <;> intro h1 <;> simp at h1
    subst h1; rfl
  · revert h1 h2
    rcases m l with ⟨r, l1⟩
    rcases m l' with ⟨r', l1'⟩
    rintro rfl h2
    cases r with
    | ok a => exact hf a l1 l1' h2
    | throw e => exact .inr ⟨rfl, h2⟩
    | ub u => exact .inr ⟨rfl, h2⟩

theorem loop {body : ℕ → Exec (Layout R) Unit} (h : ∀ i, LessRoom (body i)) (k : ℕ) : LessRoom (Exec.loop k body) := by
  induction k with
  | zero => exact pure ()
  | succ k ih => exact bind ih fun _ => h k

theorem reset : LessRoom (Layout.reset : Exec (Layout R) Unit) := fun _ _ h => .inr ⟨rfl, rfl, h.2⟩

theorem setNormal (w g : R) : LessRoom (Layout.setNormal w g) := fun _ _ h => .inr ⟨rfl, h⟩

theorem write (i : ℕ) (pr : PoleZeroPair R) : LessRoom (Layout.write i pr) := by
  intro l l' h
  unfold Layout.write
  by_cases h1 : i < l.pairs.length
  · rw [if_pos h1, if_pos (h1.trans_le h.2)]
    exact .inr ⟨rfl, h.1, by simpa using h.2⟩
  · rw [if_neg h1]; exact .inl rfl

theorem throwIf (b : Bool) (e : Err) : LessRoom (Exec.throwIf b e : Exec (Layout R) Unit) := fun l l' h => by
  cases b <;> exact .inr ⟨rfl, h⟩

theorem counted (k : ℕ) : LessRoom (Exec.modify fun l : Layout R => { l with numPoles := l.numPoles + k }) :=
  fun l l' h => .inr ⟨rfl, by show l.numPoles + k = l'.numPoles + k; rw [h.1], h.2⟩

/-- a program that looks at the number of poles only -/
theorem get {f : Layout R → Exec (Layout R) α} (F : ℕ → Exec (Layout R) α) (hf : ∀ l, f l = F l.numPoles)
    (hF : ∀ k, LessRoom (F k)) : LessRoom (Exec.get >>= f) := by
  intro l l' h
  simp only [bind_def, get_def, hf, h.1]
  exact hF _ l l' h

theorem add (p z : Cx R) : LessRoom (Layout.add p z) :=
  get (fun k => do
    Exec.throwIf (k % 2 == 1) .cantAdd2ndOrder
    Exec.throwIf p.isNan .poleIsNaN
    Exec.throwIf z.isNan .zeroIsNaN
    let pr ← Exec.lift (PoleZeroPair.single p z)
    Layout.write (k / 2) pr
    Exec.modify fun l => { l with numPoles := l.numPoles + 1 }) (fun _ => rfl) fun _ =>
    bind (throwIf _ _) fun _ => bind (throwIf _ _) fun _ => bind (throwIf _ _) fun _ => bind (lift _) fun _ =>
      bind (write _ _) fun _ => counted 1

theorem addConj (p z : Cx R) : LessRoom (Layout.addPoleZeroConjugatePairs p z) :=
  get (fun k => do
    Exec.throwIf (k % 2 == 1) .cantAdd2ndOrder
    Exec.throwIf p.isNan .poleIsNaN
    Exec.throwIf z.isNan .zeroIsNaN
    Layout.write (k / 2) (PoleZeroPair.double p z (conj p) (conj z))
    Exec.modify fun l => { l with numPoles := l.numPoles + 2 }) (fun _ => rfl) fun _ =>
    bind (throwIf _ _) fun _ => bind (throwIf _ _) fun _ => bind (throwIf _ _) fun _ =>
      bind (write _ _) fun _ => counted 2

theorem odd (b : Bool) (p z : Cx R) : LessRoom (if b = true then Layout.add p z else Exec.pure ()) := by
  cases b
  · exact pure ()
  · exact add p z

theorem butterworthLow (o : ℤ) : LessRoom (Butterworth.lowPassBuild o : Exec (Layout R) Unit) :=
  bind reset fun _ => bind (intChecked _) fun _ =>
    bind (loop (fun _ => bind (lift _) fun _ => addConj _ _) _) fun _ => odd _ _ _

theorem butterworthShelf (o : ℤ) (g : R) : LessRoom (Butterworth.lowShelfBuild o g) :=
  bind reset fun _ => bind (intChecked _) fun _ =>
    bind (loop (fun _ => bind (lift _) fun _ => bind (lift _) fun _ => addConj _ _) _) fun _ => odd _ _ _

theorem chebyshev1Low (o : ℤ) (r : R) : LessRoom (ChebyshevI.lowPassBuild o r) := by
  refine bind reset fun _ => bind (intChecked _) fun _ => bind (loop (fun _ => addConj _ _) _) fun _ => ?_
  split_ifs
  · exact bind (add _ _) fun _ => setNormal _ _
  · exact setNormal _ _

theorem chebyshev1Shelf (o : ℤ) (g r : R) : LessRoom (ChebyshevI.lowShelfBuild o g r) :=
  bind reset fun _ => bind (intChecked _) fun _ => bind (loop (fun _ => addConj _ _) _) fun _ => odd _ _ _

theorem chebyshev2Low (o : ℤ) (r : R) : LessRoom (ChebyshevII.lowPassBuild o r) :=
  bind reset fun _ => bind (intChecked _) fun _ => bind (loop (fun _ => addConj _ _) _) fun _ => odd _ _ _

theorem chebyshev2Shelf (o : ℤ) (g r : R) : LessRoom (ChebyshevII.lowShelfBuild o g r) :=
  bind reset fun _ => bind (intChecked _) fun _ => bind (loop (fun _ => addConj _ _) _) fun _ => odd _ _ _

theorem build (o : ℤ) : (d : Design R) → LessRoom (d.build o)
  | .bwLowPass _ | .bwHighPass _ | .bwBandPass _ _ | .bwBandStop _ _ => butterworthLow o
  | .bwLowShelf _ g | .bwHighShelf _ g | .bwBandShelf _ _ g => butterworthShelf o g
  | .c1LowPass _ r | .c1HighPass _ r | .c1BandPass _ _ r | .c1BandStop _ _ r => chebyshev1Low o r
  | .c1LowShelf _ g r | .c1HighShelf _ g r | .c1BandShelf _ _ g r => chebyshev1Shelf o g r
  | .c2LowPass _ r | .c2HighPass _ r | .c2BandPass _ _ r | .c2BandStop _ _ r => chebyshev2Low o r
  | .c2LowShelf _ g r | .c2HighShelf _ g r | .c2BandShelf _ _ g r => chebyshev2Shelf o g r

end LessRoom

/-! ## A prototype that has been built fits -/

/-- `m` poles in an array of `L` pairs, all of them inside -/
def Layout.Fits (m L : ℕ) (l : Layout R) : Prop := l.numPoles = m ∧ l.pairs.length = L ∧ (m + 1) / 2 ≤ L

abbrev IfOk (P : Layout R → Prop) (m : Exec (Layout R) Unit) (Q : Layout R → Prop) : Prop :=
  Exec.Trip P m (fun _ => Q) (fun _ _ => True) (fun _ => True)

theorem ifOk_addConj {p z : Cx R} {m L : ℕ} (hm : m % 2 = 0) :
    IfOk (Layout.Fits m L) (Layout.addPoleZeroConjugatePairs p z) (Layout.Fits (m + 2) L) := by
  intro l h
  obtain ⟨h1, h2, h3⟩ := h
  have h4 : (m % 2 == 1) = false := by simp; omega
  simp only [Layout.addPoleZeroConjugatePairs, bind_def, get_def, h1, h4, throwIf_false]
  cases p.isNan <;> cases z.isNan <;> simp only [throwIf_false, throwIf_true, Layout.write]
  split_ifs with h5
  · simp only [modify_def, h1]
    exact ⟨rfl, by simpa using h2, by omega⟩
  · trivial

theorem ifOk_add {p z : Cx R} {m L : ℕ} (hm : m % 2 = 0) :
    IfOk (Layout.Fits m L) (Layout.add p z) (Layout.Fits (m + 1) L) := by
  intro l h
  obtain ⟨h1, h2, h3⟩ := h
  have h4 : (m % 2 == 1) = false := by simp; omega
  simp only [Layout.add, bind_def, get_def, h1, h4, throwIf_false]
  cases p.isNan <;> cases z.isNan <;> simp only [throwIf_false, throwIf_true, Layout.write]
  cases PoleZeroPair.single p z <;> simp only [lift_ok, lift_throw, lift_ub]
  split_ifs with h5
  · simp only [modify_def, h1]
    exact ⟨rfl, by simpa using h2, by omega⟩
  · trivial

theorem ifOk_intChecked {P : Layout R → Prop} {Q : Layout R → Prop} {i : ℤ} {f : ℤ → Exec (Layout R) Unit}
    (h : IfOk P (f i) Q) : IfOk P (intChecked i >>= f) Q := by
  intro l hl
  unfold intChecked
  split_ifs
  · exact h l hl
  · trivial

theorem ifOk_lift {P : Layout R → Prop} {Q : Layout R → Prop} {α : Type} {r : Res α} {f : α → Exec (Layout R) Unit}
    (h : ∀ a, IfOk P (f a) Q) : IfOk P (Exec.lift r >>= f) Q := by
  intro l hl
  cases r
  · exact h _ l hl
  · trivial
  · trivial

theorem ifOk_shape {L o : ℕ} {body : ℕ → Exec (Layout R) Unit} {tail : Exec (Layout R) Unit}
    (hb : ∀ i, IfOk (Layout.Fits (2 * i) L) (body i) (Layout.Fits (2 * i + 2) L))
    (ht : IfOk (Layout.Fits (2 * (o / 2)) L) tail (Layout.Fits o L)) :
    IfOk (Layout.Fits 0 L) (Exec.loop ((o : ℤ).tdiv 2).toNat body >>= fun _ => tail) (Layout.Fits o L) := by
  have e : ((o : ℤ).tdiv 2).toNat = o / 2 := by rw [Int.tdiv_eq_ediv_of_nonneg (by omega)]; omega
  rw [e]
  exact Trip.bind (Trip.loop (I := fun i => Layout.Fits (2 * i) L) _ fun i _ => hb i) fun _ => ht

theorem ifOk_odd {L o : ℕ} (p z : Cx R) : IfOk (Layout.Fits (2 * (o / 2)) L)
    (if ((o : ℤ) % 2 == 1) = true then Layout.add p z else Exec.pure ()) (Layout.Fits o L) := by
  split_ifs with h
  · have h1 : 2 * (o / 2) + 1 = o := by simp at h; omega
    have := ifOk_add (p := p) (z := z) (L := L) (m := 2 * (o / 2)) (by omega)
    rwa [h1] at this
  · have h1 : 2 * (o / 2) = o := by simp at h; omega
    rw [h1]; exact Trip.pure fun _ h => h

theorem ifOk_reset {L : ℕ} : IfOk (fun l : Layout R => l.pairs.length = L) Layout.reset (Layout.Fits 0 L) :=
  Trip.modify fun _ h => ⟨rfl, h, by omega⟩

theorem ifOk_setNormal {L m : ℕ} (w g : R) : IfOk (Layout.Fits m L) (Layout.setNormal w g) (Layout.Fits m L) :=
  Trip.modify fun _ h => h

section
variable (o L : ℕ)

theorem Butterworth.ifOk_lowPass :
    IfOk (R := R) (fun l => l.pairs.length = L) (Butterworth.lowPassBuild o) (Layout.Fits o L) :=
  Trip.bind ifOk_reset fun _ => ifOk_intChecked <|
    ifOk_shape (fun _ => ifOk_lift fun _ => ifOk_addConj (by omega)) (ifOk_odd _ _)

theorem Butterworth.ifOk_lowShelf (g : R) :
    IfOk (fun l => l.pairs.length = L) (Butterworth.lowShelfBuild o g) (Layout.Fits o L) :=
  Trip.bind ifOk_reset fun _ => ifOk_intChecked <|
    ifOk_shape (fun _ => ifOk_lift fun _ => ifOk_lift fun _ => ifOk_addConj (by omega)) (ifOk_odd _ _)

theorem ChebyshevI.ifOk_lowPass (r : R) :
    IfOk (fun l => l.pairs.length = L) (ChebyshevI.lowPassBuild o r) (Layout.Fits o L) := by
  refine Trip.bind ifOk_reset fun _ => ifOk_intChecked <|
    ifOk_shape (fun _ => ifOk_addConj (by omega)) ?_
  split_ifs with h
  · refine Trip.bind (Q := fun _ => Layout.Fits o L) ?_ fun _ => ifOk_setNormal _ _
    have h1 : 2 * (o / 2) + 1 = o := by simp at h; omega
    exact (ifOk_add (by omega)).post fun _ _ hl => h1 ▸ hl
  · have h1 : 2 * (o / 2) = o := by simp at h; omega
    rw [h1]; exact ifOk_setNormal _ _

theorem ChebyshevI.ifOk_lowShelf (g r : R) :
    IfOk (fun l => l.pairs.length = L) (ChebyshevI.lowShelfBuild o g r) (Layout.Fits o L) :=
  Trip.bind ifOk_reset fun _ => ifOk_intChecked <|
    ifOk_shape (fun _ => ifOk_addConj (by omega)) (ifOk_odd _ _)

theorem ChebyshevII.ifOk_lowPass (r : R) :
    IfOk (fun l => l.pairs.length = L) (ChebyshevII.lowPassBuild o r) (Layout.Fits o L) :=
  Trip.bind ifOk_reset fun _ => ifOk_intChecked <|
    ifOk_shape (fun _ => ifOk_addConj (by omega)) (ifOk_odd _ _)

theorem ChebyshevII.ifOk_lowShelf (g r : R) :
    IfOk (fun l => l.pairs.length = L) (ChebyshevII.lowShelfBuild o g r) (Layout.Fits o L) :=
  Trip.bind ifOk_reset fun _ => ifOk_intChecked <|
    ifOk_shape (fun _ => ifOk_addConj (by omega)) (ifOk_odd _ _)

/-- A prototype of order `o` that was built without error has its `(o + 1) / 2` pairs inside the array. -/
theorem Design.ifOk_build : (d : Design R) → IfOk (fun l => l.pairs.length = L) (d.build o) (Layout.Fits o L)
  | .bwLowPass _ | .bwHighPass _ | .bwBandPass _ _ | .bwBandStop _ _ => Butterworth.ifOk_lowPass o L
  | .bwLowShelf _ g | .bwHighShelf _ g | .bwBandShelf _ _ g => Butterworth.ifOk_lowShelf o L g
  | .c1LowPass _ r | .c1HighPass _ r | .c1BandPass _ _ r | .c1BandStop _ _ r => ChebyshevI.ifOk_lowPass o L r
  | .c1LowShelf _ g r | .c1HighShelf _ g r | .c1BandShelf _ _ g r => ChebyshevI.ifOk_lowShelf o L g r
  | .c2LowPass _ r | .c2HighPass _ r | .c2BandPass _ _ r | .c2BandStop _ _ r => ChebyshevII.ifOk_lowPass o L r
  | .c2LowShelf _ g r | .c2HighShelf _ g r | .c2BandShelf _ _ g r => ChebyshevII.ifOk_lowShelf o L g r

end

/-! ## The order remembered by an object -/

theorem Design.setKey_numPoles (o : ℤ) (d : Design R) (a : Proto R) : (d.setKey o a).numPoles = o := by
  cases d <;> rfl

theorem Design.stale_of_ne {o : ℤ} (d : Design R) {a : Proto R} (h : a.numPoles ≠ o) : d.stale o a = true := by
  have h' : (a.numPoles != o) = true := by simpa using h
  cases d <;> simp [Design.stale, h']

theorem Design.proto_numPoles (o : ℤ) (d : Design R) (a : Proto R) :
    (d.proto o a).2.numPoles = a.numPoles ∨ (d.proto o a).2.numPoles = o := by
  cases h : d.stale o a with
  | false => rw [d.proto_hit h]; exact .inl rfl
  | true => rw [d.proto_miss h]; exact .inr (d.setKey_numPoles o a)

theorem PFB.baseSetup_numPoles {n : ℕ} {o : ℤ} (ho : o ≤ n) (d : Design R) {p : PFB R} (h : p.analog.numPoles ≤ n) :
    (d.baseSetup o p).2.analog.numPoles ≤ n := by
  have := d.proto_numPoles o p.analog
  rw [PFB.baseSetup_proto]
  revert this
  rcases d.proto o p.analog with ⟨_ | _ | _, a⟩ <;> intro this <;> simp only at this ⊢
  · rw [PFB.rest_analog]; exact (by omega : a.numPoles ≤ n)
  · omega
  · omega

theorem Spec.Reach.numPoles_le {S : Type → Type} [StateType S R] {T : Type} [Sample T R] {c : Cls} {n : ℕ}
    {f : PoleFilter S R} (h : Reach S T c n f) : f.base.analog.numPoles ≤ n := by
  induction h with
  | new =>
    show (c.protoInit : Proto R).numPoles ≤ n
    have h1 : (-1 : ℤ) ≤ n := by omega
    have h0 : (0 : ℤ) ≤ n := by omega
    cases c <;> first | exact h1 | exact h0
  | call f f' op r _ _ he _ ih =>
    have e : f' = (op.exec n f).2 := by rw [he]
    rw [e]
    cases op with
    | setup call =>
      show (call.run n f.base).2.analog.numPoles ≤ n
      rw [Call.run_eq]
      split_ifs with h1
      · exact ih
      · exact PFB.baseSetup_numPoles (by omega) _ ih
    | filter x =>
      have : (Op.exec (S := S) n (.filter x) f).2.base = f.base := by
        show ((PoleFilter.filter x >>= fun _ => Exec.pure ()) f).2.base = f.base
        rw [bind_def]
        have h2 : (PoleFilter.filter x f).2.base = f.base := rfl
        revert h2
        rcases PoleFilter.filter x f with ⟨_ | _ | _, f1⟩ <;> exact id
      rw [this]; exact ih
    | reset => exact ih
    | scale k => exact ih

end Iir
