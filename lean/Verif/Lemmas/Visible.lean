import Verif.Lemmas.SetLayout

/-! # Layout code only looks at the stored poles

Two layouts with the same poles, possibly with arrays of different size and different contents
beyond the stored poles, behave in the same way. -/

set_option linter.unusedSectionVars false

namespace Iir
open FArith Cx Exec

variable {R : Type} [FArith R]

namespace Exec

theorem loop_congr {σ : Type} {body body' : Nat → Exec σ Unit} (n : Nat)
    (h : ∀ i, i < n → body i = body' i) : Exec.loop n body = Exec.loop n body' := by
  induction n with
  | zero => rfl
  | succ n ih =>
    rw [Exec.loop, Exec.loop, ih fun i hi => h i (Nat.lt_succ_of_lt hi), h n (Nat.lt_succ_self n)]

end Exec

/-- `k` poles stored in both, the same ones, in arrays of `L` and `L'` pairs. -/
structure Layout.VEq (k L L' : Nat) (l l' : Layout R) : Prop where
  left : l.Has k L
  right : l'.Has k L'
  pairs : l.pairs.take ((k + 1) / 2) = l'.pairs.take ((k + 1) / 2)

/-- the normalisation is `w`, `g` -/
def Layout.Nrm (w g : R) (l : Layout R) : Prop := l.normalW = w ∧ l.normalGain = g

namespace Layout

theorem VEq.symm {k L L' : Nat} {l l' : Layout R} (h : VEq k L L' l l') : VEq k L' L l' l :=
  ⟨h.right, h.left, h.pairs.symm⟩

theorem VEq.trans {k L L' L'' : Nat} {l l' l'' : Layout R} (h : VEq k L L' l l')
    (h' : VEq k L' L'' l' l'') : VEq k L L'' l l'' :=
  ⟨h.left, h'.right, h.pairs.trans h'.pairs⟩

theorem VEq.refl {k L : Nat} {l : Layout R} (h : l.Has k L) : VEq k L L l l := ⟨h, h, rfl⟩

theorem take_set_self {α : Type} (l : List α) (k : Nat) (a : α) (h : k < l.length) :
    (l.set k a).take (k + 1) = l.take k ++ [a] := by
  rw [List.take_add_one, List.take_set_of_le (Nat.le_refl k)]
  simp [h]

theorem VEq.getPair {k L L' : Nat} {l l' : Layout R} (h : VEq k L L' l l') {i : Nat}
    (hi : i < (k + 1) / 2) : l.getPair i = l'.getPair i := by
  have h1 : l.pairs[i]? = l'.pairs[i]? := by
    have := congrArg (·[i]?) h.pairs
    simpa [List.getElem?_take, hi] using this
  unfold Layout.getPair
  rw [h.left.1, h.right.1]
  simp only [Int.toNat_natCast, h1]

/-- storing a pair in the next place of both -/
theorem VEq.push {k L L' m : Nat} {l l' : Layout R} (h : VEq (2 * k) L L' l l') (hk : k < L)
    (hk' : k < L') (hm : (m + 1) / 2 = k + 1) (pr : PoleZeroPair R) :
    VEq m L L' { l with pairs := l.pairs.set k pr, numPoles := m }
      { l' with pairs := l'.pairs.set k pr, numPoles := m } := by
  refine ⟨⟨rfl, by simpa using h.left.2⟩, ⟨rfl, by simpa using h.right.2⟩, ?_⟩
  have e := h.pairs
  rw [show (2 * k + 1) / 2 = k by omega] at e
  simp only [hm]
  rw [take_set_self _ _ _ (by rw [h.left.2]; exact hk), take_set_self _ _ _ (by rw [h.right.2]; exact hk'),
    e]

variable {k L L' : Nat}

theorem rtrip_addConj (p z : Cx R) (hk : k < L) (hk' : k < L') :
    RTrip (VEq (2 * k) L L') (Layout.addPoleZeroConjugatePairs p z)
      (Layout.addPoleZeroConjugatePairs p z) (fun _ => VEq (2 * k + 2) L L') fun _ _ _ => True := by
  intro l l' h
  have hk1 : k < l.pairs.length := by rw [h.left.2]; exact hk
  have hk2 : k < l'.pairs.length := by rw [h.right.2]; exact hk'
  unfold Layout.addPoleZeroConjugatePairs
  simp only [bind_def, get_def, h.left.1, h.right.1]
  rw [show (2 * k % 2 == 1) = false by simp, show 2 * k / 2 = k by omega]
  simp only [throwIf_false]
  cases p.isNan
  · cases z.isNan
    · simp only [throwIf_false, Layout.write, hk1, hk2, if_true, modify_def, h.left.1, h.right.1]
      exact ⟨trivial, h.push hk hk' (by omega) _⟩
    · exact ⟨rfl, trivial⟩
  · exact ⟨rfl, trivial⟩

theorem rtrip_addPair (p z : ComplexPair R) (hk : k < L) (hk' : k < L') :
    RTrip (VEq (2 * k) L L') (Layout.addPair p z) (Layout.addPair p z)
      (fun _ => VEq (2 * k + 2) L L') fun _ _ _ => True := by
  intro l l' h
  have hk1 : k < l.pairs.length := by rw [h.left.2]; exact hk
  have hk2 : k < l'.pairs.length := by rw [h.right.2]; exact hk'
  unfold Layout.addPair
  simp only [bind_def, get_def, h.left.1, h.right.1]
  rw [show (2 * k % 2 == 1) = false by simp, show 2 * k / 2 = k by omega]
  simp only [throwIf_false]
  cases !p.isMatchedPair
  · cases !z.isMatchedPair
    · simp only [throwIf_false, Layout.write, hk1, hk2, if_true, modify_def, h.left.1, h.right.1]
      exact ⟨trivial, h.push hk hk' (by omega) _⟩
    · exact ⟨rfl, trivial⟩
  · exact ⟨rfl, trivial⟩

theorem rtrip_add (p z : Cx R) (hk : k < L) (hk' : k < L') :
    RTrip (VEq (2 * k) L L') (Layout.add p z) (Layout.add p z)
      (fun _ => VEq (2 * k + 1) L L') fun _ _ _ => True := by
  intro l l' h
  have hk1 : k < l.pairs.length := by rw [h.left.2]; exact hk
  have hk2 : k < l'.pairs.length := by rw [h.right.2]; exact hk'
  unfold Layout.add
  simp only [bind_def, get_def, h.left.1, h.right.1, lift_def]
  rw [show (2 * k % 2 == 1) = false by simp, show 2 * k / 2 = k by omega]
  simp only [throwIf_false]
  cases p.isNan
  · cases z.isNan
    · simp only [throwIf_false]
      rcases PoleZeroPair.single p z with pr | e | u
      · simp only [Layout.write, hk1, hk2, if_true, modify_def, h.left.1, h.right.1]
        exact ⟨trivial, h.push hk hk' (by omega) _⟩
      · exact ⟨rfl, trivial⟩
      · exact rfl
    · exact ⟨rfl, trivial⟩
  · exact ⟨rfl, trivial⟩

/-- both arrays have the given sizes -/
def Sized (L L' : Nat) (l l' : Layout R) : Prop := l.pairs.length = L ∧ l'.pairs.length = L'

theorem rtrip_reset :
    RTrip (Sized L L') (Layout.reset : Exec (Layout R) Unit) Layout.reset (fun _ => VEq 0 L L')
      fun _ _ _ => True :=
  RTrip.modify fun _ _ h => ⟨⟨rfl, h.1⟩, ⟨rfl, h.2⟩, by simp⟩

theorem rtrip_setNormal (w g : R) :
    RTrip (VEq k L L') (Layout.setNormal w g) (Layout.setNormal w g)
      (fun _ l l' => VEq k L L' l l' ∧ l.Nrm w g ∧ l'.Nrm w g) fun _ _ _ => True :=
  RTrip.modify fun _ _ h => ⟨⟨h.left, h.right, h.pairs⟩, ⟨rfl, rfl⟩, ⟨rfl, rfl⟩⟩

end Layout

/-! ## Prototype constructions -/

section builds
open Layout
variable {order : Int} {n n' : Nat}

theorem rtrip_intChecked {P : Layout R → Layout R → Prop} (i : Int) :
    RTrip P (intChecked i) (intChecked i) (fun _ => P) fun _ _ _ => True := by
  unfold intChecked
  split_ifs
  · exact RTrip.pure fun _ _ h => h
  · exact fun _ _ _ => rfl

theorem rtrip_lift {α : Type} {P : Layout R → Layout R → Prop} (r : Res α) :
    RTrip P (Exec.lift r) (Exec.lift r) (fun _ => P) fun _ _ _ => True :=
  RTrip.lift (fun _ _ _ h _ => h) fun _ _ _ _ _ => trivial

theorem pairs_lt (ho : order ≤ n) (hn1 : 1 ≤ n) {i : Nat} (hi : i < (order.tdiv 2).toNat) :
    i < (n + 1) / 2 := by
  have h1 := builtPoles_le ho hn1
  rcases Int.emod_two_eq order with h2 | h2
  · rw [builtPoles_even (by omega)] at h1; omega
  · rw [builtPoles_odd h2] at h1; omega

variable (hn1 : 1 ≤ n) (ho : order ≤ n) (hn1' : 1 ≤ n') (ho' : order ≤ n')
include hn1 ho hn1' ho'

theorem rtrip_pairsLoop {body : Nat → Exec (Layout R) Unit}
    (h : ∀ k, k < (n + 1) / 2 → k < (n' + 1) / 2 →
      RTrip (VEq (2 * k) ((n + 1) / 2) ((n' + 1) / 2)) (body k) (body k)
        (fun _ => VEq (2 * k + 2) ((n + 1) / 2) ((n' + 1) / 2)) fun _ _ _ => True) :
    RTrip (VEq 0 ((n + 1) / 2) ((n' + 1) / 2)) (Exec.loop (order.tdiv 2).toNat body)
      (Exec.loop (order.tdiv 2).toNat body)
      (fun _ => VEq (2 * (order.tdiv 2).toNat) ((n + 1) / 2) ((n' + 1) / 2)) fun _ _ _ => True :=
  RTrip.loop (I := fun i => VEq (2 * i) ((n + 1) / 2) ((n' + 1) / 2)) _ fun i hi =>
    h i (pairs_lt ho hn1 hi) (pairs_lt ho' hn1' hi)

theorem rtrip_oddTail (p z : Cx R) :
    RTrip (VEq (2 * (order.tdiv 2).toNat) ((n + 1) / 2) ((n' + 1) / 2))
      (if order % 2 == 1 then Layout.add p z else Exec.pure ())
      (if order % 2 == 1 then Layout.add p z else Exec.pure ())
      (fun _ => VEq (builtPoles order) ((n + 1) / 2) ((n' + 1) / 2)) fun _ _ _ => True := by
  have h1 := builtPoles_le ho hn1
  have h1' := builtPoles_le ho' hn1'
  split_ifs with h2
  · simp only [beq_iff_eq] at h2
    rw [builtPoles_odd h2] at h1 h1' ⊢
    exact rtrip_add p z (by omega) (by omega)
  · simp only [beq_iff_eq] at h2
    rw [builtPoles_even h2]
    exact RTrip.pure fun _ _ h => h

/-- The construction depends on the parameters only. -/
def SameBuild (n n' : Nat) (order : Int) (build : Exec (Layout R) Unit) : Prop :=
  RTrip (Sized ((n + 1) / 2) ((n' + 1) / 2)) build build
    (fun _ => VEq (builtPoles order) ((n + 1) / 2) ((n' + 1) / 2)) fun _ _ _ => True

theorem Butterworth.same_lowPass :
    SameBuild (R := R) n n' order (Butterworth.lowPassBuild order) := by
  unfold SameBuild Butterworth.lowPassBuild
  refine RTrip.bind rtrip_reset fun _ => RTrip.bind (rtrip_intChecked _) fun i => ?_
  refine RTrip.bind (rtrip_pairsLoop hn1 ho hn1' ho' fun k hk hk' => ?_) fun _ =>
    rtrip_oddTail hn1 ho hn1' ho' _ _
  exact RTrip.bind (rtrip_lift _) fun _ => rtrip_addConj _ _ hk hk'

theorem Butterworth.same_lowShelf (g : R) :
    SameBuild n n' order (Butterworth.lowShelfBuild order g) := by
  unfold SameBuild Butterworth.lowShelfBuild
  refine RTrip.bind rtrip_reset fun _ => RTrip.bind (rtrip_intChecked _) fun i => ?_
  refine RTrip.bind (rtrip_pairsLoop hn1 ho hn1' ho' fun k hk hk' => ?_) fun _ =>
    rtrip_oddTail hn1 ho hn1' ho' _ _
  exact RTrip.bind (rtrip_lift _) fun _ => RTrip.bind (rtrip_lift _) fun _ =>
    rtrip_addConj _ _ hk hk'

theorem ChebyshevI.same_lowShelf (g r : R) :
    SameBuild n n' order (ChebyshevI.lowShelfBuild order g r) := by
  unfold SameBuild ChebyshevI.lowShelfBuild
  refine RTrip.bind rtrip_reset fun _ => RTrip.bind (rtrip_intChecked _) fun i => ?_
  exact RTrip.bind (rtrip_pairsLoop hn1 ho hn1' ho' fun k hk hk' => rtrip_addConj _ _ hk hk')
    fun _ => rtrip_oddTail hn1 ho hn1' ho' _ _

theorem ChebyshevII.same_lowPass (r : R) :
    SameBuild n n' order (ChebyshevII.lowPassBuild order r) := by
  unfold SameBuild ChebyshevII.lowPassBuild
  refine RTrip.bind rtrip_reset fun _ => RTrip.bind (rtrip_intChecked _) fun i => ?_
  exact RTrip.bind (rtrip_pairsLoop hn1 ho hn1' ho' fun k hk hk' => rtrip_addConj _ _ hk hk')
    fun _ => rtrip_oddTail hn1 ho hn1' ho' _ _

theorem ChebyshevII.same_lowShelf (g r : R) :
    SameBuild n n' order (ChebyshevII.lowShelfBuild order g r) := by
  unfold SameBuild ChebyshevII.lowShelfBuild
  refine RTrip.bind rtrip_reset fun _ => RTrip.bind (rtrip_intChecked _) fun i => ?_
  exact RTrip.bind (rtrip_pairsLoop hn1 ho hn1' ho' fun k hk hk' => rtrip_addConj _ _ hk hk')
    fun _ => rtrip_oddTail hn1 ho hn1' ho' _ _

/-- normalisation gain of a Chebyshev I prototype -/
def ChebyshevI.nrmGain (order : Int) (r : R) : R :=
  if order % 2 == 1 then 1 else pow 10 (-r / 20)

theorem ChebyshevI.same_lowPass (r : R) :
    RTrip (Sized ((n + 1) / 2) ((n' + 1) / 2)) (ChebyshevI.lowPassBuild order r)
      (ChebyshevI.lowPassBuild order r)
      (fun _ l l' => VEq (builtPoles order) ((n + 1) / 2) ((n' + 1) / 2) l l' ∧
        l.Nrm 0 (ChebyshevI.nrmGain order r) ∧ l'.Nrm 0 (ChebyshevI.nrmGain order r))
      fun _ _ _ => True := by
  unfold ChebyshevI.lowPassBuild
  refine RTrip.bind rtrip_reset fun _ => RTrip.bind (rtrip_intChecked _) fun i => ?_
  refine RTrip.bind (rtrip_pairsLoop hn1 ho hn1' ho' fun k hk hk' => rtrip_addConj _ _ hk hk')
    fun _ => ?_
  have := fun p z => rtrip_oddTail (R := R) hn1 ho hn1' ho' p z
  unfold ChebyshevI.nrmGain
  split_ifs with h2
  · exact RTrip.bind (by simpa [h2] using this _ _) fun _ => rtrip_setNormal _ _
  · have h3 := builtPoles_even (order := order) (by simpa using h2)
    rw [h3]
    exact rtrip_setNormal _ _

end builds

/-! ## Normalisation kept by the other constructions -/

section nrm
open Layout

/-- keeps the normalisation, whatever happens -/
def KeepsNrm (m : Exec (Layout R) Unit) : Prop :=
  ∀ l, (m l).2.normalW = l.normalW ∧ (m l).2.normalGain = l.normalGain

theorem KeepsNrm.bind {α : Type} {m : Exec (Layout R) α} {f : α → Exec (Layout R) Unit}
    (hm : ∀ l, (m l).2.normalW = l.normalW ∧ (m l).2.normalGain = l.normalGain)
    (hf : ∀ a, KeepsNrm (f a)) : KeepsNrm (m >>= f) := by
  intro l
  have h1 := hm l
  rw [bind_def]
  revert h1
  rcases m l with ⟨r, l1⟩
  cases r <;> simp only <;> intro h1
  · have h2 := hf ‹_› l1
    exact ⟨h2.1.trans h1.1, h2.2.trans h1.2⟩
  · exact h1
  · exact h1

theorem KeepsNrm.loop {body : Nat → Exec (Layout R) Unit} (n : Nat) (h : ∀ i, KeepsNrm (body i)) :
    KeepsNrm (Exec.loop n body) := by
  induction n with
  | zero => exact fun l => ⟨rfl, rfl⟩
  | succ n ih => exact KeepsNrm.bind (m := Exec.loop n body) ih fun _ => h n

theorem keepsNrm_throwIf (b : Bool) (e : Err) : KeepsNrm (R := R) (Exec.throwIf b e) := by
  intro l; cases b <;> exact ⟨rfl, rfl⟩

theorem keepsNrm_lift {α : Type} (r : Res α) (l : Layout R) :
    ((Exec.lift r : Exec (Layout R) α) l).2.normalW = l.normalW ∧
      ((Exec.lift r : Exec (Layout R) α) l).2.normalGain = l.normalGain := by
  rw [lift_def]; exact ⟨rfl, rfl⟩

theorem keepsNrm_write (i : Nat) (pr : PoleZeroPair R) : KeepsNrm (Layout.write i pr) := by
  intro l; unfold Layout.write; split_ifs <;> exact ⟨rfl, rfl⟩

theorem keepsNrm_addConj (p z : Cx R) : KeepsNrm (Layout.addPoleZeroConjugatePairs p z) := by
  refine KeepsNrm.bind (fun _ => ⟨rfl, rfl⟩) fun l => KeepsNrm.bind (keepsNrm_throwIf _ _) fun _ =>
    KeepsNrm.bind (keepsNrm_throwIf _ _) fun _ => KeepsNrm.bind (keepsNrm_throwIf _ _) fun _ =>
    KeepsNrm.bind (keepsNrm_write _ _) fun _ => fun _ => ⟨rfl, rfl⟩

theorem keepsNrm_add (p z : Cx R) : KeepsNrm (Layout.add p z) := by
  refine KeepsNrm.bind (fun _ => ⟨rfl, rfl⟩) fun l => KeepsNrm.bind (keepsNrm_throwIf _ _) fun _ =>
    KeepsNrm.bind (keepsNrm_throwIf _ _) fun _ => KeepsNrm.bind (keepsNrm_throwIf _ _) fun _ =>
    KeepsNrm.bind (keepsNrm_lift _) fun _ =>
    KeepsNrm.bind (keepsNrm_write _ _) fun _ => fun _ => ⟨rfl, rfl⟩

theorem keepsNrm_intChecked (i : Int) (l : Layout R) :
    ((intChecked i : Exec (Layout R) Int) l).2.normalW = l.normalW ∧
      ((intChecked i : Exec (Layout R) Int) l).2.normalGain = l.normalGain := by
  unfold intChecked; split_ifs <;> exact ⟨rfl, rfl⟩

theorem keepsNrm_oddTail (o : Int) (p z : Cx R) :
    KeepsNrm (if o % 2 == 1 then Layout.add p z else Exec.pure ()) := by
  split_ifs
  · exact keepsNrm_add p z
  · exact fun _ => ⟨rfl, rfl⟩

theorem Butterworth.keepsNrm_lowPass (o : Int) : KeepsNrm (R := R) (Butterworth.lowPassBuild o) := by
  refine KeepsNrm.bind (fun _ => ⟨rfl, rfl⟩) fun _ => KeepsNrm.bind (keepsNrm_intChecked _) fun _ =>
    KeepsNrm.bind (KeepsNrm.loop _ fun i => ?_) fun _ => keepsNrm_oddTail _ _ _
  exact KeepsNrm.bind (keepsNrm_lift _) fun _ => keepsNrm_addConj _ _

theorem Butterworth.keepsNrm_lowShelf (o : Int) (g : R) :
    KeepsNrm (Butterworth.lowShelfBuild o g) := by
  refine KeepsNrm.bind (fun _ => ⟨rfl, rfl⟩) fun _ => KeepsNrm.bind (keepsNrm_intChecked _) fun _ =>
    KeepsNrm.bind (KeepsNrm.loop _ fun i => ?_) fun _ => keepsNrm_oddTail _ _ _
  exact KeepsNrm.bind (keepsNrm_lift _) fun _ => KeepsNrm.bind (keepsNrm_lift _) fun _ =>
    keepsNrm_addConj _ _

theorem ChebyshevI.keepsNrm_lowShelf (o : Int) (g r : R) :
    KeepsNrm (ChebyshevI.lowShelfBuild o g r) := by
  exact KeepsNrm.bind (fun _ => ⟨rfl, rfl⟩) fun _ => KeepsNrm.bind (keepsNrm_intChecked _) fun _ =>
    KeepsNrm.bind (KeepsNrm.loop _ fun i => keepsNrm_addConj _ _) fun _ => keepsNrm_oddTail _ _ _

theorem ChebyshevII.keepsNrm_lowPass (o : Int) (r : R) :
    KeepsNrm (ChebyshevII.lowPassBuild o r) := by
  exact KeepsNrm.bind (fun _ => ⟨rfl, rfl⟩) fun _ => KeepsNrm.bind (keepsNrm_intChecked _) fun _ =>
    KeepsNrm.bind (KeepsNrm.loop _ fun i => keepsNrm_addConj _ _) fun _ => keepsNrm_oddTail _ _ _

theorem ChebyshevII.keepsNrm_lowShelf (o : Int) (g r : R) :
    KeepsNrm (ChebyshevII.lowShelfBuild o g r) := by
  exact KeepsNrm.bind (fun _ => ⟨rfl, rfl⟩) fun _ => KeepsNrm.bind (keepsNrm_intChecked _) fun _ =>
    KeepsNrm.bind (KeepsNrm.loop _ fun i => keepsNrm_addConj _ _) fun _ => keepsNrm_oddTail _ _ _

end nrm

end Iir
