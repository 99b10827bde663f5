import Verif.Spec.Client
import Verif.Lemmas.Exec

/-! # Array bounds: which indices the design code uses -/

set_option linter.unusedSectionVars false

namespace Iir
open FArith Cx Exec

variable {R : Type} [FArith R]

/-- `k` poles stored in an array of `L` pairs. -/
def Layout.Has (k L : Nat) (l : Layout R) : Prop := l.numPoles = k ∧ l.pairs.length = L

/-- at most `k` poles stored in an array of `L` pairs -/
def Layout.AtMost (k L : Nat) (l : Layout R) : Prop := l.numPoles ≤ k ∧ l.pairs.length = L

theorem Layout.Has.atMost {k k' L : Nat} {l : Layout R} (h : l.Has k L) (hk : k ≤ k') :
    l.AtMost k' L := ⟨h.1 ▸ hk, h.2⟩

section layout
variable {U : UB → Prop}

theorem Layout.trip_reset {k L : Nat} {E : Err → Layout R → Prop} :
    Trip (Layout.AtMost k L) Layout.reset (fun _ => Layout.Has 0 L) E U :=
  Trip.modify fun _ h => ⟨rfl, h.2⟩

theorem Layout.trip_setNormal {k L : Nat} {w g : R} {E : Err → Layout R → Prop} :
    Trip (Layout.Has k L) (Layout.setNormal w g) (fun _ => Layout.Has k L) E U :=
  Trip.modify fun _ h => h

theorem Layout.trip_setNormal' {k L : Nat} {w g : R} {E : Err → Layout R → Prop} :
    Trip (Layout.AtMost k L) (Layout.setNormal w g) (fun _ => Layout.AtMost k L) E U :=
  Trip.modify fun _ h => h

theorem Layout.trip_write {k L i : Nat} {pr : PoleZeroPair R} (hi : i < L)
    {E : Err → Layout R → Prop} :
    Trip (Layout.Has k L) (Layout.write i pr) (fun _ => Layout.Has k L) E U := by
  intro l h
  have : i < l.pairs.length := h.2 ▸ hi
  simp only [Layout.write, this, if_true]
  exact ⟨h.1, by simpa using h.2⟩

theorem Layout.trip_addConj {k L : Nat} {p z : Cx R} (hk : k < L) :
    Trip (Layout.Has (2 * k) L) (Layout.addPoleZeroConjugatePairs p z)
      (fun _ => Layout.Has (2 * k + 2) L) (fun _ => Layout.Has (2 * k) L) U := by
  unfold Layout.addPoleZeroConjugatePairs
  refine Trip.bind (Q := fun l0 l => l0.Has (2 * k) L ∧ l.Has (2 * k) L) (Trip.get fun _ h => ⟨h, h⟩)
    fun l0 => ?_
  by_cases h0 : l0.Has (2 * k) L
  swap
  · exact fun s hs => (h0 hs.1).elim
  refine Trip.pre (P := Layout.Has (2 * k) L) ?_ fun _ h => h.2
  refine Trip.bind (Trip.throwIf (Q := fun _ => Layout.Has (2 * k) L) (fun _ h _ => h) fun _ h _ => h)
    fun _ => ?_
  refine Trip.bind (Trip.throwIf (Q := fun _ => Layout.Has (2 * k) L) (fun _ h _ => h) fun _ h _ => h)
    fun _ => ?_
  refine Trip.bind (Trip.throwIf (Q := fun _ => Layout.Has (2 * k) L) (fun _ h _ => h) fun _ h _ => h)
    fun _ => ?_
  have e : l0.numPoles / 2 = k := by rw [h0.1]; omega
  rw [e]
  exact Trip.bind (Layout.trip_write hk) fun _ => Trip.modify fun l h => ⟨by simp [h.1], h.2⟩

theorem Layout.trip_addPair {k L : Nat} {p z : ComplexPair R} (hk : k < L) :
    Trip (Layout.Has (2 * k) L) (Layout.addPair p z)
      (fun _ => Layout.Has (2 * k + 2) L) (fun _ => Layout.Has (2 * k) L) U := by
  unfold Layout.addPair
  refine Trip.bind (Q := fun l0 l => l0.Has (2 * k) L ∧ l.Has (2 * k) L) (Trip.get fun _ h => ⟨h, h⟩)
    fun l0 => ?_
  by_cases h0 : l0.Has (2 * k) L
  swap
  · exact fun s hs => (h0 hs.1).elim
  refine Trip.pre (P := Layout.Has (2 * k) L) ?_ fun _ h => h.2
  refine Trip.bind (Trip.throwIf (Q := fun _ => Layout.Has (2 * k) L) (fun _ h _ => h) fun _ h _ => h)
    fun _ => ?_
  refine Trip.bind (Trip.throwIf (Q := fun _ => Layout.Has (2 * k) L) (fun _ h _ => h) fun _ h _ => h)
    fun _ => ?_
  refine Trip.bind (Trip.throwIf (Q := fun _ => Layout.Has (2 * k) L) (fun _ h _ => h) fun _ h _ => h)
    fun _ => ?_
  have e : l0.numPoles / 2 = k := by rw [h0.1]; omega
  rw [e]
  exact Trip.bind (Layout.trip_write hk) fun _ => Trip.modify fun l h => ⟨by simp [h.1], h.2⟩

/-- `PoleZeroPair (p, z)` throws or returns. -/
theorem PoleZeroPair.single_not_ub (p z : Cx R) (u : UB) : PoleZeroPair.single p z ≠ .ub u := by
  unfold PoleZeroPair.single ComplexPair.single
  simp only [Bind.bind, Res.bind]
  split_ifs <;> simp

theorem Layout.trip_add {k L : Nat} {p z : Cx R} (hk : k < L) :
    Trip (Layout.Has (2 * k) L) (Layout.add p z)
      (fun _ => Layout.Has (2 * k + 1) L) (fun _ => Layout.Has (2 * k) L) U := by
  unfold Layout.add
  refine Trip.bind (Q := fun l0 l => l0.Has (2 * k) L ∧ l.Has (2 * k) L) (Trip.get fun _ h => ⟨h, h⟩)
    fun l0 => ?_
  by_cases h0 : l0.Has (2 * k) L
  swap
  · exact fun s hs => (h0 hs.1).elim
  refine Trip.pre (P := Layout.Has (2 * k) L) ?_ fun _ h => h.2
  refine Trip.bind (Trip.throwIf (Q := fun _ => Layout.Has (2 * k) L) (fun _ h _ => h) fun _ h _ => h)
    fun _ => ?_
  refine Trip.bind (Trip.throwIf (Q := fun _ => Layout.Has (2 * k) L) (fun _ h _ => h) fun _ h _ => h)
    fun _ => ?_
  refine Trip.bind (Trip.throwIf (Q := fun _ => Layout.Has (2 * k) L) (fun _ h _ => h) fun _ h _ => h)
    fun _ => ?_
  refine Trip.bind (Trip.lift (Q := fun _ => Layout.Has (2 * k) L) fun s hs => ?_) fun pr => ?_
  · have := PoleZeroPair.single_not_ub p z
    revert this
    cases PoleZeroPair.single p z <;> intro h
    · exact hs
    · exact hs
    · exact (h _ rfl).elim
  have e : l0.numPoles / 2 = k := by rw [h0.1]; omega
  rw [e]
  exact Trip.bind (Layout.trip_write hk) fun _ => Trip.modify fun l h => ⟨by simp [h.1], h.2⟩

/-- Reading a stored pair is in bounds. -/
theorem Layout.getPair_ok {l : Layout R} {N i : Nat} (h : l.AtMost N ((N + 1) / 2))
    (hi : i < (l.numPoles + 1) / 2) : ∃ pr, l.getPair i = .ok pr ∧ l.pairs[i]? = some pr := by
  have hN : (l.numPoles + 1) / 2 ≤ (N + 1) / 2 := Nat.div_le_div_right (Nat.succ_le_succ h.1)
  have hl : i < l.pairs.length := by rw [h.2]; omega
  refine ⟨l.pairs[i], ?_, by simp [hl]⟩
  have : ¬ ((i : Int) < 0 || (i : Int) ≥ ((l.numPoles + 1) / 2 : Nat)) := by
    simp; omega
  unfold Layout.getPair
  rw [if_neg this]
  simp [hl]

/-- a triple in a context where a stateless call is known to return -/
theorem Exec.Trip.lift_ok {σ α : Type} {r : Res α} {a : α} (h : r = .ok a) {P : σ → Prop}
    {E : Err → σ → Prop} : Trip P (Exec.lift r) (fun b s => b = a ∧ P s) E U := by
  subst h; exact Trip.lift fun s hs => ⟨rfl, hs⟩

end layout

/-! ## Transforms -/

section transforms
variable {U : UB → Prop}

theorem trip_checkFreq {P : Layout R → Prop} {fc : R} :
    Trip P (checkFreq fc) (fun _ => P) (fun _ => P) U := by
  unfold checkFreq
  exact Trip.bind (Trip.throwIf (Q := fun _ => P) (fun _ h _ => h) fun _ h _ => h) fun _ =>
    Trip.throwIf (fun _ h _ => h) fun _ h _ => h

theorem trip_mapLayout {tr : Cx R → Cx R} {a : Layout R} {N L : Nat}
    (ha : a.AtMost N ((N + 1) / 2)) (hL : (N + 1) / 2 ≤ L) :
    Trip (Layout.Has 0 L) (mapLayout tr a) (fun _ => Layout.Has a.numPoles L)
      (fun _ => Layout.AtMost N L) U := by
  have haN : a.numPoles ≤ N := ha.1
  unfold mapLayout
  refine Trip.bind (Q := fun _ => Layout.Has (2 * (a.numPoles / 2)) L) ?_ fun _ => ?_
  · refine Trip.loop (I := fun i => Layout.Has (2 * i) L) _ fun i hi => ?_
    obtain ⟨pr, hpr, _⟩ := Layout.getPair_ok ha (i := i) (by omega)
    refine Trip.bind (Trip.lift_ok hpr) fun pr' => ?_
    refine ((Layout.trip_addConj (p := tr pr'.poles.first) (z := tr pr'.zeros.first)
      (by omega : i < L)).pre fun _ h => h.2).mono (fun _ h => h) (fun _ _ h => h)
      (fun _ _ h => h.atMost (by omega)) fun _ h => h
  · split_ifs with ho
    · obtain ⟨pr, hpr, _⟩ := Layout.getPair_ok ha (i := a.numPoles / 2)
        (by simp at ho; omega)
      refine Trip.bind (Trip.lift_ok hpr) fun pr' => ?_
      refine ((Layout.trip_add (p := tr pr'.poles.first) (z := tr pr'.zeros.first)
        (k := a.numPoles / 2) (L := L) (by simp at ho; omega)).pre fun _ h => h.2).mono
        (fun _ h => h) (fun _ l h => ?_) (fun _ _ h => h.atMost (by omega)) fun _ h => h
      have : 2 * (a.numPoles / 2) + 1 = a.numPoles := by simp at ho; omega
      rwa [this] at h
    · refine Trip.pure fun l h => ?_
      have : 2 * (a.numPoles / 2) = a.numPoles := by simp at ho; omega
      rwa [this] at h

theorem trip_lowPassTransform {fc : R} {a : Layout R} {N L : Nat}
    (ha : a.AtMost N ((N + 1) / 2)) (hL : (N + 1) / 2 ≤ L) :
    Trip (Layout.AtMost N L) (lowPassTransform fc a) (fun _ => Layout.Has a.numPoles L)
      (fun _ => Layout.AtMost N L) U := by
  unfold lowPassTransform
  exact Trip.bind trip_checkFreq fun _ => Trip.bind Layout.trip_reset fun _ =>
    Trip.bind (trip_mapLayout ha hL) fun _ => Layout.trip_setNormal

theorem trip_highPassTransform {fc : R} {a : Layout R} {N L : Nat}
    (ha : a.AtMost N ((N + 1) / 2)) (hL : (N + 1) / 2 ≤ L) :
    Trip (Layout.AtMost N L) (highPassTransform fc a) (fun _ => Layout.Has a.numPoles L)
      (fun _ => Layout.AtMost N L) U := by
  unfold highPassTransform
  exact Trip.bind trip_checkFreq fun _ => Trip.bind Layout.trip_reset fun _ =>
    Trip.bind (trip_mapLayout ha hL) fun _ => Layout.trip_setNormal

theorem trip_bpLayout {x y : R} {a : Layout R} {N L : Nat}
    (ha : a.AtMost N ((N + 1) / 2)) (hL : N ≤ L) :
    Trip (Layout.Has 0 L) (bpLayout x y a)
      (fun _ => Layout.Has (a.numPoles * 2) L) (fun _ => Layout.AtMost (N * 2) L) U := by
  have haN : a.numPoles ≤ N := ha.1
  unfold bpLayout
  refine Trip.bind (Q := fun _ => Layout.Has (4 * (a.numPoles / 2)) L) ?_ fun _ => ?_
  · refine Trip.loop (I := fun i => Layout.Has (4 * i) L) _ fun i hi => ?_
    obtain ⟨pr, hpr, _⟩ := Layout.getPair_ok ha (i := i) (by omega)
    refine Trip.bind (Trip.lift_ok hpr) fun pr' => ?_
    refine Trip.pre ?_ fun _ h => h.2
    refine Trip.bind (Q := fun _ => Layout.Has (2 * (2 * i + 1)) L)
      ((Layout.trip_addConj (k := 2 * i) (by omega)).mono (fun l h => ?_) (fun _ _ h => ?_)
        (fun _ _ h => h.atMost (by omega)) fun _ h => h) fun _ => ?_
    · rw [show 2 * (2 * i) = 4 * i by omega]; exact h
    · rw [show 2 * (2 * i + 1) = 2 * (2 * i) + 2 by omega]; exact h
    · refine ((Layout.trip_addConj (k := 2 * i + 1) (by omega)).mono (fun _ h => h) (fun _ _ h => ?_)
        (fun _ _ h => h.atMost (by omega)) fun _ h => h)
      rw [show 4 * (i + 1) = 2 * (2 * i + 1) + 2 by omega]; exact h
  split_ifs with ho
  · obtain ⟨pr, hpr, _⟩ := Layout.getPair_ok ha (i := a.numPoles / 2)
      (by simp at ho; omega)
    refine Trip.bind (Trip.lift_ok hpr) fun pr' => ?_
    refine ((Layout.trip_addPair
      (k := 2 * (a.numPoles / 2)) (L := L) (by simp at ho; omega))).mono
      (fun l h => ?_) (fun _ l h => ?_) (fun _ _ h => h.atMost (by omega)) fun _ h => h
    · rw [show 2 * (2 * (a.numPoles / 2)) = 4 * (a.numPoles / 2) by omega]; exact h.2
    · rw [show a.numPoles * 2 = 2 * (2 * (a.numPoles / 2)) + 2 by simp at ho; omega]; exact h
  · refine Trip.pure fun l h => ?_
    rw [show a.numPoles * 2 = 4 * (a.numPoles / 2) by simp at ho; omega]; exact h

theorem trip_bsLayout {x y : R} {a : Layout R} {N L : Nat}
    (ha : a.AtMost N ((N + 1) / 2)) (hL : N ≤ L) :
    Trip (Layout.Has 0 L) (bsLayout x y a)
      (fun _ => Layout.Has (a.numPoles * 2) L) (fun _ => Layout.AtMost (N * 2) L) U := by
  have haN : a.numPoles ≤ N := ha.1
  unfold bsLayout
  refine Trip.bind (Q := fun _ => Layout.Has (4 * (a.numPoles / 2)) L) ?_ fun _ => ?_
  · refine Trip.loop (I := fun i => Layout.Has (4 * i) L) _ fun i hi => ?_
    obtain ⟨pr, hpr, _⟩ := Layout.getPair_ok ha (i := i) (by omega)
    refine Trip.bind (Trip.lift_ok hpr) fun pr' => ?_
    refine Trip.pre ?_ fun _ h => h.2
    refine Trip.bind (Q := fun _ => Layout.Has (2 * (2 * i + 1)) L)
      ((Layout.trip_addConj (k := 2 * i) (by omega)).mono (fun l h => ?_) (fun _ _ h => ?_)
        (fun _ _ h => h.atMost (by omega)) fun _ h => h) fun _ => ?_
    · rw [show 2 * (2 * i) = 4 * i by omega]; exact h
    · rw [show 2 * (2 * i + 1) = 2 * (2 * i) + 2 by omega]; exact h
    · refine ((Layout.trip_addConj (k := 2 * i + 1) (by omega)).mono (fun _ h => h) (fun _ _ h => ?_)
        (fun _ _ h => h.atMost (by omega)) fun _ h => h)
      rw [show 4 * (i + 1) = 2 * (2 * i + 1) + 2 by omega]; exact h
  split_ifs with ho
  · obtain ⟨pr, hpr, _⟩ := Layout.getPair_ok ha (i := a.numPoles / 2)
      (by simp at ho; omega)
    refine Trip.bind (Trip.lift_ok hpr) fun pr' => ?_
    refine ((Layout.trip_addPair
      (k := 2 * (a.numPoles / 2)) (L := L) (by simp at ho; omega))).mono
      (fun l h => ?_) (fun _ l h => ?_) (fun _ _ h => h.atMost (by omega)) fun _ h => h
    · rw [show 2 * (2 * (a.numPoles / 2)) = 4 * (a.numPoles / 2) by omega]; exact h.2
    · rw [show a.numPoles * 2 = 2 * (2 * (a.numPoles / 2)) + 2 by simp at ho; omega]; exact h
  · refine Trip.pure fun l h => ?_
    rw [show a.numPoles * 2 = 4 * (a.numPoles / 2) by simp at ho; omega]; exact h

theorem trip_bandPassTransform {fc fw : R} {a : Layout R} {N L : Nat}
    (ha : a.AtMost N ((N + 1) / 2)) (hL : N ≤ L) :
    Trip (Layout.AtMost (N * 2) L) (bandPassTransform fc fw a)
      (fun _ => Layout.Has (a.numPoles * 2) L) (fun _ => Layout.AtMost (N * 2) L) U := by
  unfold bandPassTransform
  refine Trip.bind trip_checkFreq fun _ => Trip.bind Layout.trip_reset fun _ => ?_
  refine Trip.bind (trip_bpLayout ha hL) fun _ => ?_
  exact Layout.trip_setNormal

theorem trip_bandStopTransform {fc fw : R} {a : Layout R} {N L : Nat}
    (ha : a.AtMost N ((N + 1) / 2)) (hL : N ≤ L) :
    Trip (Layout.AtMost (N * 2) L) (bandStopTransform fc fw a)
      (fun _ => Layout.Has (a.numPoles * 2) L) (fun _ => Layout.AtMost (N * 2) L) U := by
  unfold bandStopTransform
  refine Trip.bind trip_checkFreq fun _ => Trip.bind Layout.trip_reset fun _ => ?_
  refine Trip.bind (trip_bsLayout ha hL) fun _ => ?_
  split_ifs <;> exact Layout.trip_setNormal

end transforms

/-! ## Prototypes -/

/-- Number of poles the `design` functions store for a requested order: the order itself if it is
not negative, else its parity. -/
def builtPoles (order : Int) : Nat := if order < 0 then (order % 2).toNat else order.toNat

/-- Undefined behaviour that is not excluded by the bounds argument: a failed precondition of
`std::polar` (depends on the arithmetic) called with a modulus in `A`, and `2 * order` overflowing for hugely
negative orders. -/
def DesignUB {R : Type} [FArith R] (A : R → Prop) (order : Int) (u : UB) : Prop :=
  (u = .polarPrecondition ∧ ∃ rho theta : R, A rho ∧ FArith.polar rho theta = none) ∨
    (u = .intOverflow ∧ order < -1073741824)

theorem builtPoles_of_nonneg {order : Int} (h : 0 ≤ order) : builtPoles order = order.toNat := by
  unfold builtPoles; rw [if_neg (by omega)]

theorem builtPoles_le {order : Int} {n : Nat} (h : order ≤ n) (hn : 1 ≤ n) :
    builtPoles order ≤ n := by
  unfold builtPoles; split_ifs <;> omega

theorem builtPoles_even {order : Int} (h : order % 2 ≠ 1) :
    builtPoles order = 2 * (order.tdiv 2).toNat := by
  have := Int.emod_two_eq order
  unfold builtPoles
  split_ifs with h0
  · have : (order.tdiv 2).toNat = 0 := by
      have h1 : 0 ≤ (-order).tdiv 2 := Int.tdiv_nonneg (by omega) (by omega)
      rw [Int.neg_tdiv] at h1
      omega
    omega
  · rw [Int.tdiv_eq_ediv_of_nonneg (by omega)]; omega

theorem builtPoles_odd {order : Int} (h : order % 2 = 1) :
    builtPoles order = 2 * (order.tdiv 2).toNat + 1 := by
  unfold builtPoles
  split_ifs with h0
  · have : (order.tdiv 2).toNat = 0 := by
      have h1 : 0 ≤ (-order).tdiv 2 := Int.tdiv_nonneg (by omega) (by omega)
      rw [Int.neg_tdiv] at h1
      omega
    omega
  · rw [Int.tdiv_eq_ediv_of_nonneg (by omega)]; omega

section builds
variable {order : Int} {n : Nat} {A : R → Prop}

theorem trip_intChecked {P : Layout R → Prop} {E : Err → Layout R → Prop} {k : Int}
    (hn : n < 1073741824) (ho : order ≤ n) (hk : k = 2 * order) :
    Trip P (intChecked k) (fun i l => i = k ∧ P l) E (DesignUB A order) := by
  unfold intChecked
  split_ifs with h
  · exact Trip.pure fun l hl => ⟨rfl, hl⟩
  · exact fun l hl => .inr ⟨rfl, by omega⟩

theorem trip_polarC {P : Layout R → Prop} {E : Err → Layout R → Prop} {x y : R} (hx : A x) :
    Trip P (Exec.lift (polarC x y)) (fun _ => P) E (DesignUB A order) := by
  refine Trip.lift fun l hl => ?_
  unfold polarC
  cases hxy : FArith.polar x y
  · exact .inl ⟨rfl, x, y, hx, hxy⟩
  · exact hl

/-- The loop over the pole pairs of a prototype. -/
theorem trip_pairsLoop (ho : order ≤ n) (hn1 : 1 ≤ n) {body : Nat → Exec (Layout R) Unit}
    (h : ∀ k, k < (n + 1) / 2 → 2 ≤ order → Trip (Layout.Has (2 * k) ((n + 1) / 2)) (body k)
      (fun _ => Layout.Has (2 * k + 2) ((n + 1) / 2)) (fun _ => Layout.AtMost n ((n + 1) / 2))
      (DesignUB A order)) :
    Trip (Layout.Has 0 ((n + 1) / 2)) (Exec.loop (order.tdiv 2).toNat body)
      (fun _ => Layout.Has (2 * (order.tdiv 2).toNat) ((n + 1) / 2))
      (fun _ => Layout.AtMost n ((n + 1) / 2)) (DesignUB A order) := by
  refine Trip.loop (I := fun i => Layout.Has (2 * i) ((n + 1) / 2)) _ fun i hi => ?_
  have hb : 2 * (order.tdiv 2).toNat ≤ n := by
    have h1 := builtPoles_le ho hn1
    rcases Int.emod_two_eq order with h2 | h2
    · rw [builtPoles_even (by omega)] at h1; omega
    · rw [builtPoles_odd h2] at h1; omega
  exact h i (by omega) (by
    by_contra hlt
    have : (order.tdiv 2).toNat = 0 := by
      by_cases h0 : order < 0
      · have h1 : 0 ≤ (-order).tdiv 2 := Int.tdiv_nonneg (by omega) (by omega)
        rw [Int.neg_tdiv] at h1; omega
      · rw [Int.tdiv_eq_ediv_of_nonneg (by omega)]; omega
    omega)

/-- The odd pole of a prototype. -/
theorem trip_oddTail (ho : order ≤ n) (hn1 : 1 ≤ n) {p z : Cx R} :
    Trip (Layout.Has (2 * (order.tdiv 2).toNat) ((n + 1) / 2))
      (if order % 2 == 1 then Layout.add p z else Exec.pure ())
      (fun _ => Layout.Has (builtPoles order) ((n + 1) / 2))
      (fun _ => Layout.AtMost n ((n + 1) / 2)) (DesignUB A order) := by
  have h1 := builtPoles_le ho hn1
  split_ifs with h2
  · simp only [beq_iff_eq] at h2
    rw [builtPoles_odd h2] at h1 ⊢
    exact (Layout.trip_add (by omega)).mono (fun _ h => h) (fun _ _ h => h)
      (fun _ _ h => h.atMost (by omega)) fun _ h => h
  · simp only [beq_iff_eq] at h2
    rw [builtPoles_even h2]
    exact Trip.pure fun _ h => h

theorem Layout.trip_addConj_build (n : Nat) {p z : Cx R} {k : Nat} (hk : k < (n + 1) / 2) :
    Trip (Layout.Has (2 * k) ((n + 1) / 2)) (Layout.addPoleZeroConjugatePairs p z)
      (fun _ => Layout.Has (2 * k + 2) ((n + 1) / 2)) (fun _ => Layout.AtMost n ((n + 1) / 2))
      (DesignUB A order) :=
  (Layout.trip_addConj hk).mono (fun _ h => h) (fun _ _ h => h)
      (fun _ _ h => h.atMost (by omega)) fun _ h => h

/-- What every prototype construction guarantees. -/
def GoodBuild (A : R → Prop) (n : Nat) (order : Int) (build : Exec (Layout R) Unit) : Prop :=
  Trip (Layout.AtMost n ((n + 1) / 2)) build (fun _ => Layout.Has (builtPoles order) ((n + 1) / 2))
    (fun _ => Layout.AtMost n ((n + 1) / 2)) (DesignUB A order)

variable (hn1 : 1 ≤ n) (hn : n < 1073741824) (ho : order ≤ n)
include hn1 hn ho

theorem Butterworth.good_lowPass : GoodBuild (R := R) (· = 1) n order (Butterworth.lowPassBuild order) := by
  unfold GoodBuild Butterworth.lowPassBuild
  refine Trip.bind Layout.trip_reset fun _ => Trip.bind (trip_intChecked hn ho rfl) fun i => ?_
  refine Trip.bind ((trip_pairsLoop ho hn1 fun k hk ho2 => ?_).pre fun _ h => h.2) fun _ =>
    trip_oddTail ho hn1
  exact Trip.bind (trip_polarC rfl) fun _ => Layout.trip_addConj_build n hk

theorem Butterworth.good_lowShelf (g : R) :
    GoodBuild (fun rho => rho = 1 ∨ Spec.ShelfModulus order g rho) n order (Butterworth.lowShelfBuild order g) := by
  unfold GoodBuild Butterworth.lowShelfBuild
  refine Trip.bind Layout.trip_reset fun _ =>
    Trip.bind (trip_intChecked hn ho (by omega)) fun i => ?_
  by_cases hi : i = order * 2
  swap
  · exact fun l hl => (hi hl.1).elim
  subst hi
  refine Trip.bind ((trip_pairsLoop ho hn1 fun k hk ho2 => ?_).pre fun _ h => h.2) fun _ =>
    trip_oddTail ho hn1
  exact Trip.bind (trip_polarC (.inr ⟨ho2, .inl rfl⟩)) fun _ =>
    Trip.bind (trip_polarC (.inr ⟨ho2, .inr rfl⟩)) fun _ => Layout.trip_addConj_build n hk

theorem ChebyshevI.good_lowPass (r : R) :
    GoodBuild (R := R) (· = 1) n order (ChebyshevI.lowPassBuild order r) := by
  unfold GoodBuild ChebyshevI.lowPassBuild
  refine Trip.bind Layout.trip_reset fun _ =>
    Trip.bind (trip_intChecked hn ho rfl) fun i => ?_
  refine Trip.bind ((trip_pairsLoop ho hn1 fun k hk _ => Layout.trip_addConj_build n hk).pre
    fun _ h => h.2) fun _ => ?_
  have := fun p z => trip_oddTail (R := R) (A := (· = 1)) (p := p) (z := z) ho hn1
  split_ifs with h2
  · exact Trip.bind (by simpa [h2] using this _ _) fun _ => Layout.trip_setNormal
  · have h3 := builtPoles_even (order := order) (by simpa using h2)
    rw [h3]
    exact Layout.trip_setNormal

theorem ChebyshevI.good_lowShelf (g r : R) :
    GoodBuild (R := R) (· = 1) n order (ChebyshevI.lowShelfBuild order g r) := by
  unfold GoodBuild ChebyshevI.lowShelfBuild
  refine Trip.bind Layout.trip_reset fun _ =>
    Trip.bind (trip_intChecked hn ho rfl) fun i => ?_
  exact Trip.bind ((trip_pairsLoop ho hn1 fun k hk _ => Layout.trip_addConj_build n hk).pre
    fun _ h => h.2) fun _ => trip_oddTail ho hn1

theorem ChebyshevII.good_lowPass (r : R) :
    GoodBuild (R := R) (· = 1) n order (ChebyshevII.lowPassBuild order r) := by
  unfold GoodBuild ChebyshevII.lowPassBuild
  refine Trip.bind Layout.trip_reset fun _ =>
    Trip.bind (trip_intChecked hn ho rfl) fun i => ?_
  exact Trip.bind ((trip_pairsLoop ho hn1 fun k hk _ => Layout.trip_addConj_build n hk).pre
    fun _ h => h.2) fun _ => trip_oddTail ho hn1

theorem ChebyshevII.good_lowShelf (g r : R) :
    GoodBuild (R := R) (· = 1) n order (ChebyshevII.lowShelfBuild order g r) := by
  unfold GoodBuild ChebyshevII.lowShelfBuild
  refine Trip.bind Layout.trip_reset fun _ =>
    Trip.bind (trip_intChecked hn ho rfl) fun i => ?_
  exact Trip.bind ((trip_pairsLoop ho hn1 fun k hk _ => Layout.trip_addConj_build n hk).pre
    fun _ h => h.2) fun _ => trip_oddTail ho hn1

end builds

end Iir
