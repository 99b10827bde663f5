import Verif.Exact.Pair
import Verif.Math.Products
import Verif.Lemmas.Setup

/-! # The analog prototypes in exact arithmetic -/

namespace Iir
open FArith Cx Exec Spec XR

noncomputable section

/-- A root in the extended s plane (`none`: at infinity) as the library stores it. -/
def rootX : Option ℂ → Cx XR
  | none => Cx.infinity
  | some z => ofC z

def conjO : Option ℂ → Option ℂ := Option.map (starRingEnd ℂ)

@[simp] theorem conjO_some (z : ℂ) : conjO (some z) = some (starRingEnd ℂ z) := rfl
@[simp] theorem conjO_none : conjO none = none := rfl
@[simp] theorem rootX_some (z : ℂ) : rootX (some z) = ofC z := rfl
@[simp] theorem rootX_none : rootX none = Cx.infinity := rfl

theorem conj_infinity : conj (Cx.infinity : Cx XR) = Cx.infinity := by
  simp [Cx.conj, Cx.infinity, Cx.ofR]

theorem conj_rootX (r : Option ℂ) : conj (rootX r) = rootX (conjO r) := by
  cases r with
  | none => exact conj_infinity
  | some z => simp

@[simp] theorem isNan_rootX (r : Option ℂ) : (rootX r).isNan = false := by
  cases r <;> simp

/-- An analog filter: poles and zeros, number `k` and number `n - 1 - k` conjugate. -/
structure Analog where
  n : ℕ
  pole : ℕ → ℂ
  zero : ℕ → Option ℂ

namespace Analog

structure Sym (A : Analog) : Prop where
  pole : ∀ k < A.n, A.pole (A.n - 1 - k) = starRingEnd ℂ (A.pole k)
  zero : ∀ k < A.n, A.zero (A.n - 1 - k) = conjO (A.zero k)

/-- What the library stores for it: the pairs, then the real pole if there is one. -/
def stored (A : Analog) : List (PoleZeroPair XR) :=
  (List.range (A.n / 2)).map (fun k => ⟨⟨ofC (A.pole k), ofC (starRingEnd ℂ (A.pole k))⟩,
    ⟨rootX (A.zero k), rootX (conjO (A.zero k))⟩⟩) ++
  if A.n % 2 = 1 then [⟨⟨ofC (A.pole (A.n / 2)), ofC 0⟩, ⟨rootX (A.zero (A.n / 2)), ofC 0⟩⟩] else []

theorem stored_length (A : Analog) : A.stored.length = (A.n + 1) / 2 := by
  unfold stored; split_ifs with h <;> simp <;> omega

theorem Sym.pole_mid {A : Analog} (h : A.Sym) (ho : A.n % 2 = 1) : (A.pole (A.n / 2)).im = 0 := by
  have := h.pole (A.n / 2) (by omega)
  rw [show A.n - 1 - A.n / 2 = A.n / 2 by omega] at this
  have := congrArg Complex.im this
  simp at this; linarith

theorem Sym.zero_mid {A : Analog} (h : A.Sym) (ho : A.n % 2 = 1) :
    A.zero (A.n / 2) = none ∨ ∃ x : ℝ, A.zero (A.n / 2) = some x := by
  have := h.zero (A.n / 2) (by omega)
  rw [show A.n - 1 - A.n / 2 = A.n / 2 by omega] at this
  cases hz : A.zero (A.n / 2) with
  | none => exact .inl rfl
  | some z =>
    rw [hz, conjO_some, Option.some.injEq] at this
    refine .inr ⟨z.re, congrArg some (Complex.ext rfl ?_)⟩
    have := congrArg Complex.im this
    simp at this ⊢; linarith

end Analog

/-! ## Layouts -/

/-- The layout holds these pairs for `m` poles, in an array of length `L`. -/
structure Layout.Stored (ps : List (PoleZeroPair XR)) (m L : ℕ) (w g : XR) (l : Layout XR) : Prop where
  numPoles : l.numPoles = m
  length : l.pairs.length = L
  pairs : l.pairs.take ((m + 1) / 2) = ps
  normalW : l.normalW = w
  normalGain : l.normalGain = g

theorem Layout.Stored.len {ps : List (PoleZeroPair XR)} {m L : ℕ} {w g : XR} {l : Layout XR}
    (h : l.Stored ps m L w g) (hm : (m + 1) / 2 ≤ L) : ps.length = (m + 1) / 2 := by
  rw [← h.pairs, List.length_take, h.length]; omega

/-- The call ends normally, in a state with `Q`. -/
abbrev Done {σ : Type} (P : σ → Prop) (m : Exec σ Unit) (Q : σ → Prop) : Prop :=
  Exec.Trip P m (fun _ => Q) (fun _ _ => False) (fun _ => False)

theorem Done.run {σ : Type} {P : σ → Prop} {m : Exec σ Unit} {Q : σ → Prop} (h : Done P m Q) {s : σ}
    (hs : P s) : ∃ s', m s = (.ok (), s') ∧ Q s' := by
  have := h s hs
  revert this
  rcases m s with ⟨r, s'⟩
  cases r <;> simp

theorem Done.of_run {σ : Type} {P : σ → Prop} {m : Exec σ Unit} {Q : σ → Prop}
    (h : ∀ s, P s → ∃ s', m s = (.ok (), s') ∧ Q s') : Done P m Q := by
  intro s hs
  obtain ⟨s', h1, h2⟩ := h s hs
  rw [h1]; exact h2

/-- A program that starts with a value computed without effects. -/
theorem Done.lift_ok {σ α : Type} {P : σ → Prop} {Q : σ → Prop} {r : Res α} {a : α} {f : α → Exec σ Unit}
    (hr : r = .ok a) (h : Done P (f a) Q) : Done P (Exec.lift r >>= f) Q := by
  rw [hr]; exact h

theorem Done.intChecked_ok {σ : Type} {P : σ → Prop} {Q : σ → Prop} {i : ℤ} {f : ℤ → Exec σ Unit}
    (hi : -2147483648 ≤ i ∧ i ≤ 2147483647) (h : Done P (f i) Q) : Done P (intChecked i >>= f) Q := by
  rw [intChecked, if_pos hi]; exact h

section
variable {ps : List (PoleZeroPair XR)} {m L : ℕ} {w g : XR}

theorem done_reset : Done (Layout.Stored ps m L w g) Layout.reset (Layout.Stored [] 0 L w g) :=
  Trip.modify fun _ h => ⟨rfl, h.length, rfl, h.normalW, h.normalGain⟩

theorem done_setNormal (w' g' : XR) :
    Done (Layout.Stored ps m L w g) (Layout.setNormal w' g') (Layout.Stored ps m L w' g') :=
  Trip.modify fun _ h => ⟨h.numPoles, h.length, h.pairs, rfl, rfl⟩

theorem Layout.Stored.write {l : Layout XR} (h : l.Stored ps m L w g) (hm : m % 2 = 0) (hL : m / 2 < L)
    (pr : PoleZeroPair XR) (m' : ℕ) (hm' : (m' + 1) / 2 = m / 2 + 1) :
    Layout.Stored (ps ++ [pr]) m' L w g
      { l with pairs := l.pairs.set (m / 2) pr, numPoles := m' } := by
  refine ⟨rfl, by simp [h.length], ?_, h.normalW, h.normalGain⟩
  have h1 : (m + 1) / 2 = m / 2 := by omega
  have h2 := h.pairs
  rw [h1] at h2
  have h3 : m / 2 < (l.pairs.set (m / 2) pr).length := by simp [h.length, hL]
  simp only
  rw [hm', List.take_succ_eq_append_getElem h3, List.getElem_set_self, List.take_set_of_le (Nat.le_refl _),
    h2]

theorem done_addConj {p z : Cx XR} (hp : p.isNan = false) (hz : z.isNan = false) (hm : m % 2 = 0)
    (hL : m / 2 < L) : Done (Layout.Stored ps m L w g) (Layout.addPoleZeroConjugatePairs p z)
      (Layout.Stored (ps ++ [⟨⟨p, conj p⟩, ⟨z, conj z⟩⟩]) (m + 2) L w g) := by
  refine Done.of_run fun l h => ⟨_, ?_, h.write hm hL _ (m + 2) (by omega)⟩
  have h1 : (m % 2 == 1) = false := by simp; omega
  have h2 : m / 2 < l.pairs.length := by rw [h.length]; exact hL
  simp only [Layout.addPoleZeroConjugatePairs, bind_def, get_def, h1, hp, hz, throwIf_false, Layout.write,
    if_pos h2, modify_def, h.numPoles, PoleZeroPair.double]

theorem single_ofReal {x : ℝ} : ComplexPair.single (ofC (x : ℂ)) = .ok ⟨ofC x, ofC 0⟩ := by
  simp [ComplexPair.single, ComplexPair.isReal]

theorem single_infinity : ComplexPair.single (Cx.infinity : Cx XR) = .ok ⟨Cx.infinity, ofC 0⟩ := by
  simp [ComplexPair.single, ComplexPair.isReal, Cx.infinity, Cx.ofR, ofC]

theorem done_add {p z : Cx XR} (hp : p.isNan = false) (hz : z.isNan = false)
    (hp1 : ComplexPair.single p = .ok ⟨p, ofC 0⟩) (hz1 : ComplexPair.single z = .ok ⟨z, ofC 0⟩)
    (hm : m % 2 = 0)
    (hL : m / 2 < L) : Done (Layout.Stored ps m L w g) (Layout.add p z)
      (Layout.Stored (ps ++ [⟨⟨p, ofC 0⟩, ⟨z, ofC 0⟩⟩]) (m + 1) L w g) := by
  refine Done.of_run fun l h => ⟨_, ?_, h.write hm hL _ (m + 1) (by omega)⟩
  have h1 : (m % 2 == 1) = false := by simp; omega
  have h2 : m / 2 < l.pairs.length := by rw [h.length]; exact hL
  have h3 : PoleZeroPair.single p z = .ok ⟨⟨p, ofC 0⟩, ⟨z, ofC 0⟩⟩ := by
    simp only [PoleZeroPair.single, hp1, hz1, Bind.bind, Res.bind, pure]
  simp only [Layout.add, bind_def, get_def, h1, hp, hz, throwIf_false, Layout.write, h3, Exec.lift_ok,
    if_pos h2, modify_def, h.numPoles]

theorem done_addPair {p z : ComplexPair XR} (hp : p.isMatchedPair = true) (hz : z.isMatchedPair = true)
    (hm : m % 2 = 0) (hL : m / 2 < L) : Done (Layout.Stored ps m L w g) (Layout.addPair p z)
      (Layout.Stored (ps ++ [⟨p, z⟩]) (m + 2) L w g) := by
  refine Done.of_run fun l h => ⟨_, ?_, h.write hm hL _ (m + 2) (by omega)⟩
  have h1 : (m % 2 == 1) = false := by simp; omega
  have h2 : m / 2 < l.pairs.length := by rw [h.length]; exact hL
  simp only [Layout.addPair, bind_def, get_def, h1, hp, hz, throwIf_false, Layout.write,
    if_pos h2, modify_def, h.numPoles, PoleZeroPair.double, Bool.not_true]

/-- A loop that adds one conjugate pair per round. -/
theorem done_loop {k : ℕ} {body : ℕ → Exec (Layout XR) Unit} {P Z : ℕ → Cx XR}
    (hb : ∀ i < k, body i = Layout.addPoleZeroConjugatePairs (P i) (Z i))
    (hP : ∀ i < k, (P i).isNan = false) (hZ : ∀ i < k, (Z i).isNan = false) (hL : k ≤ L) :
    Done (Layout.Stored [] 0 L w g) (Exec.loop k body)
      (Layout.Stored ((List.range k).map fun i => ⟨⟨P i, conj (P i)⟩, ⟨Z i, conj (Z i)⟩⟩) (2 * k) L w g) := by
  refine Trip.loop (I := fun i => Layout.Stored
    ((List.range i).map fun i => ⟨⟨P i, conj (P i)⟩, ⟨Z i, conj (Z i)⟩⟩) (2 * i) L w g) k fun i hi => ?_
  rw [hb i hi, List.range_succ, List.map_append, List.map_singleton]
  exact done_addConj (hP i hi) (hZ i hi) (by omega) (by omega)

end

/-! ## The shape of all builds -/

theorem tdiv_two (n : ℕ) : ((n : ℤ).tdiv 2).toNat = n / 2 := by
  rw [Int.tdiv_eq_ediv_of_nonneg (by omega)]; omega

theorem int_odd (n : ℕ) : ((n : ℤ) % 2 == 1) = decide (n % 2 = 1) := by
  by_cases h : n % 2 = 1
  · simp only [h, decide_true, beq_iff_eq]; omega
  · simp only [h, decide_false, beq_eq_false_iff_ne]; omega

/-- the conjugate pairs only -/
def Analog.storedPairs (A : Analog) : List (PoleZeroPair XR) :=
  (List.range (A.n / 2)).map (fun k => ⟨⟨ofC (A.pole k), ofC (starRingEnd ℂ (A.pole k))⟩,
    ⟨rootX (A.zero k), rootX (conjO (A.zero k))⟩⟩)

theorem Analog.done_pairs (A : Analog) {L : ℕ} (hL : (A.n + 1) / 2 ≤ L) {w g : XR}
    {body : ℕ → Exec (Layout XR) Unit}
    (hb : ∀ i < A.n / 2, body i = Layout.addPoleZeroConjugatePairs (ofC (A.pole i)) (rootX (A.zero i))) :
    Done (Layout.Stored [] 0 L w g) (Exec.loop (A.n / 2) body)
      (Layout.Stored A.storedPairs (2 * (A.n / 2)) L w g) := by
  have := done_loop (w := w) (g := g) (P := fun i => ofC (A.pole i)) (Z := fun i => rootX (A.zero i))
    hb (fun i _ => isNan_ofC _) (fun i _ => isNan_rootX _) (L := L) (by omega)
  simp only [conj_ofC, conj_rootX] at this
  exact this

theorem Analog.done_odd {A : Analog} (hA : A.Sym) {L : ℕ} (hL : (A.n + 1) / 2 ≤ L) {w g : XR}
    (h : A.n % 2 = 1) : Done (Layout.Stored A.storedPairs (2 * (A.n / 2)) L w g)
      (Layout.add (ofC (A.pole (A.n / 2))) (rootX (A.zero (A.n / 2))))
      (Layout.Stored A.stored A.n L w g) := by
  have hp := hA.pole_mid h
  have hp' : A.pole (A.n / 2) = ((A.pole (A.n / 2)).re : ℂ) := Complex.ext rfl (by simp [hp])
  have hz1 : ComplexPair.single (rootX (A.zero (A.n / 2))) = .ok ⟨rootX (A.zero (A.n / 2)), ofC 0⟩ := by
    rcases hA.zero_mid h with h' | ⟨x, h'⟩ <;> rw [h']
    · exact single_infinity
    · exact single_ofReal
  have := done_add (ps := A.storedPairs) (m := 2 * (A.n / 2)) (L := L) (w := w) (g := g)
    (isNan_ofC (A.pole (A.n / 2))) (isNan_rootX (A.zero (A.n / 2))) (by rw [hp']; exact single_ofReal) hz1
    (by omega) (by omega)
  rw [show 2 * (A.n / 2) + 1 = A.n by omega] at this
  rw [show A.stored = A.storedPairs ++
    [⟨⟨ofC (A.pole (A.n / 2)), ofC 0⟩, ⟨rootX (A.zero (A.n / 2)), ofC 0⟩⟩] by
      rw [Analog.stored, if_pos h, Analog.storedPairs]]
  exact this

theorem Analog.stored_even {A : Analog} (h : ¬A.n % 2 = 1) {L : ℕ} {w g : XR} {l : Layout XR}
    (hl : l.Stored A.storedPairs (2 * (A.n / 2)) L w g) : l.Stored A.stored A.n L w g := by
  rw [Analog.stored, if_neg h, List.append_nil]
  rwa [show 2 * (A.n / 2) = A.n by omega] at hl

/-- A loop over the pairs, then the real pole of an odd order. -/
theorem Analog.done_build {A : Analog} (hA : A.Sym) {L : ℕ} (hL : (A.n + 1) / 2 ≤ L) {w g : XR}
    {body : ℕ → Exec (Layout XR) Unit} {tail : Exec (Layout XR) Unit}
    (hb : ∀ i < A.n / 2, body i = Layout.addPoleZeroConjugatePairs (ofC (A.pole i)) (rootX (A.zero i)))
    (ht : tail = if A.n % 2 = 1 then
      Layout.add (ofC (A.pole (A.n / 2))) (rootX (A.zero (A.n / 2))) else Exec.pure ()) :
    Done (Layout.Stored [] 0 L w g) (Exec.loop (A.n / 2) body >>= fun _ => tail)
      (Layout.Stored A.stored A.n L w g) := by
  refine Trip.bind (A.done_pairs hL hb) fun _ => ?_
  rw [ht]
  split_ifs with h
  · exact Analog.done_odd hA hL h
  · exact Trip.pure fun s hs => Analog.stored_even h hs

/-! ## Butterworth -/

/-- Butterworth low pass prototype of order `n`. -/
def butterworth (n : ℕ) : Analog where
  n := n
  pole k := Complex.exp ((Real.pi / 2 + angle n k : ℝ) * Complex.I)
  zero _ := none

theorem butterworth_sym (n : ℕ) : (butterworth n).Sym where
  pole k hk := by
    simp only [butterworth] at hk ⊢
    rw [angle_reflect hk, ← Complex.exp_conj, map_mul, Complex.conj_I, Complex.conj_ofReal,
      Complex.exp_eq_exp_iff_exists_int]
    exact ⟨1, by push_cast; ring⟩
  zero k _ := rfl

theorem butterworth_reflect {n k : ℕ} (hk : k < n) :
    (butterworth n).pole (n - 1 - k) = starRingEnd ℂ ((butterworth n).pole k) :=
  (butterworth_sym n).pole k hk

theorem polarC_fin (r t : ℝ) : polarC (fin r) (fin t) = .ok (ofC (r * Complex.exp (t * Complex.I))) := by
  rw [polarC, polar_fin]

variable {n L : ℕ} {w g : XR} {ps : List (PoleZeroPair XR)} {m : ℕ}

theorem Butterworth.done_lowPassBuild (hn1 : 1 ≤ n) (hn : n < 1073741824) (hL : (n + 1) / 2 ≤ L) :
    Done (Layout.Stored ps m L w g) (Butterworth.lowPassBuild (n : ℤ))
      (Layout.Stored (butterworth n).stored n L w g) := by
  unfold Butterworth.lowPassBuild
  refine Trip.bind done_reset fun _ => Done.intChecked_ok (by omega) ?_
  simp only [tdiv_two, int_odd]
  refine (butterworth n).done_build (butterworth_sym n) hL (fun i hi => ?_) ?_
  · have hn0 : (2 * n : ℝ) ≠ 0 := by positivity
    have e : (pi2 + Proto.ofI (2 * (i : ℤ) + 1) * pi / Proto.ofI (2 * (n : ℤ)) : XR) =
        fin (Real.pi / 2 + angle n i) := by
      simp only [Proto.ofI, ofInt_eq, pi2_eq, pi_eq, fin_mul]
      push_cast
      rw [fin_div _ hn0, fin_add]; rfl
    rw [e, lit_one, polarC_fin]
    simp only [Complex.ofReal_one, one_mul, butterworth, rootX_none]
    rfl
  · by_cases h : n % 2 = 1
    · simp only [h, decide_true, if_true, butterworth, angle_mid h]
      rw [show (Real.pi / 2 + Real.pi / 2 : ℝ) = Real.pi by ring, Complex.exp_pi_mul_I]
      simp
    · simp [h, butterworth]

/-- Butterworth shelf prototype: `G` is the gain to the power `1/(2n)`. -/
def butterworthShelf (n : ℕ) (G : ℝ) : Analog where
  n := n
  pole k := starRingEnd ℂ ((butterworth n).pole k) * (1 / G : ℝ)
  zero k := some (starRingEnd ℂ ((butterworth n).pole k) * (G : ℝ))

theorem butterworthShelf_sym (n : ℕ) (G : ℝ) : (butterworthShelf n G).Sym where
  pole k hk := by
    simp only [butterworthShelf] at hk ⊢
    rw [butterworth_reflect hk, map_mul, Complex.conj_ofReal]
  zero k hk := by
    simp only [butterworthShelf, conjO_some] at hk ⊢
    rw [butterworth_reflect hk, map_mul, Complex.conj_ofReal]

/-- `gainDb` decibels, as a factor of the power -/
def dbPow (x : ℝ) : ℝ := (10 : ℝ) ^ (x / 10)

theorem Butterworth.done_lowShelfBuild (hn1 : 1 ≤ n) (hn : n < 1073741824) (hL : (n + 1) / 2 ≤ L)
    (gainDb : ℝ) :
    Done (Layout.Stored ps m L w g) (Butterworth.lowShelfBuild (n : ℤ) (fin gainDb))
      (Layout.Stored (butterworthShelf n (((10 : ℝ) ^ (gainDb / 20)) ^ (1 / (2 * n) : ℝ))).stored n L w g) := by
  set G := ((10 : ℝ) ^ (gainDb / 20)) ^ (1 / (2 * n) : ℝ) with hG
  have hGpos : 0 < G := by positivity
  unfold Butterworth.lowShelfBuild
  refine Trip.bind done_reset fun _ => Done.intChecked_ok (by omega) ?_
  have hn0 : (n * 2 : ℝ) ≠ 0 := by positivity
  have e1 : FArith.pow (FArith.pow 10 (fin gainDb / 20)) (1 / Proto.ofI ((n : ℤ) * 2)) = fin G := by
    simp only [Proto.ofI, ofInt_eq, lit_ofNat, lit_one]
    push_cast
    rw [fin_div _ hn0, fin_div _ (by norm_num), pow_fin _ (by norm_num), pow_fin _ (by positivity), hG,
      mul_comm (n : ℝ)]
  have e2 : (-1 / fin G : XR) = fin (-1 / G) := by
    rw [lit_one, fin_neg, fin_div _ hGpos.ne']
  simp only [tdiv_two, int_odd, e1, e2]
  have hpt : ∀ i, i < n → ∀ r : ℝ, ((-r : ℝ) : ℂ) * Complex.exp ((Real.pi * (0.5 - (2 * i + 1) / (2 * n)) : ℝ) * Complex.I) =
      starRingEnd ℂ ((butterworth n).pole i) * (r : ℝ) := by
    intro i hi r
    simp only [butterworth]
    rw [← Complex.exp_conj, map_mul, Complex.conj_I, Complex.conj_ofReal]
    have : (Real.pi * (0.5 - (2 * i + 1) / (2 * n)) : ℝ) = Real.pi - (Real.pi / 2 + angle n i) := by
      rw [angle]; norm_num; ring
    rw [this]
    push_cast
    rw [sub_mul, Complex.exp_sub, Complex.exp_pi_mul_I]
    rw [mul_neg, Complex.exp_neg]; ring
  refine (butterworthShelf n G).done_build (butterworthShelf_sym n G) hL (fun i hi => ?_) ?_
  · have hi' : i < n := by simp only [butterworthShelf] at hi; omega
    have e : (pi * (0.5 - Proto.ofI (2 * ((i : ℤ) + 1) - 1) / Proto.ofI ((n : ℤ) * 2)) : XR) =
        fin (Real.pi * (0.5 - (2 * i + 1) / (2 * n))) := by
      simp only [Proto.ofI, ofInt_eq, pi_eq, lit_sci]
      push_cast
      rw [fin_div _ hn0, fin_sub, fin_mul]
      congr 3; rw [mul_comm (n : ℝ)]; congr 1; ring
    rw [e, fin_neg, polarC_fin, polarC_fin, neg_div, hpt i hi', hpt i hi']
    rfl
  · by_cases h : n % 2 = 1
    · have hm : (butterworth n).pole (n / 2) = -1 := by
        simp only [butterworth, angle_mid h]
        rw [show (Real.pi / 2 + Real.pi / 2 : ℝ) = Real.pi by ring, Complex.exp_pi_mul_I]
      simp only [h, decide_true, if_true, butterworthShelf, hm, rootX_some, fin_neg, ofR_fin]
      congr 2 <;> simp
      ring
    · simp [h, butterworthShelf]

end
end Iir
