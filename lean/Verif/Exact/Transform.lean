import Verif.Exact.Analog
import Verif.Math.Trig
import Verif.Lemmas.Setup

/-! # The four transforms in exact arithmetic

A transform turns a root `r` of the prototype into roots in the z plane; with `q = 1/z` these are the
roots of `X (q) - r Y (q)` (of `Y (q)` for a root at infinity) for two polynomials `X`, `Y` that depend
on the transform only. -/

namespace Iir
open FArith Cx Exec Spec XR Finset

noncomputable section

local notation "conjC" => starRingEnd ℂ

/-! ## Polynomials up to a factor -/

/-- equal up to a non-zero constant -/
def SameRoots (F G : ℂ → ℂ) : Prop := ∃ c : ℂ, c ≠ 0 ∧ ∀ q, F q = c * G q

theorem SameRoots.refl (F : ℂ → ℂ) : SameRoots F F := ⟨1, one_ne_zero, fun q => by rw [one_mul]⟩

theorem SameRoots.mul {F G F' G' : ℂ → ℂ} (h : SameRoots F G) (h' : SameRoots F' G') :
    SameRoots (fun q => F q * F' q) (fun q => G q * G' q) := by
  obtain ⟨c, hc, e⟩ := h
  obtain ⟨d, hd, e'⟩ := h'
  exact ⟨c * d, mul_ne_zero hc hd, fun q => by simp only [e, e']; ring⟩

theorem SameRoots.prod {k : ℕ} {F G : ℕ → ℂ → ℂ} (h : ∀ i < k, SameRoots (F i) (G i)) :
    SameRoots (fun q => ∏ i ∈ range k, F i q) (fun q => ∏ i ∈ range k, G i q) := by
  induction k with
  | zero => simp only [range_zero, prod_empty]; exact SameRoots.refl _
  | succ k ih =>
    simp only [prod_range_succ]
    exact (ih fun i hi => h i (by omega)).mul (h k (by omega))

theorem SameRoots.conj {F G F' G' : ℂ → ℂ} (h : SameRoots F G) (hF : ∀ q, F' q = conjC (F (conjC q)))
    (hG : ∀ q, G' q = conjC (G (conjC q))) : SameRoots F' G' := by
  obtain ⟨c, hc, e⟩ := h
  refine ⟨conjC c, by simpa using hc, fun q => ?_⟩
  rw [hF, hG, e, map_mul]

theorem SameRoots.congr {F G F' G' : ℂ → ℂ} (h : SameRoots F G) (hF : ∀ q, F' q = F q)
    (hG : ∀ q, G' q = G q) : SameRoots F' G' := by
  obtain ⟨c, hc, e⟩ := h
  exact ⟨c, hc, fun q => by rw [hF, hG, e]⟩

/-! ## Roots of the prototype -/

/-- `X - r Y`; `Y` for a root at infinity -/
def form : Option ℂ → ℂ → ℂ → ℂ
  | none, _, Y => Y
  | some r, X, Y => X - r * Y

theorem form_conj (r : Option ℂ) (X Y : ℂ) : form (conjO r) (conjC X) (conjC Y) = conjC (form r X Y) := by
  cases r <;> simp [form]

def Analog.P (A : Analog) (X Y : ℂ) : ℂ := ∏ k ∈ range A.n, form (some (A.pole k)) X Y
def Analog.Z (A : Analog) (X Y : ℂ) : ℂ := ∏ k ∈ range A.n, form (A.zero k) X Y

/-- poles in the open left half plane, zeros in the closed one -/
structure Analog.Left (A : Analog) : Prop where
  pole : ∀ k < A.n, (A.pole k).re < 0
  zero : ∀ k < A.n, ∀ z, A.zero k = some z → z.re ≤ 0

/-- The pair of polynomials of a transform. -/
structure SMap where
  X : ℂ → ℂ
  Y : ℂ → ℂ
  conj_X : ∀ q, X (conjC q) = conjC (X q)
  conj_Y : ∀ q, Y (conjC q) = conjC (Y q)

/-- polynomial of a root of the prototype -/
def SMap.poly (M : SMap) (r : Option ℂ) (q : ℂ) : ℂ := form r (M.X q) (M.Y q)

theorem SMap.poly_conj (M : SMap) (r : Option ℂ) (q : ℂ) :
    M.poly (conjO r) q = conjC (M.poly r (conjC q)) := by
  rw [SMap.poly, SMap.poly, ← form_conj, M.conj_X, M.conj_Y, Complex.conj_conj, Complex.conj_conj]

/-! ## Digital pole/zero pairs -/

/-- Two poles and two zeros in the z plane. -/
structure Quad where
  p1 : ℂ
  p2 : ℂ
  z1 : ℂ
  z2 : ℂ

namespace Quad

def toX (d : Quad) : PoleZeroPair XR := ⟨⟨ofC d.p1, ofC d.p2⟩, ⟨ofC d.z1, ofC d.z2⟩⟩

structure Ok (d : Quad) : Prop where
  poles : Matched d.p1 d.p2
  zeros : Matched d.z1 d.z2

def den (d : Quad) (q : ℂ) : ℂ := (1 - d.p1 * q) * (1 - d.p2 * q)
def num (d : Quad) (q : ℂ) : ℂ := (1 - d.z1 * q) * (1 - d.z2 * q)

end Quad

def denL (D : List Quad) (q : ℂ) : ℂ := (D.map (Quad.den · q)).prod
def numL (D : List Quad) (q : ℂ) : ℂ := (D.map (Quad.num · q)).prod

theorem denL_append (D E : List Quad) (q : ℂ) : denL (D ++ E) q = denL D q * denL E q := by
  simp [denL]
theorem numL_append (D E : List Quad) (q : ℂ) : numL (D ++ E) q = numL D q * numL E q := by
  simp [numL]

theorem denL_range (k : ℕ) (F : ℕ → List Quad) (q : ℂ) :
    denL ((List.range k).flatMap F) q = ∏ i ∈ range k, denL (F i) q := by
  induction k with
  | zero => simp [denL]
  | succ k ih => rw [List.range_succ, List.flatMap_append, denL_append, ih, prod_range_succ]; simp

theorem numL_range (k : ℕ) (F : ℕ → List Quad) (q : ℂ) :
    numL ((List.range k).flatMap F) q = ∏ i ∈ range k, numL (F i) q := by
  induction k with
  | zero => simp [numL]
  | succ k ih => rw [List.range_succ, List.flatMap_append, numL_append, ih, prod_range_succ]; simp

/-- The digital pairs have the roots the transform `M` makes of those of `A`. -/
structure Realises (A : Analog) (M : SMap) (D : List Quad) : Prop where
  ok : ∀ d ∈ D, d.Ok
  den : SameRoots (denL D) (fun q => A.P (M.X q) (M.Y q))
  num : SameRoots (numL D) (fun q => A.Z (M.X q) (M.Y q))

/-- Put together from the pairs and the odd pole. -/
theorem Realises.build {A : Analog} (hA : A.Sym) {M : SMap} {F : ℕ → List Quad} {O : List Quad}
    (hok : ∀ k < A.n / 2, ∀ d ∈ F k, d.Ok) (hOok : ∀ d ∈ O, d.Ok)
    (hden : ∀ k < A.n / 2, SameRoots (denL (F k))
      (fun q => M.poly (some (A.pole k)) q * M.poly (some (conjC (A.pole k))) q))
    (hnum : ∀ k < A.n / 2, SameRoots (numL (F k))
      (fun q => M.poly (A.zero k) q * M.poly (conjO (A.zero k)) q))
    (hOden : SameRoots (denL O) (fun q => if A.n % 2 = 1 then M.poly (some (A.pole (A.n / 2))) q else 1))
    (hOnum : SameRoots (numL O) (fun q => if A.n % 2 = 1 then M.poly (A.zero (A.n / 2)) q else 1)) :
    Realises A M ((List.range (A.n / 2)).flatMap F ++ O) where
  ok d hd := by
    rw [List.mem_append, List.mem_flatMap] at hd
    rcases hd with ⟨k, hk, hd⟩ | hd
    · exact hok k (List.mem_range.1 hk) d hd
    · exact hOok d hd
  den := by
    refine ((SameRoots.prod hden).mul hOden).congr (fun q => ?_) (fun q => ?_)
    · rw [denL_append, denL_range]
    · rw [Analog.P, prod_range_pairs]
      congr 1
      refine prod_congr rfl fun k hk => ?_
      rw [mem_range] at hk
      rw [hA.pole k (by omega)]; rfl
  num := by
    refine ((SameRoots.prod hnum).mul hOnum).congr (fun q => ?_) (fun q => ?_)
    · rw [numL_append, numL_range]
    · rw [Analog.Z, prod_range_pairs]
      congr 1
      refine prod_congr rfl fun k hk => ?_
      rw [mem_range] at hk
      rw [hA.zero k (by omega)]; rfl

/-! ## Reading the prototype -/

theorem Layout.Stored.getPair {ps : List (PoleZeroPair XR)} {m L : ℕ} {w g : XR} {l : Layout XR}
    (h : l.Stored ps m L w g) {i : ℕ} {pr : PoleZeroPair XR} (hi : ps[i]? = some pr) :
    l.getPair (i : ℤ) = .ok pr := by
  have h1 : i < ps.length := (List.getElem?_eq_some_iff.1 hi).1
  have h2 : ps.length ≤ (m + 1) / 2 := by rw [← h.pairs, List.length_take]; omega
  rw [← h.pairs, List.getElem?_take_of_lt (by omega)] at hi
  unfold Layout.getPair
  rw [if_neg (by rw [h.numPoles]; simp; omega)]
  simp [hi]

theorem Analog.stored_pair (A : Analog) {k : ℕ} (hk : k < A.n / 2) : A.stored[k]? =
    some ⟨⟨ofC (A.pole k), ofC (conjC (A.pole k))⟩, ⟨rootX (A.zero k), rootX (conjO (A.zero k))⟩⟩ := by
  unfold Analog.stored
  rw [List.getElem?_append_left (by simpa using hk)]
  simp [hk]

theorem Analog.stored_odd (A : Analog) (h : A.n % 2 = 1) : A.stored[A.n / 2]? =
    some ⟨⟨ofC (A.pole (A.n / 2)), ofC 0⟩, ⟨rootX (A.zero (A.n / 2)), ofC 0⟩⟩ := by
  unfold Analog.stored
  rw [List.getElem?_append_right (by simp), if_pos h]
  simp

/-! ## Low pass and high pass: one root for one root -/

/-- the digital pairs of `mapLayout` -/
def simplePairs (A : Analog) (φ : Option ℂ → ℂ) : List Quad :=
  (List.range (A.n / 2)).flatMap (fun k =>
    [⟨φ (some (A.pole k)), conjC (φ (some (A.pole k))), φ (A.zero k), conjC (φ (A.zero k))⟩]) ++
  if A.n % 2 = 1 then [⟨φ (some (A.pole (A.n / 2))), 0, φ (A.zero (A.n / 2)), 0⟩] else []

theorem done_mapLayout {A : Analog} (hA : A.Sym) {a : Layout XR} {L0 : ℕ} {w0 g0 : XR}
    (ha : a.Stored A.stored A.n L0 w0 g0) {tr : Cx XR → Cx XR} {φ : Option ℂ → ℂ}
    (hp : ∀ k < A.n, tr (ofC (A.pole k)) = ofC (φ (some (A.pole k))))
    (hz : ∀ k < A.n, tr (rootX (A.zero k)) = ofC (φ (A.zero k)))
    (hc : ∀ r, φ (conjO r) = conjC (φ r))
    {L : ℕ} (hL : (A.n + 1) / 2 ≤ L) {w g : XR} :
    Done (Layout.Stored [] 0 L w g) (mapLayout tr a)
      (Layout.Stored ((simplePairs A φ).map Quad.toX) A.n L w g) := by
  unfold mapLayout
  simp only [ha.numPoles]
  refine Trip.bind (Q := fun _ => Layout.Stored (((List.range (A.n / 2)).flatMap (fun k =>
    [(⟨φ (some (A.pole k)), conjC (φ (some (A.pole k))), φ (A.zero k), conjC (φ (A.zero k))⟩ : Quad)])).map
      Quad.toX) (2 * (A.n / 2)) L w g) ?_ fun _ => ?_
  · refine Trip.loop (I := fun i => Layout.Stored (((List.range i).flatMap (fun k =>
      [(⟨φ (some (A.pole k)), conjC (φ (some (A.pole k))), φ (A.zero k), conjC (φ (A.zero k))⟩ : Quad)])).map
      Quad.toX) (2 * i) L w g) (A.n / 2) fun i hi => ?_
    refine Done.lift_ok (ha.getPair (A.stored_pair hi)) ?_
    simp only [hp i (by omega), hz i (by omega)]
    rw [List.range_succ, List.flatMap_append, List.map_append]
    have := done_addConj (ps := ((List.range i).flatMap (fun k =>
      [(⟨φ (some (A.pole k)), conjC (φ (some (A.pole k))), φ (A.zero k), conjC (φ (A.zero k))⟩ : Quad)])).map
      Quad.toX) (w := w) (g := g) (isNan_ofC (φ (some (A.pole i)))) (isNan_ofC (φ (A.zero i)))
      (m := 2 * i) (L := L) (by omega) (by omega)
    simpa [Quad.toX, Nat.mul_succ] using this
  · unfold simplePairs
    by_cases h : A.n % 2 = 1
    · simp only [h, beq_self_eq_true, if_true]
      refine Done.lift_ok (ha.getPair (A.stored_odd h)) ?_
      simp only [hp (A.n / 2) (by omega), hz (A.n / 2) (by omega)]
      have hre : ∀ r, r = conjO r → φ r = ((φ r).re : ℂ) := by
        intro r hr
        have := hc r
        rw [← hr] at this
        have := congrArg Complex.im this
        refine Complex.ext rfl ?_
        simp at this ⊢; linarith
      have h1 := hre (some (A.pole (A.n / 2))) (by
        have := hA.pole (A.n / 2) (by omega)
        rw [show A.n - 1 - A.n / 2 = A.n / 2 by omega] at this
        rw [conjO_some, ← this])
      have h2 := hre (A.zero (A.n / 2)) (by
        have := hA.zero (A.n / 2) (by omega)
        rwa [show A.n - 1 - A.n / 2 = A.n / 2 by omega] at this)
      rw [List.map_append]
      have := done_add (ps := ((List.range (A.n / 2)).flatMap (fun k =>
        [(⟨φ (some (A.pole k)), conjC (φ (some (A.pole k))), φ (A.zero k), conjC (φ (A.zero k))⟩ : Quad)])).map
        Quad.toX) (w := w) (g := g) (isNan_ofC (φ (some (A.pole (A.n / 2)))))
        (isNan_ofC (φ (A.zero (A.n / 2)))) (by rw [h1]; exact single_ofReal)
        (by rw [h2]; exact single_ofReal) (m := 2 * (A.n / 2)) (L := L) (by omega) (by omega)
      rw [show 2 * (A.n / 2) + 1 = A.n by omega] at this
      exact this
    · have h0 : (A.n % 2 == 1) = false := by simpa using h
      rw [h0, if_neg h, List.append_nil]
      simp only [Bool.false_eq_true, if_false]
      refine Trip.pure fun s hs => ?_
      rwa [show 2 * (A.n / 2) = A.n by omega] at hs

theorem realises_simple {A : Analog} (hA : A.Sym) {M : SMap} {φ : Option ℂ → ℂ}
    (hc : ∀ r, φ (conjO r) = conjC (φ r))
    (hp : ∀ k < A.n, SameRoots (fun q => 1 - φ (some (A.pole k)) * q) (M.poly (some (A.pole k))))
    (hz : ∀ k < A.n, SameRoots (fun q => 1 - φ (A.zero k) * q) (M.poly (A.zero k))) :
    Realises A M (simplePairs A φ) := by
  have hcj : ∀ r, SameRoots (fun q => 1 - φ r * q) (M.poly r) →
      SameRoots (fun q => 1 - conjC (φ r) * q) (M.poly (conjO r)) := by
    intro r h
    exact h.conj (fun q => by simp) (fun q => M.poly_conj r q)
  refine Realises.build hA ?_ ?_ ?_ ?_ ?_ ?_
  · intro k _ d hd
    rw [List.mem_singleton] at hd
    subst hd
    exact ⟨.inr rfl, .inr rfl⟩
  · intro d hd
    by_cases h : A.n % 2 = 1
    · rw [if_pos h, List.mem_singleton] at hd
      subst hd
      have hre : ∀ r, r = conjO r → (φ r).im = 0 := by
        intro r hr
        have := hc r
        rw [← hr] at this
        have := congrArg Complex.im this
        simp at this ⊢; linarith
      constructor
      · refine .inl ⟨hre _ ?_, rfl⟩
        have := hA.pole (A.n / 2) (by omega)
        rw [show A.n - 1 - A.n / 2 = A.n / 2 by omega] at this
        rw [conjO_some, ← this]
      · refine .inl ⟨hre _ ?_, rfl⟩
        have := hA.zero (A.n / 2) (by omega)
        rwa [show A.n - 1 - A.n / 2 = A.n / 2 by omega] at this
    · rw [if_neg h] at hd; simp at hd
  · intro k hk
    refine ((hp k (by omega)).mul (hcj _ (hp k (by omega)))).congr (fun q => ?_) (fun q => rfl)
    simp [denL, Quad.den]
  · intro k hk
    refine ((hz k (by omega)).mul (hcj _ (hz k (by omega)))).congr (fun q => ?_) (fun q => rfl)
    simp [numL, Quad.num]
  · by_cases h : A.n % 2 = 1
    · simp only [if_pos h]
      refine (hp (A.n / 2) (by omega)).congr (fun q => ?_) (fun q => rfl)
      simp [denL, Quad.den]
    · simp only [if_neg h]
      exact (SameRoots.refl _).congr (fun q => by simp [denL]) (fun _ => rfl)
  · by_cases h : A.n % 2 = 1
    · simp only [if_pos h]
      refine (hz (A.n / 2) (by omega)).congr (fun q => ?_) (fun q => rfl)
      simp [numL, Quad.num]
    · simp only [if_neg h]
      exact (SameRoots.refl _).congr (fun q => by simp [numL]) (fun _ => rfl)

/-! ### The two maps -/

/-- `s = (1 - q) / (f (1 + q))` -/
def lpMap (f : ℝ) : SMap where
  X q := 1 - q
  Y q := f * (1 + q)
  conj_X q := by simp
  conj_Y q := by simp

/-- `s = (1 + q) / (f (1 - q))` -/
def hpMap (f : ℝ) : SMap where
  X q := 1 + q
  Y q := f * (1 - q)
  conj_X q := by simp
  conj_Y q := by simp

def lpRoot (f : ℝ) : Option ℂ → ℂ
  | none => -1
  | some r => (1 + r * f) / (1 - r * f)

def hpRoot (f : ℝ) : Option ℂ → ℂ
  | none => 1
  | some r => -(1 + r * f) / (1 - r * f)

theorem lpRoot_conj (f : ℝ) (r : Option ℂ) : lpRoot f (conjO r) = conjC (lpRoot f r) := by
  cases r <;> simp [lpRoot]

theorem hpRoot_conj (f : ℝ) (r : Option ℂ) : hpRoot f (conjO r) = conjC (hpRoot f r) := by
  cases r <;> simp [hpRoot]

theorem one_sub_ne {f : ℝ} (hf : 0 < f) {r : ℂ} (hr : r.re ≤ 0) : (1 : ℂ) - r * f ≠ 0 := by
  intro h
  have := congrArg Complex.re h
  simp at this
  nlinarith [mul_nonneg hf.le (neg_nonneg.2 hr)]

theorem lpTransform_rootX {f : ℝ} (hf : 0 < f) {r : Option ℂ} (hr : ∀ z, r = some z → z.re ≤ 0) :
    lpTransform (fin f) (rootX r) = ofC (lpRoot f r) := by
  cases r with
  | none => simp [lpTransform, rootX, lpRoot]
  | some r =>
    have h := one_sub_ne hf (hr r rfl)
    simp only [lpTransform, rootX, ceq_ofC_infinity, Bool.false_eq_true, if_false, mulR_ofC, bilinear, lit_one,
      addR_ofC, rsub_ofC, lpRoot]
    rw [cdiv_ofC _ (by simpa using h)]
    congr 1; push_cast; ring

theorem hpTransform_rootX {f : ℝ} (hf : 0 < f) {r : Option ℂ} (hr : ∀ z, r = some z → z.re ≤ 0) :
    hpTransform (fin f) (rootX r) = ofC (hpRoot f r) := by
  cases r with
  | none => simp [hpTransform, rootX, hpRoot]
  | some r =>
    have h := one_sub_ne hf (hr r rfl)
    simp only [hpTransform, rootX, ceq_ofC_infinity, Bool.false_eq_true, if_false, mulR_ofC, lit_one,
      addR_ofC, rsub_ofC, hpRoot, cneg_ofC]
    rw [cdiv_ofC _ (by simpa using h)]
    congr 1; push_cast; ring

theorem lpRoot_poly {f : ℝ} (hf : 0 < f) {r : Option ℂ} (hr : ∀ z, r = some z → z.re ≤ 0) :
    SameRoots (fun q => 1 - lpRoot f r * q) ((lpMap f).poly r) := by
  have hf' : (f : ℂ) ≠ 0 := by exact_mod_cast hf.ne'
  cases r with
  | none => exact ⟨1 / f, by simpa using hf', fun q => by
      simp only [lpRoot, SMap.poly, form, lpMap]; field_simp; ring⟩
  | some r =>
    have h := one_sub_ne hf (hr r rfl)
    exact ⟨1 / (1 - r * f), by simpa using h, fun q => by
      simp only [lpRoot, SMap.poly, form, lpMap]; field_simp; ring⟩

theorem hpRoot_poly {f : ℝ} (hf : 0 < f) {r : Option ℂ} (hr : ∀ z, r = some z → z.re ≤ 0) :
    SameRoots (fun q => 1 - hpRoot f r * q) ((hpMap f).poly r) := by
  have hf' : (f : ℂ) ≠ 0 := by exact_mod_cast hf.ne'
  cases r with
  | none => exact ⟨1 / f, by simpa using hf', fun q => by
      simp only [hpRoot, SMap.poly, form, hpMap]; field_simp⟩
  | some r =>
    have h := one_sub_ne hf (hr r rfl)
    exact ⟨1 / (1 - r * f), by simpa using h, fun q => by
      simp only [hpRoot, SMap.poly, form, hpMap]; field_simp; ring⟩

/-! ## Band pass and band stop: two roots for one -/

/-- What a band transform makes of one root. -/
structure BandImage (M : SMap) (b : ℝ) (r : Option ℂ) (ρ : ℂ × ℂ) : Prop where
  poly : SameRoots (fun q => (1 - ρ.1 * q) * (1 - ρ.2 * q)) (M.poly r)
  matched : conjO r = r → Matched ρ.1 ρ.2
  ne : r ≠ some (-b : ℂ) → ρ.1 ≠ 0 ∧ ρ.2 ≠ 0

theorem isMatchedPair_ofC {p q : ℂ} (h : Matched p q) (hp : p ≠ 0) (hq : q ≠ 0) :
    (⟨ofC p, ofC q⟩ : ComplexPair XR).isMatchedPair = true := by
  unfold ComplexPair.isMatchedPair
  simp only [ofC_im, ofC_re, lit_zero, fne_fin, feq_fin, conj_ofC, ceq_ofC]
  rcases h with ⟨h1, h2⟩ | h
  · have hp' : p.re ≠ 0 := fun h => hp (Complex.ext h h1)
    have hq' : q.re ≠ 0 := fun h => hq (Complex.ext h h2)
    simp [h1, h2, hp', hq']
  · subst h
    by_cases hi : p.im = 0
    · have hp' : p.re ≠ 0 := fun h => hp (Complex.ext h hi)
      simp [hi, hp']
    · simp [hi]

/-- the digital pairs of a band transform with images `P k`, `Z k` -/
def bandPairs (n : ℕ) (P Z : ℕ → ℂ × ℂ) : List Quad :=
  (List.range (n / 2)).flatMap (fun k =>
    [⟨(P k).1, conjC (P k).1, (Z k).1, conjC (Z k).1⟩, ⟨(P k).2, conjC (P k).2, (Z k).2, conjC (Z k).2⟩]) ++
  if n % 2 = 1 then [⟨(P (n / 2)).1, (P (n / 2)).2, (Z (n / 2)).1, (Z (n / 2)).2⟩] else []

theorem done_bandLayout {n : ℕ} {P Z : ℕ → ℂ × ℂ} {body : ℕ → Exec (Layout XR) Unit}
    {last : Exec (Layout XR) Unit}
    (hb : ∀ k < n / 2, body k = (do
      Layout.addPoleZeroConjugatePairs (ofC (P k).1) (ofC (Z k).1)
      Layout.addPoleZeroConjugatePairs (ofC (P k).2) (ofC (Z k).2)))
    (hl : last = if n % 2 = 1 then
      Layout.addPair ⟨ofC (P (n / 2)).1, ofC (P (n / 2)).2⟩ ⟨ofC (Z (n / 2)).1, ofC (Z (n / 2)).2⟩
      else Exec.pure ())
    (hm : n % 2 = 1 → Matched (P (n / 2)).1 (P (n / 2)).2 ∧ Matched (Z (n / 2)).1 (Z (n / 2)).2 ∧
      ((P (n / 2)).1 ≠ 0 ∧ (P (n / 2)).2 ≠ 0) ∧ ((Z (n / 2)).1 ≠ 0 ∧ (Z (n / 2)).2 ≠ 0))
    {L : ℕ} (hL : n ≤ L) {w g : XR} :
    Done (Layout.Stored [] 0 L w g) (Exec.loop (n / 2) body >>= fun _ => last)
      (Layout.Stored ((bandPairs n P Z).map Quad.toX) (2 * n) L w g) := by
  unfold bandPairs
  generalize hF : (fun k : ℕ => ([⟨(P k).1, conjC (P k).1, (Z k).1, conjC (Z k).1⟩,
    ⟨(P k).2, conjC (P k).2, (Z k).2, conjC (Z k).2⟩] : List Quad)) = F
  refine Trip.bind (Q := fun _ => Layout.Stored (((List.range (n / 2)).flatMap F).map Quad.toX)
    (4 * (n / 2)) L w g) ?_ fun _ => ?_
  · refine Trip.loop (I := fun i => Layout.Stored (((List.range i).flatMap F).map Quad.toX)
      (4 * i) L w g) (n / 2) fun i hi => ?_
    rw [hb i hi, List.range_succ, List.flatMap_append, List.map_append, List.flatMap_singleton, ← hF]
    refine Trip.bind (Q := fun _ => _)
      (done_addConj (isNan_ofC (P i).1) (isNan_ofC (Z i).1) (by omega) (by omega)) fun _ => ?_
    have := done_addConj (ps := ((List.range i).flatMap F).map Quad.toX ++
      [⟨⟨ofC (P i).1, conj (ofC (P i).1)⟩, ⟨ofC (Z i).1, conj (ofC (Z i).1)⟩⟩]) (w := w) (g := g)
      (isNan_ofC (P i).2) (isNan_ofC (Z i).2) (m := 4 * i + 2) (L := L) (by omega) (by omega)
    rw [hF]
    rw [List.append_assoc] at this
    rw [← hF]
    simpa [Quad.toX, Nat.mul_succ, ← hF] using this
  · rw [hl]
    by_cases h : n % 2 = 1
    · simp only [if_pos h]
      obtain ⟨h1, h2, ⟨h3, h4⟩, h5, h6⟩ := hm h
      rw [List.map_append]
      have := done_addPair (ps := ((List.range (n / 2)).flatMap F).map Quad.toX) (w := w) (g := g)
        (isMatchedPair_ofC h1 h3 h4) (isMatchedPair_ofC h2 h5 h6) (m := 4 * (n / 2)) (L := L)
        (by omega) (by omega)
      rw [show 4 * (n / 2) + 2 = 2 * n by omega] at this
      exact this
    · simp only [if_neg h, List.append_nil]
      refine Trip.pure fun s hs => ?_
      rwa [show 4 * (n / 2) = 2 * n by omega] at hs

/-- two roots and their conjugates, in place of a root of the prototype and its conjugate -/
def PairImage (M : SMap) (r : Option ℂ) (ρ : ℂ × ℂ) : Prop :=
  SameRoots (fun q => (1 - ρ.1 * q) * (1 - conjC ρ.1 * q) * ((1 - ρ.2 * q) * (1 - conjC ρ.2 * q)))
    (fun q => M.poly r q * M.poly (conjO r) q)

theorem BandImage.pair {M : SMap} {b : ℝ} {r : Option ℂ} {ρ : ℂ × ℂ} (h : BandImage M b r ρ) :
    PairImage M r ρ := by
  have h2 : SameRoots (fun q => (1 - conjC ρ.1 * q) * (1 - conjC ρ.2 * q)) (M.poly (conjO r)) :=
    h.poly.conj (fun q => by simp) (fun q => M.poly_conj r q)
  exact (h.poly.mul h2).congr (fun q => by ring) (fun q => rfl)

theorem PairImage.trick {M : SMap} {r : Option ℂ} {z : ℂ} (h : PairImage M r (z, z)) :
    PairImage M r (z, conjC z) :=
  SameRoots.congr h (fun q => by simp only [Complex.conj_conj]; ring) (fun q => rfl)

theorem realises_band {A : Analog} (hA : A.Sym) {M : SMap} {b : ℝ} {P Z : ℕ → ℂ × ℂ}
    (hp2 : ∀ k < A.n / 2, PairImage M (some (A.pole k)) (P k))
    (hz2 : ∀ k < A.n / 2, PairImage M (A.zero k) (Z k))
    (hp : A.n % 2 = 1 → BandImage M b (some (A.pole (A.n / 2))) (P (A.n / 2)))
    (hz : A.n % 2 = 1 → BandImage M b (A.zero (A.n / 2)) (Z (A.n / 2))) :
    Realises A M (bandPairs A.n P Z) := by
  refine Realises.build hA ?_ ?_ ?_ ?_ ?_ ?_
  · intro k _ d hd
    simp only [List.mem_cons, List.not_mem_nil, or_false] at hd
    rcases hd with rfl | rfl <;> exact ⟨.inr rfl, .inr rfl⟩
  · intro d hd
    by_cases h : A.n % 2 = 1
    · rw [if_pos h, List.mem_singleton] at hd
      subst hd
      constructor
      · refine (hp h).matched ?_
        have := hA.pole (A.n / 2) (by omega)
        rw [show A.n - 1 - A.n / 2 = A.n / 2 by omega] at this
        rw [conjO_some, ← this]
      · refine (hz h).matched ?_
        have := hA.zero (A.n / 2) (by omega)
        rw [show A.n - 1 - A.n / 2 = A.n / 2 by omega] at this
        exact this.symm
    · rw [if_neg h] at hd; simp at hd
  · intro k hk
    exact SameRoots.congr (hp2 k hk) (fun q => by simp [denL, Quad.den]) (fun q => rfl)
  · intro k hk
    exact SameRoots.congr (hz2 k hk) (fun q => by simp [numL, Quad.num]) (fun q => rfl)
  · by_cases h : A.n % 2 = 1
    · simp only [if_pos h]
      refine (hp h).poly.congr (fun q => ?_) (fun q => rfl)
      simp [denL, Quad.den]
    · simp only [if_neg h]
      exact (SameRoots.refl _).congr (fun q => by simp [denL]) (fun _ => rfl)
  · by_cases h : A.n % 2 = 1
    · simp only [if_pos h]
      refine (hz h).poly.congr (fun q => ?_) (fun q => rfl)
      simp [numL, Quad.num]
    · simp only [if_neg h]
      exact (SameRoots.refl _).congr (fun q => by simp [numL]) (fun _ => rfl)

/-! ### The two band maps -/

/-- `s = b (1 - 2 a q + q²) / (1 - q²)` -/
def bpMap (a b : ℝ) : SMap where
  X q := b * (1 - 2 * a * q + q ^ 2)
  Y q := 1 - q ^ 2
  conj_X q := by simp [map_ofNat]
  conj_Y q := by simp

/-- `s = b (1 - q²) / (1 - 2 a q + q²)` -/
def bsMap (a b : ℝ) : SMap where
  X q := b * (1 - q ^ 2)
  Y q := 1 - 2 * a * q + q ^ 2
  conj_X q := by simp
  conj_Y q := by simp [map_ofNat]

/-- bilinear image of a root -/
def bil : Option ℂ → ℂ
  | none => -1
  | some r => (1 + r) / (1 - r)

def bpRoots (a b : ℝ) : Option ℂ → ℂ × ℂ
  | none => (-1, 1)
  | some r =>
    let c := (1 + r) / (1 - r)
    let s := sqrtC (4 * (b ^ 2 * (a ^ 2 - 1) + 1) * c ^ 2 + 8 * (b ^ 2 * (a ^ 2 - 1) - 1) * c +
      4 * (b ^ 2 * (a ^ 2 - 1) + 1))
    ((2 * a * b * (c + 1) - s) / (2 * (b - 1) * c + 2 * (1 + b)),
     (2 * a * b * (c + 1) + s) / (2 * (b - 1) * c + 2 * (1 + b)))

def bsRoots (a b : ℝ) (r : Option ℂ) : ℂ × ℂ :=
  let c := bil r
  let s := sqrtC (4 * (b ^ 2 + a ^ 2 - 1) * c ^ 2 + 8 * (b ^ 2 - a ^ 2 + 1) * c + 4 * (a ^ 2 + b ^ 2 - 1))
  ((a * (1 - c) + s / 2) / (b + 1 + (b - 1) * c), (a * (1 - c) - s / 2) / (b + 1 + (b - 1) * c))

theorem sqrtC_real (x : ℂ) (h : x.im = 0) : (sqrtC x).im = 0 ∨ (sqrtC x).re = 0 := by
  have hx : x = (x.re : ℂ) := Complex.ext rfl (by simpa using h)
  rcases le_total 0 x.re with h0 | h0
  · left
    rw [hx]
    simp [sqrtC, abs_of_nonneg h0]
  · right
    rw [hx]
    simp [sqrtC, abs_of_nonpos h0]

theorem matched_quadratic {e d s : ℂ} (he : e.im = 0) (hd : d.im = 0) (hs : s.im = 0 ∨ s.re = 0) :
    Matched ((e - s) / d) ((e + s) / d) := by
  obtain ⟨e, rfl⟩ : ∃ x : ℝ, e = x := ⟨e.re, Complex.ext rfl (by simpa using he)⟩
  obtain ⟨d, rfl⟩ : ∃ x : ℝ, d = x := ⟨d.re, Complex.ext rfl (by simpa using hd)⟩
  rcases hs with hs | hs
  · left
    rw [Complex.div_ofReal_im, Complex.div_ofReal_im]
    simp [hs]
  · right
    rw [map_div₀, map_sub, Complex.conj_ofReal, Complex.conj_ofReal]
    congr 1
    apply Complex.ext <;> simp [hs]

theorem one_sub_ne' {b : ℝ} (hb : 0 < b) {r : ℂ} (hr : r.re ≤ 0) : (b : ℂ) - r ≠ 0 := by
  intro h
  have := congrArg Complex.re h
  simp at this
  linarith

theorem real_of_conj {r : ℂ} (h : conjO (some r) = some r) : r.im = 0 := by
  rw [conjO_some] at h
  have := congrArg Complex.im (Option.some.inj h)
  simp at this; linarith

theorem add_ne_of {r : ℂ} {b : ℝ} (h : some r ≠ some (-b : ℂ)) : (b : ℂ) + r ≠ 0 :=
  fun h' => h (congrArg some (by linear_combination h'))

/-- the quadratic with roots `(e ± s) / d` -/
theorem quadratic_poly {e d V s k : ℂ} (hd : d ≠ 0) (hs : s * s = V) (hk : e * e - V = k * d) (q : ℂ) :
    (1 - (e - s) / d * q) * (1 - (e + s) / d * q) = 1 - 2 * e / d * q + k / d * q ^ 2 := by
  field_simp
  linear_combination (hk - hs) * q ^ 2

theorem quadratic_ne {e d V s k : ℂ} (hd : d ≠ 0) (hs : s * s = V) (hk : e * e - V = k * d) (h : k ≠ 0) :
    (e - s) / d ≠ 0 ∧ (e + s) / d ≠ 0 := by
  have h1 : (e - s) * (e + s) = k * d := by linear_combination hk - hs
  have h2 : (e - s) * (e + s) ≠ 0 := by rw [h1]; exact mul_ne_zero h hd
  exact ⟨div_ne_zero (left_ne_zero_of_mul h2) hd, div_ne_zero (right_ne_zero_of_mul h2) hd⟩

theorem bil_real {r : ℂ} (h : r.im = 0) : ((1 + r) / (1 - r)).im = 0 := by
  obtain ⟨x, rfl⟩ : ∃ x : ℝ, r = x := ⟨r.re, Complex.ext rfl (by simpa using h)⟩
  have : ((1 + (x : ℂ)) / (1 - x)) = (((1 + x) / (1 - x) : ℝ) : ℂ) := by push_cast; rfl
  rw [this]; exact Complex.ofReal_im _

/-- where the band transforms do not divide by 0 -/
structure BandRoot (b : ℝ) (r : Option ℂ) : Prop where
  one : r ≠ some 1
  b : r ≠ some (b : ℂ)

theorem BandRoot.sub_one {b : ℝ} {r : ℂ} (h : BandRoot b (some r)) : (1 : ℂ) - r ≠ 0 :=
  fun e => h.one (congrArg some (by linear_combination -e))

theorem BandRoot.sub_b {b : ℝ} {r : ℂ} (h : BandRoot b (some r)) : (b : ℂ) - r ≠ 0 :=
  fun e => h.b (congrArg some (by linear_combination -e))

theorem BandRoot.left {b : ℝ} (hb : 0 < b) {r : Option ℂ} (hr : ∀ z, r = some z → z.re ≤ 0) : BandRoot b r where
  one e := by have := hr 1 e; norm_num at this
  b e := by have := hr b e; simp at this; linarith

theorem bpRoots_image' (a : ℝ) {b : ℝ} {r : Option ℂ} (hr : BandRoot b r) :
    BandImage (bpMap a b) b r (bpRoots a b r) := by
  cases r with
  | none =>
    refine ⟨⟨1, one_ne_zero, fun q => ?_⟩, fun _ => .inl (by simp [bpRoots]), fun _ => by simp [bpRoots]⟩
    simp only [bpRoots, SMap.poly, form, bpMap]; ring
  | some r =>
    have h1 := hr.sub_one
    have hbr := hr.sub_b
    obtain ⟨c, hc⟩ : ∃ c, c = (1 + r) / (1 - r) := ⟨_, rfl⟩
    have hcr : c * (1 - r) = 1 + r := by rw [hc]; field_simp
    have hd : 2 * ((b : ℂ) - 1) * c + 2 * (1 + b) = 4 * (b - r) / (1 - r) := by
      rw [eq_div_iff h1]; linear_combination 2 * ((b : ℂ) - 1) * hcr
    have hd0 : 2 * ((b : ℂ) - 1) * c + 2 * (1 + b) ≠ 0 := by
      rw [hd]; exact div_ne_zero (mul_ne_zero (by norm_num) hbr) h1
    have hs := sqrtC_sq (4 * (b ^ 2 * (a ^ 2 - 1) + 1) * c ^ 2 + 8 * (b ^ 2 * (a ^ 2 - 1) - 1) * c +
      4 * (b ^ 2 * (a ^ 2 - 1) + 1))
    have hk : 2 * (a : ℂ) * b * (c + 1) * (2 * a * b * (c + 1)) -
        (4 * (b ^ 2 * (a ^ 2 - 1) + 1) * c ^ 2 + 8 * (b ^ 2 * (a ^ 2 - 1) - 1) * c +
          4 * (b ^ 2 * (a ^ 2 - 1) + 1)) =
        2 * (b * (c + 1) + (c - 1)) * (2 * (b - 1) * c + 2 * (1 + b)) := by ring
    have hroots : bpRoots a b (some r) = ((2 * a * b * (c + 1) - sqrtC (4 * (b ^ 2 * (a ^ 2 - 1) + 1) * c ^ 2 +
        8 * (b ^ 2 * (a ^ 2 - 1) - 1) * c + 4 * (b ^ 2 * (a ^ 2 - 1) + 1))) / (2 * (b - 1) * c + 2 * (1 + b)),
      (2 * a * b * (c + 1) + sqrtC (4 * (b ^ 2 * (a ^ 2 - 1) + 1) * c ^ 2 +
        8 * (b ^ 2 * (a ^ 2 - 1) - 1) * c + 4 * (b ^ 2 * (a ^ 2 - 1) + 1))) / (2 * (b - 1) * c + 2 * (1 + b))) := by
      rw [hc]; rfl
    have hkk : 2 * ((b : ℂ) * (c + 1) + (c - 1)) = 4 * (b + r) / (1 - r) := by
      rw [eq_div_iff h1]; linear_combination 2 * ((b : ℂ) + 1) * hcr
    refine ⟨⟨1 / (b - r), by simpa using hbr, fun q => ?_⟩, fun h => ?_, fun h => ?_⟩
    · rw [hroots]
      dsimp only
      rw [quadratic_poly hd0 hs hk, hkk, hd, show c + 1 = 2 / (1 - r) by
        rw [eq_div_iff h1]; linear_combination hcr]
      simp only [SMap.poly, form, bpMap]
      field_simp
      ring
    · have hi := real_of_conj h
      rw [hroots]
      have hci : c.im = 0 := by rw [hc]; exact bil_real hi
      obtain ⟨x, rfl⟩ : ∃ x : ℝ, c = x := ⟨c.re, Complex.ext rfl (by simpa using hci)⟩
      refine matched_quadratic ?_ ?_ (sqrtC_real _ ?_)
      · rw [show (2 : ℂ) * a * b * (x + 1) = ((2 * a * b * (x + 1) : ℝ) : ℂ) by push_cast; ring]
        exact Complex.ofReal_im _
      · rw [show 2 * ((b : ℂ) - 1) * x + 2 * (1 + b) = ((2 * (b - 1) * x + 2 * (1 + b) : ℝ) : ℂ) by
          push_cast; ring]
        exact Complex.ofReal_im _
      · rw [show 4 * ((b : ℂ) ^ 2 * (a ^ 2 - 1) + 1) * x ^ 2 + 8 * (b ^ 2 * (a ^ 2 - 1) - 1) * x +
          4 * (b ^ 2 * (a ^ 2 - 1) + 1) = ((4 * (b ^ 2 * (a ^ 2 - 1) + 1) * x ^ 2 +
          8 * (b ^ 2 * (a ^ 2 - 1) - 1) * x + 4 * (b ^ 2 * (a ^ 2 - 1) + 1) : ℝ) : ℂ) by push_cast; ring]
        exact Complex.ofReal_im _
    · rw [hroots]
      refine quadratic_ne hd0 hs hk ?_
      rw [hkk]
      exact div_ne_zero (mul_ne_zero (by norm_num) (add_ne_of h)) h1

theorem bpRoots_image (a : ℝ) {b : ℝ} (hb : 0 < b) {r : Option ℂ} (hr : ∀ z, r = some z → z.re ≤ 0) :
    BandImage (bpMap a b) b r (bpRoots a b r) := bpRoots_image' a (.left hb hr)

theorem bsRoots_image' (a : ℝ) {b : ℝ} {r : Option ℂ} (hr : BandRoot b r) :
    BandImage (bsMap a b) b r ((bsRoots a b r).2, (bsRoots a b r).1) := by
  obtain ⟨c, hc⟩ : ∃ c, c = bil r := ⟨_, rfl⟩
  -- the polynomial in terms of `c`
  obtain ⟨k, hk0, hpoly⟩ : ∃ k : ℂ, k ≠ 0 ∧ ∀ q, (bsMap a b).poly r q =
      k * ((b + 1 + (b - 1) * c) - 2 * (a * (1 - c)) * q + (1 - c - b * (1 + c)) * q ^ 2) := by
    cases r with
    | none =>
      refine ⟨1 / 2, by norm_num, fun q => ?_⟩
      rw [hc]; simp only [bil, SMap.poly, form, bsMap]; ring
    | some r =>
      have h1 := hr.sub_one
      refine ⟨(1 - r) / 2, div_ne_zero h1 (by norm_num), fun q => ?_⟩
      rw [hc]; simp only [bil, SMap.poly, form, bsMap]; field_simp; ring
  have hd0 : (b : ℂ) + 1 + (b - 1) * c ≠ 0 := by
    cases r with
    | none => rw [hc]; simp only [bil]; ring_nf; norm_num
    | some r =>
      have h1 := hr.sub_one
      have hbr := hr.sub_b
      have : (b : ℂ) + 1 + (b - 1) * c = 2 * (b - r) / (1 - r) := by
        rw [hc]; simp only [bil]; field_simp; ring
      rw [this]; exact div_ne_zero (mul_ne_zero (by norm_num) hbr) h1
  obtain ⟨V, hV⟩ : ∃ V : ℂ, V = 4 * (b ^ 2 + a ^ 2 - 1) * c ^ 2 + 8 * (b ^ 2 - a ^ 2 + 1) * c +
    4 * (a ^ 2 + b ^ 2 - 1) := ⟨_, rfl⟩
  have hs : sqrtC V / 2 * (sqrtC V / 2) = V / 4 := by linear_combination (1 / 4 : ℂ) * sqrtC_sq V
  have hk : (a : ℂ) * (1 - c) * (a * (1 - c)) - V / 4 =
      (1 - c - b * (1 + c)) * (b + 1 + (b - 1) * c) := by rw [hV]; ring
  have hroots : bsRoots a b r = ((a * (1 - c) + sqrtC V / 2) / (b + 1 + (b - 1) * c),
      (a * (1 - c) - sqrtC V / 2) / (b + 1 + (b - 1) * c)) := by
    rw [hV, hc]; rfl
  rw [hroots]
  refine ⟨⟨1 / (k * (b + 1 + (b - 1) * c)), ?_, fun q => ?_⟩, fun h => ?_, fun h => ?_⟩
  · exact one_div_ne_zero (mul_ne_zero hk0 hd0)
  · dsimp only
    rw [quadratic_poly hd0 hs hk, hpoly]
    generalize (b : ℂ) + 1 + (b - 1) * c = d at hd0
    field_simp
  · have hci : c.im = 0 := by
      rw [hc]
      cases r with
      | none => simp [bil]
      | some r => exact bil_real (real_of_conj h)
    obtain ⟨x, rfl⟩ : ∃ x : ℝ, c = x := ⟨c.re, Complex.ext rfl (by simpa using hci)⟩
    have hVi : V.im = 0 := by
      rw [hV, show 4 * ((b : ℂ) ^ 2 + a ^ 2 - 1) * x ^ 2 + 8 * (b ^ 2 - a ^ 2 + 1) * x +
        4 * (a ^ 2 + b ^ 2 - 1) = ((4 * (b ^ 2 + a ^ 2 - 1) * x ^ 2 + 8 * (b ^ 2 - a ^ 2 + 1) * x +
        4 * (a ^ 2 + b ^ 2 - 1) : ℝ) : ℂ) by push_cast; ring]
      exact Complex.ofReal_im _
    refine matched_quadratic ?_ ?_ ?_
    · rw [show (a : ℂ) * (1 - x) = ((a * (1 - x) : ℝ) : ℂ) by push_cast; ring]
      exact Complex.ofReal_im _
    · rw [show (b : ℂ) + 1 + (b - 1) * x = ((b + 1 + (b - 1) * x : ℝ) : ℂ) by push_cast; ring]
      exact Complex.ofReal_im _
    · rw [show sqrtC V / 2 = sqrtC V / ((2 : ℝ) : ℂ) by norm_num, Complex.div_ofReal_im, Complex.div_ofReal_re]
      rcases sqrtC_real V hVi with h | h <;> simp [h]
  · refine quadratic_ne hd0 hs hk ?_
    cases r with
    | none => rw [hc]; simp only [bil]; ring_nf; norm_num
    | some r =>
      have h1 := hr.sub_one
      have : (1 : ℂ) - c - b * (1 + c) = -(2 * (b + r)) / (1 - r) := by
        rw [hc]; simp only [bil]; field_simp; ring
      rw [this]
      exact div_ne_zero (neg_ne_zero.2 (mul_ne_zero (by norm_num) (add_ne_of h))) h1

theorem bsRoots_image (a : ℝ) {b : ℝ} (hb : 0 < b) {r : Option ℂ} (hr : ∀ z, r = some z → z.re ≤ 0) :
    BandImage (bsMap a b) b r ((bsRoots a b r).2, (bsRoots a b r).1) := bsRoots_image' a (.left hb hr)

theorem Spec.Matched.swap {p q : ℂ} (h : Matched p q) : Matched q p := by
  rcases h with ⟨h1, h2⟩ | h
  · exact .inl ⟨h2, h1⟩
  · exact .inr (by rw [h, Complex.conj_conj])

theorem BandImage.swap {M : SMap} {b : ℝ} {r : Option ℂ} {ρ : ℂ × ℂ} (h : BandImage M b r (ρ.2, ρ.1)) :
    BandImage M b r ρ :=
  ⟨h.poly.congr (fun _ => mul_comm _ _) (fun _ => rfl), fun e => (h.matched e).swap,
    fun e => ⟨(h.ne e).2, (h.ne e).1⟩⟩

theorem bpTransform_rootX' (a : ℝ) {b : ℝ} {r : Option ℂ} (hr : BandRoot b r) :
    bpTransform (fin a) (fin b) (rootX r) = ⟨ofC (bpRoots a b r).1, ofC (bpRoots a b r).2⟩ := by
  cases r with
  | none => simp [bpTransform, rootX, bpRoots]
  | some r =>
    have h1 := hr.sub_one
    have hbr := hr.sub_b
    have hd : 2 * ((b : ℂ) - 1) * ((1 + r) / (1 - r)) + 2 * (1 + b) = 4 * (b - r) / (1 - r) := by
      field_simp; ring
    have hd0 : 2 * ((b : ℂ) - 1) * ((1 + r) / (1 - r)) + 2 * (1 + b) ≠ 0 := by
      rw [hd]; exact div_ne_zero (mul_ne_zero (by norm_num) hbr) h1
    simp only [bpTransform, rootX, ceq_ofC_infinity, Bool.false_eq_true, if_false, bilinear, lit_one, addR_ofC,
      rsub_ofC, lit_zero, lit_ofNat, fin_mul, fin_add, fin_sub, ofR_fin]
    rw [cdiv_ofC _ (by simpa using h1)]
    simp only [addmul_ofC, addR_ofC, cmul_ofC, csqrt_ofC, cneg_ofC]
    push_cast
    rw [add_comm r 1, zero_add]
    rw [cdiv_ofC _ (by simpa using hd0), cdiv_ofC _ (by simpa using hd0)]
    simp only [bpRoots]
    congr 3 <;> ring_nf

theorem bpTransform_rootX (a : ℝ) {b : ℝ} (hb : 0 < b) {r : Option ℂ} (hr : ∀ z, r = some z → z.re ≤ 0) :
    bpTransform (fin a) (fin b) (rootX r) = ⟨ofC (bpRoots a b r).1, ofC (bpRoots a b r).2⟩ :=
  bpTransform_rootX' a (.left hb hr)

theorem bsTransform_rootX' (a : ℝ) {b : ℝ} {r : Option ℂ} (hr : BandRoot b r) :
    bsTransform (fin a) (fin b) (rootX r) = ⟨ofC (bsRoots a b r).1, ofC (bsRoots a b r).2⟩ := by
  have hc : (if ceq (rootX r) infinity then ofR (-1) else bilinear (rootX r)) = ofC (bil r) := by
    cases r with
    | none => simp [rootX, bil]
    | some r =>
      have h1 := hr.sub_one
      simp only [rootX, ceq_ofC_infinity, Bool.false_eq_true, if_false, bilinear, lit_one, addR_ofC, rsub_ofC]
      rw [cdiv_ofC _ (by simpa using h1)]
      congr 1; push_cast; simp only [bil]; ring
  have hd0 : (b : ℂ) + 1 + (b - 1) * bil r ≠ 0 := by
    cases r with
    | none => simp only [bil]; ring_nf; norm_num
    | some r =>
      have h1 := hr.sub_one
      have hbr := hr.sub_b
      have : (b : ℂ) + 1 + (b - 1) * bil (some r) = 2 * (b - r) / (1 - r) := by
        simp only [bil]; field_simp; ring
      rw [this]; exact div_ne_zero (mul_ne_zero (by norm_num) hbr) h1
  unfold bsTransform
  rw [hc]
  simp only [lit_one, lit_zero, lit_ofNat, lit_sci, fin_mul, fin_add, fin_sub, fin_neg, ofR_fin, addmul_ofC, addR_ofC, cmul_ofC,
    csqrt_ofC, mulR_ofC]
  push_cast
  rw [zero_add, cdiv_ofC _ hd0, cdiv_ofC _ hd0]
  simp only [bsRoots]
  congr 3 <;> ring_nf

theorem bsTransform_rootX (a : ℝ) {b : ℝ} (hb : 0 < b) {r : Option ℂ} (hr : ∀ z, r = some z → z.re ≤ 0) :
    bsTransform (fin a) (fin b) (rootX r) = ⟨ofC (bsRoots a b r).1, ofC (bsRoots a b r).2⟩ :=
  bsTransform_rootX' a (.left hb hr)

/-! ## The complete transforms -/

theorem Layout.reset_stored {l : Layout XR} {L : ℕ} (h : l.pairs.length = L) :
    Layout.Stored [] 0 L l.normalW l.normalGain { l with numPoles := 0 } :=
  ⟨rfl, h, rfl, rfl, rfl⟩

theorem lift_bind_ok {σ α β : Type} (a : α) (f : α → Exec σ β) : (Exec.lift (.ok a) >>= f) = f a := rfl

theorem Analog.Sym.pole_conj {A : Analog} (h : A.Sym) (ho : A.n % 2 = 1) :
    conjO (some (A.pole (A.n / 2))) = some (A.pole (A.n / 2)) := by
  have := h.pole (A.n / 2) (by omega)
  rw [show A.n - 1 - A.n / 2 = A.n / 2 by omega] at this
  rw [conjO_some, ← this]

theorem Analog.Sym.zero_conj {A : Analog} (h : A.Sym) (ho : A.n % 2 = 1) :
    conjO (A.zero (A.n / 2)) = A.zero (A.n / 2) := by
  have := h.zero (A.n / 2) (by omega)
  rw [show A.n - 1 - A.n / 2 = A.n / 2 by omega] at this
  exact this.symm

theorem checkFreq_ok {σ : Type} {fc : ℝ} (h0 : 0 ≤ fc) (h1 : fc < 1 / 2) (s : σ) :
    checkFreq (fin fc) s = (.ok (), s) := by
  have e1 : flt (fin fc) (0.5 : XR) = true := by
    rw [lit_sci, flt_fin]; norm_num at h1 ⊢; linarith
  have e2 : flt (fin fc) (0 : XR) = false := by simpa using h0
  simp only [checkFreq, bind_def, e1, e2, Bool.not_true, throwIf_false]

theorem Analog.Left.roots {A : Analog} (h : A.Left) :
    (∀ k < A.n, ∀ z, some (A.pole k) = some z → z.re ≤ 0) ∧ (∀ k < A.n, ∀ z, A.zero k = some z → z.re ≤ 0) :=
  ⟨fun k hk z hz => by rw [← Option.some.inj hz]; exact (h.pole k hk).le, h.zero⟩

section
variable {A : Analog} {a : Layout XR} {L0 : ℕ} {w0 g0 : ℝ} {l : Layout XR} {L : ℕ}

theorem Spec.lowPassTransform_exact (hA : A.Sym) (hl : A.Left) (ha : a.Stored A.stored A.n L0 (fin w0) (fin g0))
    {fc : ℝ} (h0 : 0 < fc) (h1 : fc < 1 / 2) (hL : l.pairs.length = L) (hn : (A.n + 1) / 2 ≤ L) :
    ∃ l' D, lowPassTransform (fin fc) a l = (.ok (), l') ∧ Realises A (lpMap (Real.tan (Real.pi * fc))) D ∧
      l'.Stored (D.map Quad.toX) A.n L (fin w0) (fin g0) := by
  have hf := tan_pi_pos h0 h1
  obtain ⟨hp, hz⟩ := hl.roots
  have hm := done_mapLayout hA ha (tr := lpTransform (fin (Real.tan (Real.pi * fc))))
    (φ := lpRoot (Real.tan (Real.pi * fc)))
    (fun k hk => lpTransform_rootX hf (hp k hk)) (fun k hk => lpTransform_rootX hf (hz k hk))
    (lpRoot_conj _) hn (w := l.normalW) (g := l.normalGain)
  obtain ⟨l1, e1, s1⟩ := hm.run (Layout.reset_stored hL)
  obtain ⟨l2, e2, s2⟩ := (done_setNormal (fin w0) (fin g0)).run s1
  refine ⟨l2, _, ?_, realises_simple hA (lpRoot_conj _) (fun k hk => lpRoot_poly hf (hp k hk))
    (fun k hk => lpRoot_poly hf (hz k hk)), s2⟩
  have e0 : (FArith.tan (FArith.pi * fin fc) : XR) = fin (Real.tan (Real.pi * fc)) := by
    rw [pi_eq, fin_mul, tan_fin (cos_pi_pos h0.le h1).ne']
  unfold lowPassTransform
  simp only [bind_def, checkFreq_ok h0.le h1, Layout.reset, modify_def, e0, e1, ha.normalW, ha.normalGain, e2]

theorem Spec.highPassTransform_exact (hA : A.Sym) (hl : A.Left) (ha : a.Stored A.stored A.n L0 (fin w0) (fin g0))
    {fc : ℝ} (h0 : 0 < fc) (h1 : fc < 1 / 2) (hL : l.pairs.length = L) (hn : (A.n + 1) / 2 ≤ L) :
    ∃ l' D, highPassTransform (fin fc) a l = (.ok (), l') ∧
      Realises A (hpMap (1 / Real.tan (Real.pi * fc))) D ∧
      l'.Stored (D.map Quad.toX) A.n L (fin (Real.pi - w0)) (fin g0) := by
  have ht := tan_pi_pos h0 h1
  have hf : 0 < 1 / Real.tan (Real.pi * fc) := one_div_pos.2 ht
  obtain ⟨hp, hz⟩ := hl.roots
  have hm := done_mapLayout hA ha (tr := hpTransform (fin (1 / Real.tan (Real.pi * fc))))
    (φ := hpRoot (1 / Real.tan (Real.pi * fc)))
    (fun k hk => hpTransform_rootX hf (hp k hk)) (fun k hk => hpTransform_rootX hf (hz k hk))
    (hpRoot_conj _) hn (w := l.normalW) (g := l.normalGain)
  obtain ⟨l1, e1, s1⟩ := hm.run (Layout.reset_stored hL)
  obtain ⟨l2, e2, s2⟩ := (done_setNormal (fin (Real.pi - w0)) (fin g0)).run s1
  refine ⟨l2, _, ?_, realises_simple hA (hpRoot_conj _) (fun k hk => hpRoot_poly hf (hp k hk))
    (fun k hk => hpRoot_poly hf (hz k hk)), s2⟩
  have e0 : (1 / FArith.tan (FArith.pi * fin fc) : XR) = fin (1 / Real.tan (Real.pi * fc)) := by
    rw [pi_eq, fin_mul, tan_fin (cos_pi_pos h0.le h1).ne', lit_one, fin_div _ ht.ne']
  have e3 : (FArith.pi - fin w0 : XR) = fin (Real.pi - w0) := by rw [pi_eq, fin_sub]
  unfold highPassTransform
  simp only [bind_def, checkFreq_ok h0.le h1, Layout.reset, modify_def, e0, e1, ha.normalW, ha.normalGain, e3, e2]

/-! ### Band edges -/

/-- lower edge, clamped -/
def edgeLo (fc fw : ℝ) : ℝ := max (2 * Real.pi * fc - Real.pi * fw) 1e-8
/-- upper edge, clamped -/
def edgeHi (fc fw : ℝ) : ℝ := min (2 * Real.pi * fc + Real.pi * fw) (Real.pi - 1e-8)

theorem bandEdges_fin (fc fw : ℝ) : bandEdges (fin fc) (fin fw) = (fin (edgeLo fc fw), fin (edgeHi fc fw)) := by
  have e1 : (2 * FArith.pi * fin fc - 2 * FArith.pi * fin fw / 2 : XR) =
      fin (2 * Real.pi * fc - Real.pi * fw) := by
    rw [lit_ofNat, pi_eq, fin_mul, fin_mul, fin_mul, fin_div _ (by norm_num), fin_sub]
    congr 1; ring
  have e2 : (fin (2 * Real.pi * fc - Real.pi * fw) + 2 * FArith.pi * fin fw : XR) =
      fin (2 * Real.pi * fc + Real.pi * fw) := by
    rw [lit_ofNat, pi_eq, fin_mul, fin_mul, fin_add]
    congr 1; ring
  have e3 : (FArith.pi - 1e-8 : XR) = fin (Real.pi - 1e-8) := by rw [pi_eq, lit_sci, fin_sub]
  have e4 : (1e-8 : XR) = fin 1e-8 := lit_sci _ _ _
  simp only [bandEdges]
  rw [e1, e2, e3, e4, flt_fin, flt_fin]
  congr 1
  · simp only [edgeLo, decide_eq_true_eq]
    split_ifs with h
    · rw [max_eq_right h.le]
    · rw [max_eq_left (not_lt.1 h)]
  · simp only [edgeHi, decide_eq_true_eq]
    split_ifs with h
    · rw [min_eq_right h.le]
    · rw [min_eq_left (not_lt.1 h)]

theorem edgeLo_pos (fc fw : ℝ) : 0 < edgeLo fc fw :=
  lt_of_lt_of_le (by norm_num) (le_max_right _ _)

theorem edgeHi_lt_pi (fc fw : ℝ) : edgeHi fc fw < Real.pi :=
  lt_of_le_of_lt (min_le_right _ _) (by norm_num)

/-- half the sum of the edges, half their difference -/
def edgeMid (fc fw : ℝ) : ℝ := (edgeHi fc fw + edgeLo fc fw) / 2
def edgeHalf (fc fw : ℝ) : ℝ := (edgeHi fc fw - edgeLo fc fw) / 2

/-- the constant `a` of the band transforms -/
def bandA (fc fw : ℝ) : ℝ := Real.cos (edgeMid fc fw) / Real.cos (edgeHalf fc fw)

theorem edgeHalf_pos {fc fw : ℝ} (h : edgeLo fc fw < edgeHi fc fw) : 0 < edgeHalf fc fw := by
  unfold edgeHalf; linarith

theorem edgeHalf_lt {fc fw : ℝ} : edgeHalf fc fw < Real.pi / 2 := by
  have := edgeLo_pos fc fw
  have := edgeHi_lt_pi fc fw
  unfold edgeHalf; linarith

theorem cos_edgeHalf_pos {fc fw : ℝ} (h : edgeLo fc fw < edgeHi fc fw) : 0 < Real.cos (edgeHalf fc fw) :=
  Real.cos_pos_of_mem_Ioo ⟨by have := edgeHalf_pos h; linarith [Real.pi_pos], edgeHalf_lt⟩

theorem tan_edgeHalf_pos {fc fw : ℝ} (h : edgeLo fc fw < edgeHi fc fw) : 0 < Real.tan (edgeHalf fc fw) :=
  Real.tan_pos_of_pos_of_lt_pi_div_two (edgeHalf_pos h) edgeHalf_lt

theorem half_fin (x : ℝ) : (fin x * 0.5 : XR) = fin (x / 2) := by
  rw [lit_sci, fin_mul]; congr 1; norm_num; ring

theorem bandA_fin' {fc fw : ℝ} (h : 0 < Real.cos (edgeHalf fc fw)) :
    (FArith.cos ((fin (edgeHi fc fw) + fin (edgeLo fc fw)) * 0.5) /
      FArith.cos ((fin (edgeHi fc fw) - fin (edgeLo fc fw)) * 0.5) : XR) = fin (bandA fc fw) := by
  rw [fin_add, fin_sub, half_fin, half_fin, cos_fin, cos_fin]
  exact fin_div _ h.ne'

theorem bandA_fin {fc fw : ℝ} (h : edgeLo fc fw < edgeHi fc fw) :
    (FArith.cos ((fin (edgeHi fc fw) + fin (edgeLo fc fw)) * 0.5) /
      FArith.cos ((fin (edgeHi fc fw) - fin (edgeLo fc fw)) * 0.5) : XR) = fin (bandA fc fw) :=
  bandA_fin' (cos_edgeHalf_pos h)

theorem tanHalf_fin' {fc fw : ℝ} (h : 0 < Real.cos (edgeHalf fc fw)) :
    (FArith.tan ((fin (edgeHi fc fw) - fin (edgeLo fc fw)) * 0.5) : XR) = fin (Real.tan (edgeHalf fc fw)) := by
  rw [fin_sub, half_fin]
  exact tan_fin h.ne'

theorem tanHalf_fin {fc fw : ℝ} (h : edgeLo fc fw < edgeHi fc fw) :
    (FArith.tan ((fin (edgeHi fc fw) - fin (edgeLo fc fw)) * 0.5) : XR) = fin (Real.tan (edgeHalf fc fw)) :=
  tanHalf_fin' (cos_edgeHalf_pos h)

/-- the frequency at which a band pass is normalised -/
def bandCentre (fc fw : ℝ) : ℝ :=
  2 * Real.arctan (Real.sqrt (Real.tan (edgeHi fc fw / 2) * Real.tan (edgeLo fc fw / 2)))

theorem cos_half_pos {x : ℝ} (h0 : 0 < x) (h1 : x < Real.pi) : 0 < Real.cos (x / 2) :=
  Real.cos_pos_of_mem_Ioo ⟨by linarith [Real.pi_pos], by linarith⟩

theorem tan_half_pos {x : ℝ} (h0 : 0 < x) (h1 : x < Real.pi) : 0 < Real.tan (x / 2) :=
  Real.tan_pos_of_pos_of_lt_pi_div_two (by linarith) (by linarith)

theorem bandCentre_fin' {fc fw : ℝ} (h2 : 0 < edgeHi fc fw) (h3 : edgeLo fc fw < Real.pi) :
    (2 * FArith.atan (FArith.sqrt (FArith.tan ((fin (edgeHi fc fw) + fin 0) * 0.5) *
      FArith.tan ((fin (edgeLo fc fw) + fin 0) * 0.5))) : XR) = fin (bandCentre fc fw) := by
  have h0 := edgeLo_pos fc fw
  have h1 := edgeHi_lt_pi fc fw
  rw [fin_add, fin_add, add_zero, add_zero, half_fin, half_fin, tan_fin (cos_half_pos h2 h1).ne',
    tan_fin (cos_half_pos h0 h3).ne', fin_mul,
    sqrt_fin (mul_pos (tan_half_pos h2 h1) (tan_half_pos h0 h3)).le, atan_fin, lit_ofNat,
    fin_mul]
  congr 1

theorem bandCentre_fin {fc fw : ℝ} (h : edgeLo fc fw < edgeHi fc fw) :
    (2 * FArith.atan (FArith.sqrt (FArith.tan ((fin (edgeHi fc fw) + fin 0) * 0.5) *
      FArith.tan ((fin (edgeLo fc fw) + fin 0) * 0.5))) : XR) = fin (bandCentre fc fw) :=
  bandCentre_fin' ((edgeLo_pos fc fw).trans h) (h.trans (edgeHi_lt_pi fc fw))

/-- all poles of the pairs are non-zero -/
def PolesNe (D : List Quad) : Prop := ∀ d ∈ D, d.p1 ≠ 0 ∧ d.p2 ≠ 0

theorem bandPairs_ne {n : ℕ} {P Z : ℕ → ℂ × ℂ} (h : ∀ k < n, (P k).1 ≠ 0 ∧ (P k).2 ≠ 0) :
    PolesNe (bandPairs n P Z) := by
  intro d hd
  unfold bandPairs at hd
  rw [List.mem_append, List.mem_flatMap] at hd
  rcases hd with ⟨k, hk, hd⟩ | hd
  · have := h k (by have := List.mem_range.1 hk; omega)
    simp only [List.mem_cons, List.not_mem_nil, or_false] at hd
    rcases hd with rfl | rfl
    · exact ⟨this.1, by simpa using this.1⟩
    · exact ⟨this.2, by simpa using this.2⟩
  · by_cases ho : n % 2 = 1
    · rw [if_pos ho, List.mem_singleton] at hd
      subst hd
      exact h (n / 2) (by omega)
    · rw [if_neg ho] at hd; simp at hd

/-- The poles and zeros can be transformed. -/
structure Analog.BandRoots (A : Analog) (b : ℝ) : Prop where
  pole : ∀ k < A.n, BandRoot b (some (A.pole k))
  zero : ∀ k < A.n, BandRoot b (A.zero k)

theorem Analog.Left.bandRoots {A : Analog} (h : A.Left) {b : ℝ} (hb : 0 < b) : A.BandRoots b where
  pole k hk := .left hb (h.roots.1 k hk)
  zero k hk := .left hb (h.roots.2 k hk)

/-- Band pass, whatever the normal frequency of the prototype. -/
theorem Spec.bandPassTransform_gen (hA : A.Sym) {wn : XR}
    (ha : a.Stored A.stored A.n L0 wn (fin g0))
    {fc fw : ℝ} (h0 : 0 ≤ fc) (h1 : fc < 1 / 2) (he : 0 < Real.cos (edgeHalf fc fw))
    (ht : Real.tan (edgeHalf fc fw) ≠ 0) (hr : A.BandRoots (1 / Real.tan (edgeHalf fc fw)))
    (hodd : A.n % 2 = 1 → A.pole (A.n / 2) ≠ -((1 / Real.tan (edgeHalf fc fw) : ℝ) : ℂ) ∧
      A.zero (A.n / 2) ≠ some (-((1 / Real.tan (edgeHalf fc fw) : ℝ) : ℂ)))
    (hL : l.pairs.length = L) (hn : A.n ≤ L) :
    ∃ l' D, bandPassTransform (fin fc) (fin fw) a l = (.ok (), l') ∧
      Realises A (bpMap (bandA fc fw) (1 / Real.tan (edgeHalf fc fw))) D ∧
      ((∀ k < A.n, A.pole k ≠ -((1 / Real.tan (edgeHalf fc fw) : ℝ) : ℂ)) → PolesNe D) ∧
      l'.Stored (D.map Quad.toX) (2 * A.n) L
        (2 * FArith.atan (FArith.sqrt (FArith.tan ((fin (edgeHi fc fw) + wn) * 0.5) *
          FArith.tan ((fin (edgeLo fc fw) + wn) * 0.5)))) (fin g0) := by
  obtain ⟨hp, hz⟩ := hr
  have e2 : (1 / FArith.tan ((fin (edgeHi fc fw) - fin (edgeLo fc fw)) * 0.5) : XR) =
      fin (1 / Real.tan (edgeHalf fc fw)) := by
    rw [tanHalf_fin' he, lit_one, fin_div _ ht]
  generalize 1 / Real.tan (edgeHalf fc fw) = b at *
  generalize hA' : bandA fc fw = aa at *
  have hm : Done (Layout.Stored [] 0 L l.normalW l.normalGain) (bpLayout (fin aa) (fin b) a)
      (Layout.Stored ((bandPairs A.n (fun k => bpRoots aa b (some (A.pole k)))
        (fun k => bpRoots aa b (A.zero k))).map Quad.toX) (2 * A.n) L l.normalW l.normalGain) := by
    unfold bpLayout
    simp only [ha.numPoles]
    refine done_bandLayout ?_ ?_ ?_ hn
    · intro k hk
      rw [ha.getPair (A.stored_pair hk), lift_bind_ok]
      have := bpTransform_rootX' aa (hp k (by omega))
      rw [rootX] at this
      simp only [this, bpTransform_rootX' aa (hz k (by omega))]
    · by_cases h : A.n % 2 = 1
      · simp only [h, beq_self_eq_true, if_true]
        rw [ha.getPair (A.stored_odd h), lift_bind_ok]
        have := bpTransform_rootX' aa (hp (A.n / 2) (by omega))
        rw [rootX] at this
        simp only [this, bpTransform_rootX' aa (hz (A.n / 2) (by omega))]
      · have h0 : (A.n % 2 == 1) = false := by simpa using h
        simp only [h0, if_neg h, Bool.false_eq_true, if_false]
    · intro h
      have i1 := bpRoots_image' aa (hp (A.n / 2) (by omega))
      have i2 := bpRoots_image' aa (hz (A.n / 2) (by omega))
      obtain ⟨n1, n2⟩ := hodd h
      exact ⟨i1.matched (hA.pole_conj h), i2.matched (hA.zero_conj h), i1.ne (by simpa using n1), i2.ne n2⟩
  obtain ⟨l1, e1, s1⟩ := hm.run (Layout.reset_stored hL)
  obtain ⟨l2, e3, s2⟩ := (done_setNormal (2 * FArith.atan (FArith.sqrt (FArith.tan
    ((fin (edgeHi fc fw) + wn) * 0.5) * FArith.tan ((fin (edgeLo fc fw) + wn) * 0.5)))) (fin g0)).run s1
  refine ⟨l2, _, ?_, realises_band hA (fun k hk => (bpRoots_image' aa (hp k (by omega))).pair)
    (fun k hk => (bpRoots_image' aa (hz k (by omega))).pair)
    (fun h => bpRoots_image' aa (hp _ (by omega))) (fun h => bpRoots_image' aa (hz _ (by omega))),
    fun hne => bandPairs_ne fun k hk => (bpRoots_image' aa (hp k hk)).ne (by simpa using hne k hk), s2⟩
  unfold bandPassTransform
  simp only [bind_def, checkFreq_ok h0 h1, Layout.reset, modify_def, bandEdges_fin, bandA_fin' he, hA', e2, e1,
    ha.normalW, ha.normalGain, e3]

theorem Spec.bandPassTransform_exact' (hA : A.Sym) (hl : A.Left) {wn : XR}
    (ha : a.Stored A.stored A.n L0 wn (fin g0))
    {fc fw : ℝ} (h0 : 0 ≤ fc) (h1 : fc < 1 / 2) (he : edgeLo fc fw < edgeHi fc fw)
    (hodd : A.n % 2 = 1 → A.pole (A.n / 2) ≠ -((1 / Real.tan (edgeHalf fc fw) : ℝ) : ℂ) ∧
      A.zero (A.n / 2) ≠ some (-((1 / Real.tan (edgeHalf fc fw) : ℝ) : ℂ)))
    (hL : l.pairs.length = L) (hn : A.n ≤ L) :
    ∃ l' D, bandPassTransform (fin fc) (fin fw) a l = (.ok (), l') ∧
      Realises A (bpMap (bandA fc fw) (1 / Real.tan (edgeHalf fc fw))) D ∧
      l'.Stored (D.map Quad.toX) (2 * A.n) L
        (2 * FArith.atan (FArith.sqrt (FArith.tan ((fin (edgeHi fc fw) + wn) * 0.5) *
          FArith.tan ((fin (edgeLo fc fw) + wn) * 0.5)))) (fin g0) := by
  have ht := tan_edgeHalf_pos he
  obtain ⟨l', D, e, hD, -, hl'⟩ := Spec.bandPassTransform_gen hA ha h0 h1 (cos_edgeHalf_pos he) ht.ne'
    (hl.bandRoots (one_div_pos.2 ht)) hodd hL hn
  exact ⟨l', D, e, hD, hl'⟩

theorem Spec.bandPassTransform_exact (hA : A.Sym) (hl : A.Left)
    (ha : a.Stored A.stored A.n L0 (fin 0) (fin g0))
    {fc fw : ℝ} (h0 : 0 ≤ fc) (h1 : fc < 1 / 2) (he : edgeLo fc fw < edgeHi fc fw)
    (hodd : A.n % 2 = 1 → A.pole (A.n / 2) ≠ -((1 / Real.tan (edgeHalf fc fw) : ℝ) : ℂ) ∧
      A.zero (A.n / 2) ≠ some (-((1 / Real.tan (edgeHalf fc fw) : ℝ) : ℂ)))
    (hL : l.pairs.length = L) (hn : A.n ≤ L) :
    ∃ l' D, bandPassTransform (fin fc) (fin fw) a l = (.ok (), l') ∧
      Realises A (bpMap (bandA fc fw) (1 / Real.tan (edgeHalf fc fw))) D ∧
      l'.Stored (D.map Quad.toX) (2 * A.n) L (fin (bandCentre fc fw)) (fin g0) := by
  have := Spec.bandPassTransform_exact' hA hl ha h0 h1 he hodd hL hn
  rwa [bandCentre_fin he] at this

/-- Band shelf: band pass with other normalisation. -/
theorem Spec.bandShelfTransform_exact (hA : A.Sym) (hl : A.Left)
    (ha : a.Stored A.stored A.n L0 (fin w0) (fin g0))
    {fc fw : ℝ} (h0 : 0 ≤ fc) (h1 : fc < 1 / 2) (he : edgeLo fc fw < edgeHi fc fw)
    (hodd : A.n % 2 = 1 → A.pole (A.n / 2) ≠ -((1 / Real.tan (edgeHalf fc fw) : ℝ) : ℂ) ∧
      A.zero (A.n / 2) ≠ some (-((1 / Real.tan (edgeHalf fc fw) : ℝ) : ℂ)))
    (hL : l.pairs.length = L) (hn : A.n ≤ L) :
    ∃ l' D, bandShelfTransform (fin fc) (fin fw) a l = (.ok (), l') ∧
      Realises A (bpMap (bandA fc fw) (1 / Real.tan (edgeHalf fc fw))) D ∧
      l'.Stored (D.map Quad.toX) (2 * A.n) L (fin (if fc < 1 / 4 then Real.pi else 0)) (fin 1) := by
  obtain ⟨l1, D, e1, hD, s1⟩ := Spec.bandPassTransform_exact' hA hl ha h0 h1 he hodd hL hn
  obtain ⟨l2, e3, s2⟩ := (done_setNormal (fin (if fc < 1 / 4 then Real.pi else 0)) (fin 1)).run s1
  refine ⟨l2, D, ?_, hD, s2⟩
  have e4 : (if flt (fin fc) (0.25 : XR) then (FArith.pi : XR) else 0) =
      fin (if fc < 1 / 4 then Real.pi else 0) := by
    rw [lit_sci, flt_fin]
    by_cases h : fc < 1 / 4
    · rw [if_pos (by norm_num at h ⊢; exact h), if_pos h, pi_eq]
    · rw [if_neg (by norm_num at h ⊢; exact h), if_neg h, lit_zero]
  unfold bandShelfTransform
  simp only [bind_def, e1, e4, lit_one, e3]

/-- zeros of a band stop, after the "trick" -/
def trick (z : ℂ × ℂ) : ℂ × ℂ := open Classical in if z.2 = z.1 then (z.1, conjC z.1) else z

theorem conjTrick_ofC (z : ℂ × ℂ) :
    conjTrick (⟨ofC z.1, ofC z.2⟩ : ComplexPair XR) = ⟨ofC (trick z).1, ofC (trick z).2⟩ := by
  unfold conjTrick trick
  rw [ceq_ofC]
  by_cases h : z.2 = z.1
  · simp [h]
  · simp [h]

theorem PairImage.trick' {M : SMap} {r : Option ℂ} {z : ℂ × ℂ} (h : PairImage M r z) :
    PairImage M r (Iir.trick z) := by
  unfold Iir.trick
  split_ifs with e
  · obtain ⟨z1, z2⟩ := z
    simp only at e
    subst e
    exact h.trick
  · exact h

theorem Spec.bandStopTransform_gen (hA : A.Sym)
    (ha : a.Stored A.stored A.n L0 (fin w0) (fin g0))
    {fc fw : ℝ} (h0 : 0 ≤ fc) (h1 : fc < 1 / 2) (he : 0 < Real.cos (edgeHalf fc fw))
    (hr : A.BandRoots (Real.tan (edgeHalf fc fw)))
    (hodd : A.n % 2 = 1 → A.pole (A.n / 2) ≠ -((Real.tan (edgeHalf fc fw) : ℝ) : ℂ) ∧
      A.zero (A.n / 2) ≠ some (-((Real.tan (edgeHalf fc fw) : ℝ) : ℂ)))
    (hL : l.pairs.length = L) (hn : A.n ≤ L) :
    ∃ l' D, bandStopTransform (fin fc) (fin fw) a l = (.ok (), l') ∧
      Realises A (bsMap (bandA fc fw) (Real.tan (edgeHalf fc fw))) D ∧
      ((∀ k < A.n, A.pole k ≠ -((Real.tan (edgeHalf fc fw) : ℝ) : ℂ)) → PolesNe D) ∧
      l'.Stored (D.map Quad.toX) (2 * A.n) L (fin (if fc < 1 / 4 then Real.pi else 0)) (fin g0) := by
  obtain ⟨hp, hz⟩ := hr
  have e2 := tanHalf_fin' he
  generalize Real.tan (edgeHalf fc fw) = b at *
  generalize hA' : bandA fc fw = aa at *
  have hpi := fun k (hk : k < A.n) => (bsRoots_image' aa (hp k hk)).swap
  have hzi := fun k (hk : k < A.n) => (bsRoots_image' aa (hz k hk)).swap
  obtain ⟨Z, hZ⟩ : ∃ Z : ℕ → ℂ × ℂ, Z = fun k => if k < A.n / 2 then trick (bsRoots aa b (A.zero k))
    else bsRoots aa b (A.zero k) := ⟨_, rfl⟩
  have hm : Done (Layout.Stored [] 0 L l.normalW l.normalGain) (bsLayout (fin aa) (fin b) a)
      (Layout.Stored ((bandPairs A.n (fun k => bsRoots aa b (some (A.pole k))) Z).map Quad.toX)
        (2 * A.n) L l.normalW l.normalGain) := by
    unfold bsLayout
    simp only [ha.numPoles]
    refine done_bandLayout ?_ ?_ ?_ hn
    · intro k hk
      rw [ha.getPair (A.stored_pair hk), lift_bind_ok]
      have := bsTransform_rootX' aa (hp k (by omega))
      rw [rootX] at this
      simp only [this, bsTransform_rootX' aa (hz k (by omega)), conjTrick_ofC, hZ, hk, if_true]
    · by_cases h : A.n % 2 = 1
      · simp only [h, beq_self_eq_true, if_true]
        rw [ha.getPair (A.stored_odd h), lift_bind_ok]
        have := bsTransform_rootX' aa (hp (A.n / 2) (by omega))
        rw [rootX] at this
        simp only [this, bsTransform_rootX' aa (hz (A.n / 2) (by omega)), hZ, lt_irrefl, if_false]
      · have h0 : (A.n % 2 == 1) = false := by simpa using h
        simp only [h0, if_neg h, Bool.false_eq_true, if_false]
    · intro h
      have i1 := hpi (A.n / 2) (by omega)
      have i2 := hzi (A.n / 2) (by omega)
      obtain ⟨n1, n2⟩ := hodd h
      have e : Z (A.n / 2) = bsRoots aa b (A.zero (A.n / 2)) := by simp [hZ]
      rw [e]
      exact ⟨i1.matched (hA.pole_conj h), i2.matched (hA.zero_conj h), i1.ne (by simpa using n1), i2.ne n2⟩
  obtain ⟨l1, e1, s1⟩ := hm.run (Layout.reset_stored hL)
  obtain ⟨l2, e3, s2⟩ := (done_setNormal (fin (if fc < 1 / 4 then Real.pi else 0)) (fin g0)).run s1
  refine ⟨l2, _, ?_, realises_band hA (b := b) (fun k hk => (hpi k (by omega)).pair)
    (fun k hk => ?_) (fun h => hpi _ (by omega)) (fun h => ?_),
    fun hne => bandPairs_ne fun k hk => (hpi k hk).ne (by simpa using hne k hk), s2⟩
  · have e4 : flt (fin fc) (0.25 : XR) = decide (fc < 1 / 4) := by
      rw [lit_sci, flt_fin]; norm_num
    unfold bandStopTransform
    simp only [bind_def, checkFreq_ok h0 h1, Layout.reset, modify_def, bandEdges_fin, bandA_fin' he, hA', e2, e1,
      ha.normalGain, e4]
    by_cases h : fc < 1 / 4
    · rw [if_pos h] at e3
      simp only [h, decide_true, if_true, pi_eq, e3]
    · rw [if_neg h] at e3
      simp only [h, decide_false, Bool.false_eq_true, if_false, lit_zero, e3]
  · have e : Z k = trick (bsRoots aa b (A.zero k)) := by simp [hZ, hk]
    rw [e]
    exact (hzi k (by omega)).pair.trick'
  · have e : Z (A.n / 2) = bsRoots aa b (A.zero (A.n / 2)) := by simp [hZ]
    rw [e]
    exact hzi _ (by omega)

theorem Spec.bandStopTransform_exact (hA : A.Sym) (hl : A.Left)
    (ha : a.Stored A.stored A.n L0 (fin w0) (fin g0))
    {fc fw : ℝ} (h0 : 0 ≤ fc) (h1 : fc < 1 / 2) (he : edgeLo fc fw < edgeHi fc fw)
    (hodd : A.n % 2 = 1 → A.pole (A.n / 2) ≠ -((Real.tan (edgeHalf fc fw) : ℝ) : ℂ) ∧
      A.zero (A.n / 2) ≠ some (-((Real.tan (edgeHalf fc fw) : ℝ) : ℂ)))
    (hL : l.pairs.length = L) (hn : A.n ≤ L) :
    ∃ l' D, bandStopTransform (fin fc) (fin fw) a l = (.ok (), l') ∧
      Realises A (bsMap (bandA fc fw) (Real.tan (edgeHalf fc fw))) D ∧
      l'.Stored (D.map Quad.toX) (2 * A.n) L (fin (if fc < 1 / 4 then Real.pi else 0)) (fin g0) := by
  have ht := tan_edgeHalf_pos he
  obtain ⟨l', D, e, hD, -, hl'⟩ := Spec.bandStopTransform_gen hA ha h0 h1 (cos_edgeHalf_pos he)
    (hl.bandRoots ht) hodd hL hn
  exact ⟨l', D, e, hD, hl'⟩

end

end
end Iir
