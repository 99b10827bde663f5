import Verif.Exact.Analog
import Verif.Lemmas.RoundCascade

/-! # Layouts whose poles and zeros are known up to rounding errors -/

namespace Iir
open FArith Cx Exec Spec

variable {R : Type} [FArith R]

/-- The layout holds `m` poles in an array of length `L`: the `i`-th pair has `D i`, then for odd `m` a single pole and zero with `S`;
the normalisation has `W`. -/
structure Layout.Holds (D : ℕ → Cx R → Cx R → Prop) (S : Cx R → Cx R → Prop) (W : R → R → Prop) (m L : ℕ) (l : Layout R) : Prop where
  numPoles : l.numPoles = m
  length : l.pairs.length = L
  two : ∀ i < m / 2, ∃ p z, l.pairs[i]? = some ⟨⟨p, conj p⟩, ⟨z, conj z⟩⟩ ∧ D i p z
  one : m % 2 = 1 → ∃ p z, l.pairs[m / 2]? = some ⟨⟨p, ofR 0⟩, ⟨z, ofR 0⟩⟩ ∧ S p z
  norm : W l.normalW l.normalGain

section
variable {D : ℕ → Cx R → Cx R → Prop} {S : Cx R → Cx R → Prop} {W : R → R → Prop} {m L : ℕ}

theorem Layout.Holds.empty {l : Layout R} (hm : l.numPoles = 0) (hL : l.pairs.length = L)
    (hw : W l.normalW l.normalGain) : l.Holds D S W 0 L :=
  ⟨hm, hL, fun i hi => by omega, fun h => by omega, hw⟩

theorem Layout.Holds.mono {D' : ℕ → Cx R → Cx R → Prop} {S' : Cx R → Cx R → Prop} {W' : R → R → Prop} {l : Layout R}
    (h : l.Holds D S W m L) (h1 : ∀ i p z, D i p z → D' i p z) (h2 : ∀ p z, S p z → S' p z) (h3 : ∀ w g, W w g → W' w g) :
    l.Holds D' S' W' m L :=
  ⟨h.numPoles, h.length, fun i hi => let ⟨p, z, a, b⟩ := h.two i hi; ⟨p, z, a, h1 i p z b⟩,
    fun hm => let ⟨p, z, a, b⟩ := h.one hm; ⟨p, z, a, h2 p z b⟩, h3 _ _ h.norm⟩

theorem holds_reset : Done (fun l => l.pairs.length = L ∧ W l.normalW l.normalGain) Layout.reset
    (Layout.Holds D S W 0 L) :=
  Trip.modify fun _ h => Layout.Holds.empty rfl h.1 h.2

theorem holds_setNormal {W' : R → R → Prop} {w g : R} (h' : W' w g) :
    Done (Layout.Holds D S W m L) (Layout.setNormal w g) (Layout.Holds D S W' m L) :=
  Trip.modify fun _ h => ⟨h.numPoles, h.length, h.two, h.one, h'⟩

theorem holds_addConj {p z : Cx R} (hp : p.isNan = false) (hz : z.isNan = false) (hD : D (m / 2) p z) (hm : m % 2 = 0)
    (hL : m / 2 < L) : Done (Layout.Holds D S W m L) (Layout.addPoleZeroConjugatePairs p z)
      (Layout.Holds D S W (m + 2) L) := by
  refine Done.of_run fun l h => ?_
  have h1 : (m % 2 == 1) = false := by simp; omega
  have h2 : m / 2 < l.pairs.length := by rw [h.length]; exact hL
  refine ⟨{ l with pairs := l.pairs.set (m / 2) ⟨⟨p, conj p⟩, ⟨z, conj z⟩⟩, numPoles := m + 2 }, ?_,
    ⟨rfl, by simp [h.length], fun i hi => ?_, fun h3 => by omega, h.norm⟩⟩
  · simp only [Layout.addPoleZeroConjugatePairs, bind_def, get_def, h1, hp, hz, throwIf_false, Layout.write,
      if_pos h2, modify_def, h.numPoles, PoleZeroPair.double]
  · rcases Nat.lt_or_ge i (m / 2) with h3 | h3
    · obtain ⟨p', z', h4, h5⟩ := h.two i h3
      exact ⟨p', z', by simp only; rw [List.getElem?_set_ne (by omega)]; exact h4, h5⟩
    · have : i = m / 2 := by omega
      subst this
      exact ⟨p, z, by simp only; rw [List.getElem?_set_self h2], hD⟩

theorem holds_add (h00 : feq (0 : R) 0 = true) {p z : Cx R} (hp : p.isNan = false) (hz : z.isNan = false)
    (hp1 : feq p.im 0 = true) (hz1 : feq z.im 0 = true) (hS : S p z)
    (hm : m % 2 = 0) (hL : m / 2 < L) : Done (Layout.Holds D S W m L) (Layout.add p z)
      (Layout.Holds D S W (m + 1) L) := by
  refine Done.of_run fun l h => ?_
  have h1 : (m % 2 == 1) = false := by simp; omega
  have h2 : m / 2 < l.pairs.length := by rw [h.length]; exact hL
  have h4 : ∀ c : Cx R, feq c.im 0 = true → ComplexPair.single c = .ok ⟨c, ofR 0⟩ := by
    intro c hc
    have h0 : feq (ofR 0 : Cx R).im 0 = true := h00
    simp [ComplexPair.single, ComplexPair.isReal, hc, h0]
  have h3 : PoleZeroPair.single p z = .ok ⟨⟨p, ofR 0⟩, ⟨z, ofR 0⟩⟩ := by
    simp only [PoleZeroPair.single, h4 p hp1, h4 z hz1, Bind.bind, Res.bind, pure]
  refine ⟨{ l with pairs := l.pairs.set (m / 2) ⟨⟨p, ofR 0⟩, ⟨z, ofR 0⟩⟩, numPoles := m + 1 }, ?_,
    ⟨rfl, by simp [h.length], fun i hi => ?_, fun _ => ?_, h.norm⟩⟩
  · simp only [Layout.add, bind_def, get_def, h1, hp, hz, throwIf_false, Layout.write, h3, Exec.lift_ok,
      if_pos h2, modify_def, h.numPoles]
  · obtain ⟨p', z', h4, h5⟩ := h.two i (by omega)
    exact ⟨p', z', by simp only; rw [List.getElem?_set_ne (by omega)]; exact h4, h5⟩
  · rw [show (m + 1) / 2 = m / 2 by omega]
    exact ⟨p, z, by simp only; rw [List.getElem?_set_self h2], hS⟩

/-- A loop over the pairs, then the real pole of an odd order. -/
theorem holds_build {n : ℕ} {body : ℕ → Exec (Layout R) Unit} {tail : Exec (Layout R) Unit} {P : Layout R → Prop}
    (hL : (n + 1) / 2 ≤ L)
    (hb : ∀ i < n / 2, ∃ p z, body i = Layout.addPoleZeroConjugatePairs p z ∧ p.isNan = false ∧ z.isNan = false ∧ D i p z)
    (ht : Done (Layout.Holds D S W (2 * (n / 2)) L) tail P) :
    Done (Layout.Holds D S W 0 L) (Exec.loop (n / 2) body >>= fun _ => tail) P := by
  refine Trip.bind (Q := fun _ => Layout.Holds D S W (2 * (n / 2)) L) ?_ fun _ => ht
  refine Trip.loop (I := fun i => Layout.Holds D S W (2 * i) L) (n / 2) fun i hi => ?_
  obtain ⟨p, z, e, h1, h2, h3⟩ := hb i hi
  rw [e]
  exact holds_addConj h1 h2 (by rwa [show 2 * i / 2 = i by omega]) (by omega) (by omega)

theorem Layout.Holds.getPair_two {l : Layout R} (h : l.Holds D S W m L) {i : ℕ} (hi : i < m / 2) :
    ∃ p z, l.getPair (i : ℤ) = .ok ⟨⟨p, conj p⟩, ⟨z, conj z⟩⟩ ∧ D i p z := by
  obtain ⟨p, z, h1, h2⟩ := h.two i hi
  refine ⟨p, z, ?_, h2⟩
  unfold Layout.getPair
  rw [if_neg (by rw [h.numPoles]; simp; omega)]
  simp [h1]

theorem Layout.Holds.getPair_one {l : Layout R} (h : l.Holds D S W m L) (hm : m % 2 = 1) :
    ∃ p z, l.getPair ((m / 2 : ℕ) : ℤ) = .ok ⟨⟨p, ofR 0⟩, ⟨z, ofR 0⟩⟩ ∧ S p z := by
  obtain ⟨p, z, h1, h2⟩ := h.one hm
  refine ⟨p, z, ?_, h2⟩
  unfold Layout.getPair
  rw [if_neg (by rw [h.numPoles]; simp; omega)]
  simp only [Int.toNat_natCast, h1]

/-- What a transform of poles and zeros has to do. -/
structure Moves (tr : Cx R → Cx R) (D : ℕ → Cx R → Cx R → Prop) (S : Cx R → Cx R → Prop) (D' : ℕ → Cx R → Cx R → Prop)
    (S' : Cx R → Cx R → Prop) : Prop where
  two : ∀ i p z, D i p z → (tr p).isNan = false ∧ (tr z).isNan = false ∧ D' i (tr p) (tr z)
  one : ∀ p z, S p z → (tr p).isNan = false ∧ (tr z).isNan = false ∧ feq (tr p).im 0 = true ∧
    feq (tr z).im 0 = true ∧ S' (tr p) (tr z)

theorem holds_mapLayout {D' : ℕ → Cx R → Cx R → Prop} {S' : Cx R → Cx R → Prop} {W' : R → R → Prop} {L' : ℕ} {tr : Cx R → Cx R} {a : Layout R}
    (h00 : feq (0 : R) 0 = true) (ht : Moves tr D S D' S') (ha : a.Holds D S W m L) (hL : (m + 1) / 2 ≤ L') :
    Done (Layout.Holds D' S' W' 0 L') (mapLayout tr a) (Layout.Holds D' S' W' m L') := by
  unfold mapLayout
  simp only [ha.numPoles]
  refine Trip.bind (Q := fun _ => Layout.Holds D' S' W' (2 * (m / 2)) L') ?_ fun _ => ?_
  · refine Trip.loop (I := fun i => Layout.Holds D' S' W' (2 * i) L') (m / 2) fun i hi => ?_
    obtain ⟨p, z, h1, h2⟩ := ha.getPair_two hi
    refine Done.lift_ok h1 ?_
    obtain ⟨h3, h4, h5⟩ := ht.two i p z h2
    exact holds_addConj h3 h4 (by rwa [show 2 * i / 2 = i by omega]) (by omega) (by omega)
  · by_cases h : m % 2 = 1
    · simp only [h, beq_self_eq_true, if_true]
      obtain ⟨p, z, h1, h2⟩ := ha.getPair_one h
      refine Done.lift_ok h1 ?_
      obtain ⟨h3, h4, h5, h6, h7⟩ := ht.one p z h2
      have := holds_add (D := D') (W := W') (m := 2 * (m / 2)) (L := L') h00 h3 h4 h5 h6 h7 (by omega) (by omega)
      rwa [show 2 * (m / 2) + 1 = m by omega] at this
    · have h0 : (m % 2 == 1) = false := by simpa using h
      simp only [h0, Bool.false_eq_true, if_false]
      refine Trip.pure fun s hs => ?_
      rwa [show 2 * (m / 2) = m by omega] at hs

end

/-! ## Digital layouts -/

variable {u η Ω : ℝ} {r : Rounds R u η Ω}

/-- A digital layout that `setLayout` turns into a stable cascade. -/
abbrev Layout.Digital (r : Rounds R u η Ω) (s : ℝ) (m L : ℕ) (l : Layout R) : Prop :=
  l.Holds (fun _ p z => r.PoleIn p ∧ r.ZeroIn s z) (fun p z => r.RealPole p ∧ r.RealZero s z)
    (fun w g => AtEnd r s (w / (2 * pi)) ∧ r.In g (-2) 2) m L

theorem Layout.Digital.pairs {s : ℝ} {m L : ℕ} {l : Layout R} (h : l.Digital r s m L) :
    ∀ p ∈ l.pairs.take ((m + 1) / 2), r.PairOk s p := by
  intro p hp
  obtain ⟨i, hi, rfl⟩ := List.mem_iff_getElem.1 hp
  rw [List.length_take] at hi
  rw [List.getElem_take]
  rcases Nat.lt_or_ge i (m / 2) with h1 | h1
  · obtain ⟨p, z, h2, h3⟩ := h.two i h1
    rw [List.getElem?_eq_getElem (by omega), Option.some.injEq] at h2
    rw [h2]
    exact .two h3.1 h3.2
  · have e : i = m / 2 := by omega
    subst e
    obtain ⟨p, z, h2, h3⟩ := h.one (by omega)
    rw [List.getElem?_eq_getElem (by omega), Option.some.injEq] at h2
    rw [h2]
    exact .one h3.1 h3.2

end Iir
