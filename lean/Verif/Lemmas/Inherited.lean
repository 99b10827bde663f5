import Verif.Spec.Inherited
import Verif.Exact.Design
import Verif.Props.TimeDomain

/-! # Layouts made by a client -/

set_option linter.unusedSectionVars false

noncomputable section
namespace Iir
open FArith Cx Exec XR Spec Biquad Cascade

theorem number_eq (c : ℂ) : number c = ofC c := rfl

namespace Spec

/-- the pair as four roots -/
def Factor.quad : Factor → Quad
  | .conj p z => ⟨p, starRingEnd ℂ p, z, starRingEnd ℂ z⟩
  | .real p1 p2 z1 z2 => ⟨p1, p2, z1, z2⟩

theorem Factor.quad_ok (x : Factor) : x.quad.Ok := by
  cases x with
  | conj p z => exact ⟨.inr rfl, .inr rfl⟩
  | real p1 p2 z1 z2 => exact ⟨.inl ⟨by simp [Factor.quad], by simp [Factor.quad]⟩, .inl ⟨by simp [Factor.quad], by simp [Factor.quad]⟩⟩

theorem Factor.quad_den (x : Factor) (ζ : ℂ) : x.quad.den ζ⁻¹ = (x.poles.map fun p => 1 - p / ζ).prod := by
  cases x <;> simp [Factor.quad, Quad.den, Factor.poles, div_eq_mul_inv]

theorem Factor.quad_num (x : Factor) (ζ : ℂ) : x.quad.num ζ⁻¹ = (x.zeros.map fun p => 1 - p / ζ).prod := by
  cases x <;> simp [Factor.quad, Quad.num, Factor.zeros, div_eq_mul_inv]

/-- the single pole as four roots -/
def Roots.tail (r : Roots) : List Quad :=
  match r.single with
  | some (p, z) => [⟨p, 0, z, 0⟩]
  | none => []

def Roots.quads (r : Roots) : List Quad := r.pairs.map Factor.quad ++ r.tail

theorem Roots.quads_ok (r : Roots) : ∀ d ∈ r.quads, d.Ok := by
  intro d hd
  rw [Roots.quads, List.mem_append, List.mem_map] at hd
  rcases hd with ⟨x, -, rfl⟩ | hd
  · exact x.quad_ok
  · unfold Roots.tail at hd
    split at hd
    · rw [List.mem_singleton] at hd
      subst hd
      exact ⟨.inl ⟨by simp, by simp⟩, .inl ⟨by simp, by simp⟩⟩
    · simp at hd

theorem Roots.den (r : Roots) (ζ : ℂ) : denL r.quads ζ⁻¹ = (r.poles.map fun p => 1 - p / ζ).prod := by
  rw [Roots.quads, denL_append, Roots.poles, List.map_append, List.prod_append]
  congr 1
  · induction r.pairs with
    | nil => simp [denL]
    | cons x xs ih =>
      rw [List.flatMap_cons, List.map_append, List.prod_append, ← ih, ← x.quad_den]
      simp [denL]
  · unfold Roots.tail
    rcases r.single with _ | ⟨p, z⟩ <;> simp [denL, Quad.den, div_eq_mul_inv]

theorem Roots.num (r : Roots) (ζ : ℂ) : numL r.quads ζ⁻¹ = (r.zeros.map fun p => 1 - p / ζ).prod := by
  rw [Roots.quads, numL_append, Roots.zeros, List.map_append, List.prod_append]
  congr 1
  · induction r.pairs with
    | nil => simp [numL]
    | cons x xs ih =>
      rw [List.flatMap_cons, List.map_append, List.prod_append, ← ih, ← x.quad_num]
      simp [numL]
  · unfold Roots.tail
    rcases r.single with _ | ⟨p, z⟩ <;> simp [numL, Quad.num, div_eq_mul_inv]

theorem Factor.poles_length (x : Factor) : x.poles.length = 2 := by cases x <;> rfl

theorem Roots.poles_length (r : Roots) :
    r.poles.length = 2 * r.pairs.length + (if r.single.isSome then 1 else 0) := by
  rw [Roots.poles, List.length_append, List.length_flatMap]
  have : (List.map (fun a : Factor => a.poles.length) r.pairs).sum = 2 * r.pairs.length := by
    rw [List.map_congr_left (g := fun _ => 2) fun x _ => x.poles_length]
    simp [mul_comm]
  rw [this]
  rcases r.single with _ | ⟨p, z⟩ <;> simp

theorem Roots.quads_length (r : Roots) : r.quads.length = (r.poles.length + 1) / 2 := by
  rw [r.poles_length, Roots.quads, List.length_append, List.length_map]
  unfold Roots.tail
  rcases r.single with _ | ⟨p, z⟩ <;> simp <;> omega

/-! ## The program that builds the layout -/

variable {L : ℕ} {w g : XR}

theorem Factor.done_add {x : Factor} (hx : x.Allowed) {ps : List (PoleZeroPair XR)} {m : ℕ} (hm : m % 2 = 0)
    (hL : m / 2 < L) :
    Done (Layout.Stored ps m L w g) x.add (Layout.Stored (ps ++ [x.quad.toX]) (m + 2) L w g) := by
  cases x with
  | conj p z =>
    have := done_addConj (ps := ps) (w := w) (g := g) (isNan_ofC p) (isNan_ofC z) hm hL
    rw [conj_ofC, conj_ofC] at this
    exact this
  | real p1 p2 z1 z2 =>
    obtain ⟨h1, h2, h3, h4⟩ := hx
    exact done_addPair (ps := ps) (w := w) (g := g)
      (isMatchedPair_ofC (p := p1) (q := p2) (.inl ⟨by simp, by simp⟩) (by exact_mod_cast h1) (by exact_mod_cast h2))
      (isMatchedPair_ofC (p := z1) (q := z2) (.inl ⟨by simp, by simp⟩) (by exact_mod_cast h3) (by exact_mod_cast h4))
      hm hL

theorem Roots.done_addAll {xs : List Factor} (hx : ∀ x ∈ xs, x.Allowed) {ps : List (PoleZeroPair XR)} {m : ℕ}
    (hm : m % 2 = 0) (hL : m / 2 + xs.length ≤ L) :
    Done (Layout.Stored ps m L w g) (Roots.build.addAll xs)
      (Layout.Stored (ps ++ (xs.map Factor.quad).map Quad.toX) (m + 2 * xs.length) L w g) := by
  induction xs generalizing ps m with
  | nil => exact Trip.pure fun s hs => by simpa using hs
  | cons x xs ih =>
    rw [List.length_cons] at hL
    refine Trip.bind (Factor.done_add (hx x List.mem_cons_self) hm (by omega)) fun _ => ?_
    have := ih (ps := ps ++ [x.quad.toX]) (m := m + 2) (fun y hy => hx y (List.mem_cons_of_mem _ hy)) (by omega)
      (by omega)
    rw [List.append_assoc] at this
    simpa [List.length_cons, mul_add, add_assoc, add_comm] using this

theorem storage_stored (N : ℕ) : (Layout.storage N : Layout XR).Stored [] 0 ((N + 1) / 2) 0 1 :=
  ⟨rfl, by simp [Layout.storage], by simp, rfl, rfl⟩

theorem Roots.done_build {r : Roots} (hx : ∀ x ∈ r.pairs, x.Allowed) (hL : (r.poles.length + 1) / 2 ≤ L) (w' g' : ℝ) :
    Done (Layout.Stored [] 0 L w g) (r.build w' g')
      (Layout.Stored (r.quads.map Quad.toX) r.poles.length L (fin w') (fin g')) := by
  have hlen := r.poles_length
  have hle : r.pairs.length ≤ L := by
    rw [hlen] at hL; split_ifs at hL <;> omega
  refine Trip.bind (Roots.done_addAll hx (ps := []) (m := 0) rfl (by omega)) fun _ => ?_
  rw [Nat.zero_add, List.nil_append]
  have hend : ∀ m : Exec (Layout XR) Unit,
      Done (Layout.Stored ((r.pairs.map Factor.quad).map Quad.toX) (2 * r.pairs.length) L w g) m
        (Layout.Stored (r.quads.map Quad.toX) r.poles.length L w g) →
      Done (Layout.Stored ((r.pairs.map Factor.quad).map Quad.toX) (2 * r.pairs.length) L w g)
        (m >>= fun _ => Layout.setNormal (fin w') (fin g'))
        (Layout.Stored (r.quads.map Quad.toX) r.poles.length L (fin w') (fin g')) := fun m hm =>
    Trip.bind hm fun _ => done_setNormal _ _
  have hq : r.quads.map Quad.toX = (r.pairs.map Factor.quad).map Quad.toX ++ r.tail.map Quad.toX := by
    rw [Roots.quads, List.map_append]
  unfold Roots.tail at hq
  rcases hs : r.single with _ | ⟨p, z⟩ <;> simp only [hs] at hq hlen ⊢
  · refine hend _ (Trip.pure fun s h => ?_)
    rw [hq, hlen]; simpa using h
  · refine hend _ ?_
    have := done_add (ps := (r.pairs.map Factor.quad).map Quad.toX) (m := 2 * r.pairs.length) (L := L) (w := w) (g := g)
      (isNan_ofC (p : ℂ)) (isNan_ofC (z : ℂ)) single_ofReal single_ofReal (by omega) (by
        simp only [Option.isSome_some, if_true] at hlen
        omega)
    rw [hq, hlen]
    exact this

/-! ## What `setLayout` makes of it -/

theorem modify_take_prod {D : List Quad} (hD : D ≠ []) (hok : ∀ d ∈ D, d.Ok) (K : ℕ) (k : ℝ) (q : ℂ) :
    ((((D.map Quad.sec ++ List.replicate (K - D.length) identC).modify 0 (scaledB k)).take D.length).map
        (Biquad.numQ · q)).prod = k * numL D q ∧
    ((((D.map Quad.sec ++ List.replicate (K - D.length) identC).modify 0 (scaledB k)).take D.length).map
        (Biquad.denQ · q)).prod = denL D q := by
  rw [← numL_secs hok, ← denL_secs hok]
  cases D with
  | nil => exact absurd rfl hD
  | cons d D =>
    have e : List.take D.length (D.map Quad.sec ++ List.replicate (K - (d :: D).length) identC) = D.map Quad.sec := by
      rw [List.take_append_of_le_length (by simp), List.take_of_length_le (by simp)]
    simp only [List.map_cons, List.cons_append, List.modify_zero_cons, List.length_cons, List.take_succ_cons,
      List.prod_cons, scaledB_numQ, scaledB_denQ, mul_assoc]
    simp only [List.length_cons] at e
    rw [e]
    exact ⟨rfl, rfl⟩

theorem modify_prod {D : List Quad} (hD : D ≠ []) (hok : ∀ d ∈ D, d.Ok) (K : ℕ) (k : ℝ) (q : ℂ) :
    (((D.map Quad.sec ++ List.replicate (K - D.length) identC).modify 0 (scaledB k)).map
        (fun b => b.numQ q / b.denQ q)).prod = k * numL D q / denL D q := by
  rw [← numL_secs hok, ← denL_secs hok]
  cases D with
  | nil => exact absurd rfl hD
  | cons d D =>
    have hp : ∀ bs : List (Biquad ℝ), (bs.map (fun b => b.numQ q / b.denQ q)).prod =
        (bs.map (Biquad.numQ · q)).prod / (bs.map (Biquad.denQ · q)).prod := by
      intro bs
      induction bs with
      | nil => simp
      | cons b bs ih => simp only [List.map_cons, List.prod_cons, ih, mul_div_mul_comm]
    have hi : identC.numQ q / identC.denQ q = 1 := by simp [identC, numQ, denQ]
    simp only [List.map_cons, List.cons_append, List.modify_zero_cons, List.prod_cons, List.map_append,
      List.prod_append, List.map_replicate, List.prod_replicate, hi, one_pow, mul_one, scaledB_numQ, scaledB_denQ, hp]
    ring

theorem stableSection_iff {b : Biquad ℝ} (h0 : b.a0 = 1) :
    StableSection b.toX ↔ ∀ z : ℂ, z ^ 2 + b.a1 * z + b.a2 = 0 → ‖z‖ < 1 := by
  refine ⟨fun ⟨k, hk, hs⟩ z hz => hs z ?_, stableSection_of h0⟩
  have e0 : k.a0 = 1 := by have := hk.a0; simp [getA0, toX, h0] at this; exact this.symm
  have e1 : k.a1 = b.a1 := by have := hk.a1; simp [getA1, toX, h0] at this; exact this.symm
  have e2 : k.a2 = b.a2 := by have := hk.a2; simp [getA2, toX, h0] at this; exact this.symm
  rw [e0, e1, e2]; simpa using hz

theorem Quad.sec_stable_iff {d : Quad} (h : d.Ok) (k : ℝ) :
    StableSection (scaledB k d.sec).toX ↔ ‖d.p1‖ < 1 ∧ ‖d.p2‖ < 1 := by
  refine ⟨fun hs => ?_, fun ⟨h1, h2⟩ => Quad.sec_stable h h1 h2 k⟩
  have e : ∀ z : ℂ, z ^ 2 + ((scaledB k d.sec).a1 : ℂ) * z + (scaledB k d.sec).a2 = (z - d.p1) * (z - d.p2) := by
    intro z
    simp only [scaledB, Quad.sec, pairB]
    push_cast
    rw [h.poles.ofReal_sum, h.poles.ofReal_prod]; ring
  have := (stableSection_iff rfl).1 hs
  exact ⟨this _ (by rw [e]; simp), this _ (by rw [e]; simp)⟩

theorem modify_stable {D : List Quad} (hok : ∀ d ∈ D, d.Ok) (K : ℕ) (k : ℝ) :
    (∀ b ∈ ((D.map Quad.sec ++ List.replicate (K - D.length) identC).modify 0 (scaledB k)).map toX, StableSection b) ↔
      ∀ d ∈ D, ‖d.p1‖ < 1 ∧ ‖d.p2‖ < 1 := by
  have h1 : ∀ b : Biquad ℝ, scaledB 1 b = b := fun b => by simp [scaledB]
  have hi : ∀ k, StableSection (scaledB k identC).toX := fun k => by
    refine stableSection_of rfl fun z hz => ?_
    have : z = 0 := by simpa [identC, scaledB] using hz
    rw [this]; simp
  have hsec : ∀ d ∈ D, StableSection d.sec.toX ↔ ‖d.p1‖ < 1 ∧ ‖d.p2‖ < 1 := fun d hd => by
    rw [← h1 d.sec]; exact Quad.sec_stable_iff (hok d hd) 1
  cases D with
  | nil =>
    simp only [List.map_nil, List.nil_append, List.length_nil, Nat.sub_zero, List.not_mem_nil, false_imp_iff,
      implies_true, iff_true]
    cases K with
    | zero => simp
    | succ K =>
      intro b hb
      rw [List.replicate_succ, List.modify_zero_cons, List.map_cons, List.mem_cons, List.map_replicate,
        List.mem_replicate] at hb
      rcases hb with rfl | ⟨-, rfl⟩
      · exact hi k
      · rw [← h1 identC]; exact hi 1
  | cons d D =>
    simp only [List.map_cons, List.cons_append, List.modify_zero_cons, List.mem_cons, forall_eq_or_imp,
      List.map_append, List.map_replicate, List.mem_append, List.mem_map, List.mem_replicate]
    refine and_congr (Quad.sec_stable_iff (hok d List.mem_cons_self) k) ⟨fun h e he => ?_, fun h b hb => ?_⟩
    · exact (hsec e (List.mem_cons_of_mem _ he)).1 (h _ (.inl ⟨_, ⟨e, he, rfl⟩, rfl⟩))
    · rcases hb with ⟨_, ⟨e, he, rfl⟩, rfl⟩ | ⟨-, rfl⟩
      · exact (hsec e (List.mem_cons_of_mem _ he)).2 (h e he)
      · rw [← h1 identC]; exact hi 1

theorem Roots.inside_iff (r : Roots) :
    (∀ d ∈ r.quads, ‖d.p1‖ < 1 ∧ ‖d.p2‖ < 1) ↔ ∀ p ∈ r.poles, ‖p‖ < 1 := by
  simp only [Roots.quads, Roots.poles, List.forall_mem_append]
  refine and_congr ?_ ?_
  · simp only [List.mem_map, List.mem_flatMap, forall_exists_index, and_imp, forall_apply_eq_imp_iff₂]
    refine ⟨fun h p x hx hp => ?_, fun h x hx => ?_⟩
    · have := h x hx
      cases x <;> simp [Factor.poles, Factor.quad] at hp this <;> rcases hp with rfl | rfl <;> simp [this]
    · have h' := fun p hp => h p x hx hp
      cases x <;> simp [Factor.poles, Factor.quad] at h' ⊢ <;> exact h'
  · unfold Roots.tail
    rcases r.single with _ | ⟨p, z⟩ <;> simp

end Spec
end Iir
end
