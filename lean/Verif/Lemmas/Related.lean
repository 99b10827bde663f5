import Verif.Lemmas.RoundChain

/-! # Relations between two runs of a filter

A relation between numbers that sums, differences and products with the coefficients respect holds between the outputs
of two runs if it holds between their inputs. -/

namespace Iir
open FArith Spec

variable {R : Type} [FArith R]

/-- `rel` is respected by sums, differences and products with coefficients from `C`. -/
structure Respected (C : R → Prop) (rel : R → R → Prop) : Prop where
  add : ∀ x x' y y', rel x x' → rel y y' → rel (x + y) (x' + y')
  sub : ∀ x x' y y', rel x x' → rel y y' → rel (x - y) (x' - y')
  mul : ∀ c x x', C c → rel x x' → rel (c * x) (c * x')

/-- The coefficients that `filter` uses are in `C`. -/
structure Biquad.In (C : R → Prop) (b : Biquad R) : Prop where
  a1 : C b.a1
  a2 : C b.a2
  b0 : C b.b0
  b1 : C b.b1
  b2 : C b.b2

/-- Delay lines with related contents. -/
def relState (rel : R → R → Prop) : {S : Type → Type} → [StateType S R] → DelayLine R S → S R → S R → Prop
  | _, _, .df1, s, t => rel s.x1 t.x1 ∧ rel s.x2 t.x2 ∧ rel s.y1 t.y1 ∧ rel s.y2 t.y2
  | _, _, .df2, s, t => rel s.v1 t.v1 ∧ rel s.v2 t.v2
  | _, _, .tdf2, s, t => rel s.s1_1 t.s1_1 ∧ rel s.s2_1 t.s2_1

variable {S : Type → Type} [StateType S R] {C : R → Prop} {rel : R → R → Prop}

theorem relState_init (D : DelayLine R S) (h0 : rel 0 0) : relState rel D (initR S R) (initR S R) := by
  cases D
  · exact ⟨h0, h0, h0, h0⟩
  · exact ⟨h0, h0⟩
  · exact ⟨h0, h0⟩

theorem relState_mono {rel' : R → R → Prop} (D : DelayLine R S) {s t : S R} (h : ∀ x y, rel x y → rel' x y)
    (hs : relState rel D s t) : relState rel' D s t := by
  cases D
  · exact ⟨h _ _ hs.1, h _ _ hs.2.1, h _ _ hs.2.2.1, h _ _ hs.2.2.2⟩
  · exact ⟨h _ _ hs.1, h _ _ hs.2⟩
  · exact ⟨h _ _ hs.1, h _ _ hs.2⟩

theorem relState_step (D : DelayLine R S) (h : Respected C rel) {b : Biquad R} (hb : b.In C) {x x' : R} {s t : S R}
    (hx : rel x x') (hs : relState rel D s t) :
    rel (StateType.filter x b s).1 (StateType.filter x' b t).1 ∧
      relState rel D (StateType.filter x b s).2 (StateType.filter x' b t).2 := by
  cases D
  · obtain ⟨h1, h2, h3, h4⟩ := hs
    have ho := h.sub _ _ _ _ (h.sub _ _ _ _ (h.add _ _ _ _ (h.add _ _ _ _ (h.mul _ _ _ hb.b0 hx)
      (h.mul _ _ _ hb.b1 h1)) (h.mul _ _ _ hb.b2 h2)) (h.mul _ _ _ hb.a1 h3)) (h.mul _ _ _ hb.a2 h4)
    exact ⟨ho, hx, h1, ho, h3⟩
  · obtain ⟨h1, h2⟩ := hs
    have hw := h.sub _ _ _ _ (h.sub _ _ _ _ hx (h.mul _ _ _ hb.a1 h1)) (h.mul _ _ _ hb.a2 h2)
    exact ⟨h.add _ _ _ _ (h.add _ _ _ _ (h.mul _ _ _ hb.b0 hw) (h.mul _ _ _ hb.b1 h1)) (h.mul _ _ _ hb.b2 h2),
      hw, h1⟩
  · obtain ⟨h1, h2⟩ := hs
    have ho := h.add _ _ _ _ h1 (h.mul _ _ _ hb.b0 hx)
    exact ⟨ho, h.sub _ _ _ _ (h.add _ _ _ _ h2 (h.mul _ _ _ hb.b1 hx)) (h.mul _ _ _ hb.a1 ho),
      h.sub _ _ _ _ (h.mul _ _ _ hb.b2 hx) (h.mul _ _ _ hb.a2 ho)⟩

theorem relState_run (D : DelayLine R S) (h : Respected C rel) {b : Biquad R} (hb : b.In C) {x x' : ℕ → R} {s t : S R}
    (hs : relState rel D s t) :
    ∀ n, (∀ m < n, rel (x m) (x' m)) →
      relState rel D (stateAt (fun x s => StateType.filter x b s) s x n)
        (stateAt (fun x s => StateType.filter x b s) t x' n)
  | 0, _ => hs
  | n + 1, hx => (relState_step D h hb (hx n (Nat.lt_succ_self n))
      (relState_run D h hb hs n fun m hm => hx m (hm.trans (Nat.lt_succ_self n)))).2

theorem outAt_related (D : DelayLine R S) (h : Respected C rel) {b : Biquad R} (hb : b.In C) {x x' : ℕ → R} {s t : S R}
    (hs : relState rel D s t) {n : ℕ} (hx : ∀ m ≤ n, rel (x m) (x' m)) :
    rel (outAt (fun x s => StateType.filter x b s) s x n) (outAt (fun x s => StateType.filter x b s) t x' n) :=
  (relState_step D h hb (hx n le_rfl) (relState_run D h hb hs n fun m hm => hx m hm.le)).1

theorem chainR_related [D : DelayLine R S] (h : Respected C rel) (h0 : rel 0 0) {bs : List (Biquad R)} {x x' : ℕ → R}
    (hb : ∀ b ∈ bs, b.In C) (hx : ∀ n, rel (x n) (x' n)) : ∀ n, rel (chainR S bs x n) (chainR S bs x' n) := by
  induction bs generalizing x x' with
  | nil => exact hx
  | cons b bs ih =>
    exact ih (fun b hb' => hb b (List.mem_cons_of_mem _ hb')) fun n =>
      outAt_related D h (hb b List.mem_cons_self) (relState_init D h0) fun m _ => hx m

theorem stateAt_add {σ T : Type} (step : T → σ → T × σ) (s : σ) (x : ℕ → T) (d : ℕ) :
    ∀ n, stateAt step s x (n + d) = stateAt step (stateAt step s x d) (fun n => x (n + d)) n
  | 0 => by rw [Nat.zero_add]; rfl
  | n + 1 => by
    rw [show n + 1 + d = (n + d) + 1 by omega]
    show (step (x (n + d)) (stateAt step s x (n + d))).2 = _
    rw [stateAt_add step s x d n]; rfl

theorem outAt_add {σ T : Type} (step : T → σ → T × σ) (s : σ) (x : ℕ → T) (d n : ℕ) :
    outAt step s x (n + d) = outAt step (stateAt step s x d) (fun n => x (n + d)) n := by
  unfold outAt; rw [stateAt_add]

/-- Two runs, the second of which starts with `d` samples from a set `Z` that the filter does not leave. -/
theorem chainR_delayed [D : DelayLine R S] (h : Respected C rel) {Z : R → Prop}
    (hZ : Respected C fun _ x => Z x) (hz0 : Z 0) (hZrel : ∀ x, Z x → rel 0 x) {bs : List (Biquad R)} {x x' : ℕ → R}
    (hb : ∀ b ∈ bs, b.In C) {d : ℕ} (hx0 : ∀ n < d, Z (x' n)) (hx : ∀ n, rel (x n) (x' (n + d))) :
    (∀ n < d, Z (chainR S bs x' n)) ∧ ∀ n, rel (chainR S bs x n) (chainR S bs x' (n + d)) := by
  induction bs generalizing x x' with
  | nil => exact ⟨hx0, hx⟩
  | cons b bs ih =>
    have hb1 := hb b List.mem_cons_self
    have hs : relState (fun _ x => Z x) D (initR S R) (initR S R) := relState_init D hz0
    refine ih (fun b hb' => hb b (List.mem_cons_of_mem _ hb')) (fun n hn => ?_) fun n => ?_
    · exact outAt_related D hZ hb1 (x := x) hs fun m hm => hx0 m (lt_of_le_of_lt hm hn)
    · rw [outAt_add]
      refine outAt_related D h hb1 ?_ fun m _ => hx m
      have h1 := relState_run D hZ hb1 (x := fun _ => 0) (x' := x') hs d hx0
      have h2 := zero_left D (Z := Z) h1
      exact relState_mono D (fun a b hab => by rw [hab.1]; exact hZrel _ hab.2) h2
where
  zero_left (D : DelayLine R S) {Z : R → Prop} {s t : S R} (h : relState (fun _ x => Z x) D s t) :
      relState (fun a x => a = 0 ∧ Z x) D (initR S R) t := by
    cases D
    · exact ⟨⟨rfl, h.1⟩, ⟨rfl, h.2.1⟩, ⟨rfl, h.2.2.1⟩, ⟨rfl, h.2.2.2⟩⟩
    · exact ⟨⟨rfl, h.1⟩, ⟨rfl, h.2⟩⟩
    · exact ⟨⟨rfl, h.1⟩, ⟨rfl, h.2⟩⟩

end Iir
