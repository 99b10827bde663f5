import Verif.Lemmas.RoundSection
import Verif.Lemmas.Produces
import Verif.Props.TimeDomain
import Mathlib.Analysis.Complex.Polynomial.Basic

/-! # Chains of sections in arithmetic with rounding errors -/

set_option linter.unusedSectionVars false

namespace Iir
open FArith Spec Exec

section chain
variable {R : Type} [FArith R]

/-- Output of a chain of sections with empty delay lines. -/
def chainR (S : Type → Type) [StateType S R] : List (Biquad R) → (ℕ → R) → ℕ → R
  | [], x => x
  | b :: bs, x => chainR S bs (outAt (fun x s => StateType.filter x b s) (initR S R) x)

variable {S : Type → Type} [StateType S R]

theorem filterD_stateAt (b : Biquad R) (bs : List (Biquad R)) (s : S R) (ss : List (S R)) (x : ℕ → R) (n : ℕ) :
    stateAt (fun x ss => CascadeStages.filterD (b :: bs) ss x) (s :: ss) x n =
      stateAt (fun x s => StateType.filter x b s) s x n ::
        stateAt (fun x ss => CascadeStages.filterD bs ss x) ss (outAt (fun x s => StateType.filter x b s) s x) n := by
  induction n with
  | zero => rfl
  | succ n ih =>
    simp only [stateAt] at ih ⊢
    rw [ih]
    rfl

theorem filterD_outAt (bs : List (Biquad R)) (x : ℕ → R) :
    outAt (fun x ss => CascadeStages.filterD bs ss x) (List.replicate bs.length (initR S R)) x = chainR S bs x := by
  induction bs generalizing x with
  | nil => rfl
  | cons b bs ih =>
    rw [chainR, ← ih]
    funext n
    show (CascadeStages.filterD (b :: bs) (stateAt _ (initR S R :: List.replicate bs.length (initR S R)) x n) (x n)).1 = _
    rw [filterD_stateAt]
    rfl

theorem returns_of_step {σ τ : Type} {flt : R → Exec σ R} {step : R → τ → R × τ} {Rel : σ → τ → Prop}
    (h : ∀ s t x, Rel s t → ∃ s', flt x s = (.ok (step x t).1, s') ∧ Rel s' (step x t).2)
    {s : σ} {t : τ} (hst : Rel s t) (x : ℕ → R) : Returns flt s x (outAt step t x) := by
  have key : ∀ N, ∃ s', feed flt ((List.range N).map x) s = (.ok ((List.range N).map (outAt step t x)), s') ∧
      Rel s' (stateAt step t x N) := by
    intro N
    induction N with
    | zero => exact ⟨s, rfl, hst⟩
    | succ N ih =>
      obtain ⟨s1, e1, h1⟩ := ih
      obtain ⟨s2, e2, h2⟩ := h _ _ (x N) h1
      refine ⟨s2, ?_, h2⟩
      rw [List.range_succ, List.map_append, List.map_append]
      simp only [List.map_cons, List.map_nil]
      rw [feed_snoc, e1]
      simp only [e2]
      rfl
  intro N
  obtain ⟨s', e, _⟩ := key N
  rw [e]

theorem Spec.Returns.unique {σ : Type} {flt : R → Exec σ R} {f : σ} {x y y' : ℕ → R}
    (h : Returns flt f x y) (h' : Returns flt f x y') : y = y' := by
  funext n
  have h1 := (h (n + 1)).symm.trans (h' (n + 1))
  simp only [Res.ok.injEq, List.map_inj_left, List.mem_range] at h1
  exact h1 n (Nat.lt_succ_self n)

theorem PoleFilter.returns [LawfulState S R] {f : PoleFilter S R}
    (hl : f.states.length = f.base.cascade.stages.length) (x : ℕ → R) :
    Returns (PoleFilter.filter (T := R)) (PoleFilter.reset f).2 x (chainR S f.base.cascade.stages x) := by
  rw [← filterD_outAt]
  refine returns_of_step
    (Rel := fun (g : PoleFilter S R) ss => g.base.cascade.stages = f.base.cascade.stages ∧ g.states = ss)
    (fun g ss x h => ?_) (s := (PoleFilter.reset f).2) ⟨rfl, ?_⟩ x
  · refine ⟨{ g with states := (CascadeStages.filterD f.base.cascade.stages ss x).2 }, ?_, h.1, rfl⟩
    obtain ⟨h1, rfl⟩ := h
    simp [PoleFilter.filter, Exec.zoom, CascadeStages.filter, Sample.toR, Sample.ofR, h1]
  · simp only [PoleFilter.reset, modify_def, reset_states, hl]

theorem Custom.SOS.returns [LawfulState S R] {f : Custom.SOS S R}
    (hl : f.states.length = f.stages.length) (x : ℕ → R) :
    Returns (Custom.SOS.filter (T := R)) (Custom.SOS.reset f).2 x (chainR S f.stages x) := by
  rw [← filterD_outAt]
  refine returns_of_step (Rel := fun (g : Custom.SOS S R) ss => g.stages = f.stages ∧ g.states = ss)
    (fun g ss x h => ?_) (s := (Custom.SOS.reset f).2) ⟨rfl, ?_⟩ x
  · refine ⟨{ g with states := (CascadeStages.filterD f.stages ss x).2 }, ?_, h.1, rfl⟩
    obtain ⟨h1, rfl⟩ := h
    simp [Custom.SOS.filter, Exec.zoom, CascadeStages.filter, Sample.toR, Sample.ofR, h1]
  · simp only [Custom.SOS.reset, modify_def, reset_states, hl]

theorem RBJ.Filter.returns {f : RBJ.Filter R} (x : ℕ → R) :
    Returns (RBJ.Filter.filter (T := R)) (RBJ.Filter.reset f).2 x (chainR DirectFormI [f.biquad] x) := by
  refine returns_of_step (step := fun x s => StateType.filter x f.biquad s) (t := initR DirectFormI R)
    (Rel := fun (g : RBJ.Filter R) s => g.biquad = f.biquad ∧ g.state = s) (fun g ss x h => ?_)
    (s := (RBJ.Filter.reset f).2) ⟨rfl, rfl⟩ x
  refine ⟨{ g with state := (StateType.filter x f.biquad ss).2 }, ?_, h.1, rfl⟩
  obtain ⟨h1, rfl⟩ := h
  simp only [RBJ.Filter.filter, h1]
  rfl

/-! ## Code that may use fused operations -/

variable {F : Option (R → R → R → R)}

/-- The outputs that compiled code may return for a chain of sections with empty delay lines. -/
def ChainC (F : Option (R → R → R → R)) (S : Type → Type) [StateType S R] [DelayLine R S] :
    List (Biquad R) → (ℕ → R) → (ℕ → R) → Prop
  | [], x, y => y = x
  | b :: bs, x, y => ∃ x1, SecC F S b x x1 ∧ ChainC F S bs x1 y

/-- Code without fused operations. -/
theorem StepC.plain [D : DelayLine R S] (x : R) (b : Biquad R) (s : S R) :
    StepC F x b s (StateType.filter x b s).1 (StateType.filter x b s).2 := by
  cases D
  · exact ⟨.sub (.sub (.add (.add (.prod _ _) (.prod _ _)) (.prod _ _)) (.prod _ _)) (.prod _ _), rfl⟩
  · exact ⟨_, .sub (.sub (.var _) (.prod _ _)) (.prod _ _), .add (.add (.prod _ _) (.prod _ _)) (.prod _ _), rfl⟩
  · exact ⟨_, _, .add (.var _) (.prod _ _), .sub (.add (.var _) (.prod _ _)) (.prod _ _), .sub (.prod _ _) (.prod _ _), rfl⟩

theorem SecC.plain [DelayLine R S] (b : Biquad R) (x : ℕ → R) :
    SecC F S b x (outAt (fun x s => StateType.filter x b s) (initR S R) x) :=
  ⟨stateAt _ _ x, rfl, fun _ => StepC.plain _ _ _⟩

theorem ChainC.plain [DelayLine R S] (bs : List (Biquad R)) (x : ℕ → R) : ChainC F S bs x (chainR S bs x) := by
  induction bs generalizing x with
  | nil => rfl
  | cons b bs ih => exact ⟨_, SecC.plain b x, ih _⟩

theorem Spec.FeedC.chainC [DelayLine R S] {bs : List (Biquad R)} {x y : ℕ → R}
    (h : FeedC F bs (List.replicate bs.length (initR S R)) x y) : ChainC F S bs x y := by
  induction bs generalizing x with
  | nil =>
    obtain ⟨st, -, h⟩ := h
    funext n
    have := h n
    generalize st n = a at this
    generalize st (n + 1) = c at this
    generalize x n = p at this ⊢
    generalize y n = q at this ⊢
    cases this
    rfl
  | cons b bs ih =>
    obtain ⟨st, h0, h⟩ := h
    have key : ∀ n, ∃ s ss x1 s' ss', st n = s :: ss ∧ st (n + 1) = s' :: ss' ∧ StepC F (x n) b s x1 s' ∧
        CascadeC F bs x1 ss (y n) ss' := by
      intro n
      have := h n
      generalize st n = a at this ⊢
      generalize st (n + 1) = c at this ⊢
      cases this with
      | cons h1 h2 => exact ⟨_, _, _, _, _, rfl, rfl, h1, h2⟩
    choose s ss x1 s' ss' e1 e2 h1 h2 using key
    have e3 : ∀ n, s (n + 1) = s' n ∧ ss (n + 1) = ss' n := fun n => by
      have := (e1 (n + 1)).symm.trans (e2 n)
      simpa using this
    have e0 : s 0 = initR S R ∧ ss 0 = List.replicate bs.length (initR S R) := by
      have := (e1 0).symm.trans h0
      simpa [List.replicate_succ] using this
    refine ⟨x1, ⟨s, e0.1, fun n => ?_⟩, ih ⟨ss, e0.2, fun n => ?_⟩⟩
    · rw [(e3 n).1]; exact h1 n
    · rw [(e3 n).2]; exact h2 n

/-- the value without fused operations -/
def Spec.Expr.eval : Expr R → R
  | .var x => x
  | .prod a b => a * b
  | .add e f => eval e + eval f
  | .sub e f => eval e - eval f

theorem Spec.Computes.eval {v : R} {e : Expr R} (h : Computes none e v) : v = e.eval := by
  induction h with
  | var | prod => rfl
  | add _ _ h1 h2 | sub _ _ h1 h2 => rw [h1, h2]; rfl
  | fuseLeft h | fuseRight h | fuseSubLeft h | fuseSubRight h => exact absurd h (by simp)

/-- Without a fused multiply-add instruction there is one way to compile the code. -/
theorem StepC.none_iff [D : DelayLine R S] {x : R} {b : Biquad R} {s : S R} {y : R} {s' : S R} :
    StepC none x b s y s' ↔ y = (StateType.filter x b s).1 ∧ s' = (StateType.filter x b s).2 := by
  refine ⟨fun h => ?_, ?_⟩
  · cases D
    · obtain ⟨h1, rfl⟩ := h
      obtain rfl := h1.eval
      exact ⟨rfl, rfl⟩
    · obtain ⟨w, h1, h2, rfl⟩ := h
      obtain rfl := h1.eval
      obtain rfl := h2.eval
      exact ⟨rfl, rfl⟩
    · obtain ⟨s1, s2, h1, h2, h3, rfl⟩ := h
      obtain rfl := h1.eval
      obtain rfl := h2.eval
      obtain rfl := h3.eval
      exact ⟨rfl, rfl⟩
  · rintro ⟨rfl, rfl⟩; exact StepC.plain x b s

theorem Spec.CascadeC.plain [DelayLine R S] {bs : List (Biquad R)} {ss : List (S R)} (hl : ss.length = bs.length) (x : R) :
    CascadeC F bs x ss (CascadeStages.filterD bs ss x).1 (CascadeStages.filterD bs ss x).2 := by
  induction bs generalizing ss x with
  | nil => obtain rfl := List.length_eq_zero_iff.1 hl; exact .nil x
  | cons b bs ih =>
    rcases ss with _ | ⟨s, ss⟩
    · simp at hl
    · exact .cons (StepC.plain x b s) (ih (by simpa using hl) _)

theorem Spec.CascadeC.of_none [DelayLine R S] {bs : List (Biquad R)} {ss : List (S R)} {x y : R} {ss' : List (S R)}
    (h : CascadeC none bs x ss y ss') : CascadeStages.filterD bs ss x = (y, ss') := by
  induction h with
  | nil => rfl
  | cons h1 _ ih =>
    obtain ⟨rfl, rfl⟩ := StepC.none_iff.1 h1
    simp [CascadeStages.filterD, ih]

theorem Spec.FeedC.plain [DelayLine R S] {bs : List (Biquad R)} {ss : List (S R)} (hl : ss.length = bs.length) (x : ℕ → R) :
    FeedC F bs ss x (outAt (fun x ss => CascadeStages.filterD bs ss x) ss x) := by
  refine ⟨stateAt _ ss x, rfl, fun n => CascadeC.plain ?_ _⟩
  induction n with
  | zero => exact hl
  | succ n ih => rw [← ih]; exact filterD_length _ _ _

theorem Spec.FeedC.of_none [DelayLine R S] {bs : List (Biquad R)} {ss : List (S R)} {x y : ℕ → R} (h : FeedC none bs ss x y) :
    y = outAt (fun x ss => CascadeStages.filterD bs ss x) ss x := by
  obtain ⟨st, h0, h⟩ := h
  have hst : ∀ n, st n = stateAt (fun x ss => CascadeStages.filterD bs ss x) ss x n := by
    intro n
    induction n with
    | zero => exact h0
    | succ n ih => rw [stateAt, ← ih, (h n).of_none]
  funext n
  rw [outAt, ← hst, (h n).of_none]

theorem PoleFilter.returns_outAt (f : PoleFilter S R) (x : ℕ → R) :
    Returns (PoleFilter.filter (T := R)) f x
      (outAt (fun x ss => CascadeStages.filterD f.base.cascade.stages ss x) f.states x) := by
  refine returns_of_step
    (Rel := fun (g : PoleFilter S R) ss => g.base.cascade.stages = f.base.cascade.stages ∧ g.states = ss)
    (fun g ss x h => ?_) (s := f) ⟨rfl, rfl⟩ x
  refine ⟨{ g with states := (CascadeStages.filterD f.base.cascade.stages ss x).2 }, ?_, h.1, rfl⟩
  obtain ⟨h1, rfl⟩ := h
  simp [PoleFilter.filter, Exec.zoom, CascadeStages.filter, Sample.toR, Sample.ofR, h1]

theorem Custom.SOS.returns_outAt (f : Custom.SOS S R) (x : ℕ → R) :
    Returns (Custom.SOS.filter (T := R)) f x (outAt (fun x ss => CascadeStages.filterD f.stages ss x) f.states x) := by
  refine returns_of_step (Rel := fun (g : Custom.SOS S R) ss => g.stages = f.stages ∧ g.states = ss)
    (fun g ss x h => ?_) (s := f) ⟨rfl, rfl⟩ x
  refine ⟨{ g with states := (CascadeStages.filterD f.stages ss x).2 }, ?_, h.1, rfl⟩
  obtain ⟨h1, rfl⟩ := h
  simp [Custom.SOS.filter, Exec.zoom, CascadeStages.filter, Sample.toR, Sample.ofR, h1]

theorem RBJ.Filter.returns_outAt (f : RBJ.Filter R) (x : ℕ → R) :
    Returns (RBJ.Filter.filter (T := R)) f x (outAt (fun x ss => CascadeStages.filterD [f.biquad] ss x) [f.state] x) := by
  refine returns_of_step (Rel := fun (g : RBJ.Filter R) ss => g.biquad = f.biquad ∧ [g.state] = ss)
    (fun g ss x h => ?_) (s := f) ⟨rfl, rfl⟩ x
  refine ⟨{ g with state := (DirectFormI.filter x f.biquad g.state).2 }, ?_, h.1, ?_⟩
  · obtain ⟨h1, rfl⟩ := h
    simp only [RBJ.Filter.filter, h1]
    rfl
  · obtain ⟨h1, rfl⟩ := h
    rfl

end chain

/-! ## Constants of a chain -/

/-- A quadratic whose roots are inside the unit circle, factored. -/
theorem Coeffs_exists_poles {k : Coeffs} (h0 : k.a0 = 1) (hs : k.Stable) : ∃ p q, k.StablePoles p q := by
  obtain ⟨s, hs2⟩ := IsAlgClosed.exists_pow_nat_eq ((k.a1 : ℂ) ^ 2 - 4 * k.a2) (n := 2) (by norm_num)
  have h1 : ((-(k.a1 : ℂ) + s) / 2) ^ 2 + k.a1 * ((-(k.a1 : ℂ) + s) / 2) + k.a2 = 0 := by
    linear_combination hs2 / 4
  have h2 : ((-(k.a1 : ℂ) - s) / 2) ^ 2 + k.a1 * ((-(k.a1 : ℂ) - s) / 2) + k.a2 = 0 := by
    linear_combination hs2 / 4
  refine ⟨(-(k.a1 : ℂ) + s) / 2, (-(k.a1 : ℂ) - s) / 2, ?_, ?_, hs _ ?_, hs _ ?_⟩
  · ring
  · linear_combination hs2 / 4
  · rw [h0]; simpa using h1
  · rw [h0]; simpa using h2

/-- exact response of a stable section to a bounded input -/
theorem diffEq_bound {k : Coeffs} {p q : ℂ} (h0 : k.a0 = 1) (hk : k.StablePoles p q) {x y : ℕ → ℝ} (h : k.DiffEq x y) {X : ℝ}
    (hx : ∀ n, |x n| ≤ X) (n : ℕ) : |y n| ≤ poleGain p q * (k.forward * X) := by
  refine second_order_bound hk (d := y) (N := n + 1) (fun m _ => ?_) n (Nat.lt_succ_self n)
  have h2 := h m
  rw [h0, div_one] at h2
  have h6 := forward_le (k := k) hx m
  have e : y m + k.a1 * delayed 1 y m + k.a2 * delayed 2 y m = k.b0 * x m + k.b1 * delayed 1 x m + k.b2 * delayed 2 x m := by
    linarith
  rw [e]
  exact (abs_add_three _ _ _).trans h6

theorem delayed_sub (j : ℕ) (x x' : ℕ → ℝ) (n : ℕ) :
    delayed j (fun n => x n - x' n) n = delayed j x n - delayed j x' n := by
  unfold delayed; split_ifs <;> simp

theorem diffEq_sub {k : Coeffs} (h0 : k.a0 = 1) {x x' y y' : ℕ → ℝ} (h : k.DiffEq x y) (h' : k.DiffEq x' y') :
    k.DiffEq (fun n => x n - x' n) (fun n => y n - y' n) := by
  intro n
  have h1 := h n
  have h2 := h' n
  rw [h0, div_one] at h1 h2 ⊢
  simp only [delayed_sub]
  rw [h1, h2]
  ring

/-- Two inputs that are close give outputs that are close. -/
theorem chain_gain {ks : List Coeffs} (hst : ∀ k ∈ ks, k.a0 = 1 ∧ k.Stable) :
    ∃ G : ℝ, 0 ≤ G ∧ ∀ x x' y y' D, DiffChain ks x y → DiffChain ks x' y' → (∀ n, |x n - x' n| ≤ D) →
      ∀ n, |y n - y' n| ≤ G * D := by
  induction ks with
  | nil =>
    refine ⟨1, zero_le_one, ?_⟩
    intro x x' y y' D h h' hD n
    cases h; cases h'
    rw [one_mul]; exact hD n
  | cons k ks ih =>
    obtain ⟨G, hG0, hG⟩ := ih fun k hk => hst k (List.mem_cons_of_mem _ hk)
    obtain ⟨h0, hs⟩ := hst k (List.mem_cons_self ..)
    obtain ⟨p, q, hk⟩ := Coeffs_exists_poles h0 hs
    have hK := poleGain_pos hk.p_lt hk.q_lt
    have hB := Coeffs_forward_nonneg k
    refine ⟨G * (poleGain p q * k.forward), by positivity, ?_⟩
    intro x x' y y' D h h' hD n
    rcases h with _ | ⟨h1, h2⟩
    rcases h' with _ | ⟨h1', h2'⟩
    have := hG _ _ _ _ _ h2 h2' (fun n => diffEq_bound h0 hk (diffEq_sub h0 h1 h1') hD n) n
    refine this.trans (le_of_eq ?_)
    ring

section arith
variable {L B X η u c C1 H M : ℝ}

theorem round_arith1 (hL : 1 ≤ L) (hB : 0 ≤ B) (hX : 0 ≤ X) (hη : 0 ≤ η) :
    2 * L * ((1 + B) * X + 9 * η) ≤ 20 * L * (1 + B) * (X + η) := by
  have : 0 ≤ L * η * B := by positivity
  have : 0 ≤ L * X * B := by positivity
  have : 0 ≤ L * X := by positivity
  have : 0 ≤ L * η := by positivity
  linarith

theorem round_arith2 (hM : 0 ≤ M) (hu : u * (18 * L) ≤ 1) (hMdef : 2 * L * ((1 + B) * X + 9 * η) = M) :
    L * ((1 + B) * X + 9 * (u * M + η)) ≤ M := by
  have h : L * ((1 + B) * X + 9 * (u * M + η)) = M / 2 + (u * (18 * L)) * M / 2 := by
    linear_combination hMdef / 2
  have := mul_le_mul_of_nonneg_right hu hM
  rw [h]
  linarith

theorem round_arith3 (hL : 1 ≤ L) (hB : 0 ≤ B) (hX : 0 ≤ X) (hη : 0 ≤ η) (hu0 : 0 ≤ u) (hu : u * (18 * L) ≤ 1) :
    u * (2 * L * ((1 + B) * X + 9 * η)) + η ≤ 20 * L * (1 + B) * (u * X + η) := by
  have h1 := mul_le_mul_of_nonneg_right hu hη
  have h2 : 0 ≤ L * (u * X) := by positivity
  have h3 : 0 ≤ L * B * (u * X) := by positivity
  have h4 : 0 ≤ L * B * η := by positivity
  have h5 := mul_le_mul_of_nonneg_right hL hη
  linarith

theorem round_arith4 (hH : 0 ≤ H) (hC1 : 0 ≤ C1) (hX : 0 ≤ X) (hη : 0 ≤ η) (hu2 : u ≤ 1) :
    H * X + C1 * (u * X + η) + η ≤ (H + C1 + 1) * (X + η) := by
  have h1 := mul_le_mul_of_nonneg_right hu2 hX
  have h2 := mul_le_mul_of_nonneg_left h1 hC1
  have h3 : 0 ≤ H * η := by positivity
  linarith

theorem round_arith5 (hH : 0 ≤ H) (hC1 : 0 ≤ C1) (hX : 0 ≤ X) (hη : 0 ≤ η) (hu0 : 0 ≤ u) (hu2 : u ≤ 1) :
    u * (H * X + C1 * (u * X + η)) + η ≤ (H + C1 + 1) * (u * X + η) := by
  have h0 : 0 ≤ C1 * (u * X + η) := by positivity
  have h1 := mul_le_mul_of_nonneg_right hu2 h0
  have h3 : 0 ≤ H * η := by positivity
  have h4 : 0 ≤ u * X := by positivity
  linarith

end arith

theorem StablePoles_unique {k : Coeffs} {p q p' q' : ℂ} (h : k.StablePoles p q) (h' : k.StablePoles p' q') :
    poleGain p' q' = poleGain p q := by
  have h1 : p' + q' = p + q := by linear_combination h'.sum - h.sum
  have h2 : p' * q' = p * q := h'.prod.symm.trans h.prod
  have h3 : (p' - p) * (p' - q) = 0 := by linear_combination p' * h1 - h2
  unfold poleGain
  rcases mul_eq_zero.1 h3 with h4 | h4
  · have e1 := sub_eq_zero.1 h4
    have e2 : q' = q := by linear_combination h1 - e1
    rw [e1, e2]
  · have e1 := sub_eq_zero.1 h4
    have e2 : q' = p := by linear_combination h1 - e1
    rw [e1, e2, mul_comm]

/-- Every section is served by precise enough arithmetic. -/
theorem precise_of_small {k : Coeffs} (h0 : k.a0 = 1) (hs : k.Stable) : ∃ u0 : ℝ, 0 < u0 ∧ ∀ u ≤ u0, k.Precise u := by
  obtain ⟨p, q, hk⟩ := Coeffs_exists_poles h0 hs
  have hK := poleGain_pos hk.p_lt hk.q_lt
  have hB := Coeffs_forward_nonneg k
  have hA := Coeffs_back_nonneg k
  have hL : 0 < 18 * (1 + (k.back + k.forward) * poleGain p q) := by positivity
  refine ⟨1 / (18 * (1 + (k.back + k.forward) * poleGain p q)), by positivity, fun u hu p' q' hk' => ?_⟩
  rw [StablePoles_unique hk hk']
  rw [le_div_iff₀ hL] at hu
  linarith

/-- **Chains of stable sections**: constants that depend on the exact sections only, such that in every arithmetic that is
precise enough the output is finite and its distance from the exact response is at most `C (u X + η)`, at all times. -/
theorem chain_within {ks : List Coeffs} (hst : ∀ k ∈ ks, k.a0 = 1 ∧ k.Stable) :
    ∃ C : ℝ, 1 ≤ C ∧ ∀ (R : Type) [FArith R] (S : Type → Type) [StateType S R] [DelayLine R S] (u η Ω : ℝ)
      (r : Rounds R u η Ω), (∀ k ∈ ks, k.Precise u) → ∀ bs, List.Forall₂ r.Values bs ks → ∀ X x, r.Input X x → C * (X + η) ≤ Ω →
      ∀ F, (∀ fma ∈ F, r.Fused fma) → ∀ out, ChainC F S bs x out →
      ∀ y, DiffChain ks (fun n => r.val (x n)) y → r.Within (C * (u * X + η)) out y := by
  induction ks with
  | nil =>
    refine ⟨1, le_rfl, ?_⟩
    intro R _ S _ _ u η Ω r hu bs hbs X x hx hΩ F hF out hrun y hy
    cases hbs
    cases hy
    obtain rfl := hrun
    intro n
    refine ⟨(hx n).1, ?_⟩
    have hX : 0 ≤ X := (abs_nonneg _).trans (hx 0).2
    have := mul_nonneg r.u_nonneg hX
    have := r.η_nonneg
    simp only [sub_self, abs_zero]
    linarith
  | cons k ks ih =>
    obtain ⟨C', hC'1, hC'⟩ := ih fun k hk => hst k (List.mem_cons_of_mem _ hk)
    obtain ⟨G, hG0, hG⟩ := chain_gain fun k hk => hst k (List.mem_cons_of_mem _ hk)
    obtain ⟨h0, hs⟩ := hst k (List.mem_cons_self ..)
    obtain ⟨p, q, hk⟩ := Coeffs_exists_poles h0 hs
    have hK := poleGain_pos hk.p_lt hk.q_lt
    have hB := Coeffs_forward_nonneg k
    have hA := Coeffs_back_nonneg k
    generalize hLdef : 1 + (k.back + k.forward) * poleGain p q = L
    have hL : 1 ≤ L := by rw [← hLdef]; have : 0 ≤ (k.back + k.forward) * poleGain p q := by positivity
                          linarith
    generalize hcdef : 20 * L * (1 + k.forward) = c
    have hc : 1 ≤ c := by rw [← hcdef]; nlinarith
    generalize hC1def : 9 * poleGain p q * (1 + k.back + k.forward) * c = C1
    have hC1 : 0 ≤ C1 := by rw [← hC1def]; positivity
    generalize hHdef : poleGain p q * k.forward = H
    have hH : 0 ≤ H := by rw [← hHdef]; positivity
    refine ⟨c + C' * (H + C1 + 1) + G * C1, ?_, ?_⟩
    · have : 0 ≤ C' * (H + C1 + 1) := by positivity
      have : 0 ≤ G * C1 := by positivity
      linarith
    intro R _ S _ _ u η Ω r hu bs hbs X x hx hΩ F hF out hrun z hz
    have hu1 : ∀ k ∈ ks, k.Precise u := fun k hk => hu k (List.mem_cons_of_mem _ hk)
    have hu3 : u * (18 * L) ≤ 1 := by
      have := hu k List.mem_cons_self p q hk
      rw [hLdef] at this
      linarith
    have hu2 : u ≤ 1 := by
      have : u * (18 * 1) ≤ u * (18 * L) := mul_le_mul_of_nonneg_left (by linarith) r.u_nonneg
      have := r.u_nonneg
      linarith
    have hu0 := r.u_nonneg
    have hη := r.η_nonneg
    have hX : 0 ≤ X := (abs_nonneg _).trans (hx 0).2
    rcases hbs with _ | ⟨hb, hbs⟩
    rename_i b bs
    rcases hz with _ | ⟨hy, hz⟩
    rename_i y
    -- the room for the first section
    generalize hMdef : 2 * L * ((1 + k.forward) * X + 9 * η) = M
    have hM0 : 0 ≤ M := by rw [← hMdef]; positivity
    have hMle : M ≤ c * (X + η) := by rw [← hMdef, ← hcdef]; exact round_arith1 hL hB hX hη
    have hXη : 0 ≤ X + η := by positivity
    have hCpos1 : 0 ≤ C' * (H + C1 + 1) := by positivity
    have hCpos2 : 0 ≤ G * C1 := by positivity
    have hroom : Room u η Ω k p q X M := by
      constructor
      · refine hMle.trans (le_trans ?_ hΩ)
        exact mul_le_mul_of_nonneg_right (by linarith) hXη
      · rw [hLdef]; exact round_arith2 hM0 hu3 hMdef
    have hδ : u * M + η ≤ c * (u * X + η) := by
      rw [← hMdef, ← hcdef]; exact round_arith3 hL hB hX hη hu0 hu3
    obtain ⟨x1, hrun1, hrun2⟩ := hrun
    have hsec := section_within S r hF hrun1 hb hk hx hM0 hroom hy
    have hD1 : 9 * poleGain p q * (1 + k.back + k.forward) * (u * M + η) ≤ C1 * (u * X + η) := by
      rw [← hC1def, mul_assoc (9 * poleGain p q * (1 + k.back + k.forward)) c]
      exact mul_le_mul_of_nonneg_left hδ (by positivity)
    have hsec' : ∀ n, r.Fin (x1 n) ∧ |r.val (x1 n) - y n| ≤ C1 * (u * X + η) :=
      fun n => ⟨(hsec n).1, (hsec n).2.trans hD1⟩
    have hyb := diffEq_bound h0 hk hy (fun n => (hx n).2)
    have hX1 : r.Input (H * X + C1 * (u * X + η)) x1 := by
      intro n
      refine ⟨(hsec' n).1, ?_⟩
      have a := abs_le.1 (hsec' n).2
      have b := hyb n
      rw [← mul_assoc, hHdef] at b
      have b := abs_le.1 b
      exact abs_le.2 ⟨by linarith, by linarith⟩
    have hX1le := round_arith4 (X := X) hH hC1 hX hη hu2
    have hchain := hC' R S u η Ω r hu1 bs hbs _ x1 hX1 (by
      refine (mul_le_mul_of_nonneg_left hX1le (by linarith)).trans (le_trans ?_ hΩ)
      rw [← mul_assoc]
      exact mul_le_mul_of_nonneg_right (by linarith) hXη) F hF _ hrun2 _ (chain_diffChain ks (fun n => r.val (x1 n)))
    intro n
    obtain ⟨g1, g2⟩ := hchain n
    have g3 := hG _ _ _ _ _ (chain_diffChain ks (fun n => r.val (x1 n))) hz (fun n => (hsec' n).2) n
    refine ⟨g1, ?_⟩
    have g4 : C' * (u * (H * X + C1 * (u * X + η)) + η) ≤ C' * (H + C1 + 1) * (u * X + η) := by
      rw [mul_assoc]
      refine mul_le_mul_of_nonneg_left ?_ (by linarith)
      exact round_arith5 hH hC1 hX hη hu0 hu2
    have g5 : 0 ≤ c * (u * X + η) := by positivity
    have a := abs_le.1 g2
    have b := abs_le.1 g3
    have e : (c + C' * (H + C1 + 1) + G * C1) * (u * X + η) =
      c * (u * X + η) + C' * (H + C1 + 1) * (u * X + η) + G * (C1 * (u * X + η)) := by ring
    rw [e]
    exact abs_le.2 ⟨by linarith, by linarith⟩

end Iir
