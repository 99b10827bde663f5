import Verif.Exact.XR
import Verif.Spec.Signal
import Verif.Model.Cascade
import Mathlib.Tactic.Ring
import Mathlib.Tactic.LinearCombination

/-! # Sections in exact arithmetic: the three topologies are the same linear system

`secStep` is a textbook second order section over `ℝ` (state `(c0, c1)`: the contribution of the past
to this output and to the next).  Every topology is related to it by `Sim`. -/

namespace Iir
open FArith XR Spec

/-- A section with finite coefficients. -/
def Biquad.toX (b : Biquad ℝ) : Biquad XR :=
  { a0 := fin b.a0, a1 := fin b.a1, a2 := fin b.a2, b1 := fin b.b1, b2 := fin b.b2, b0 := fin b.b0 }

/-- Sections as stored: normalised by `a0`. -/
noncomputable def Spec.Coeffs.norm (k : Coeffs) : Biquad ℝ :=
  { a0 := k.a0, a1 := k.a1 / k.a0, a2 := k.a2 / k.a0, b0 := k.b0 / k.a0, b1 := k.b1 / k.a0,
    b2 := k.b2 / k.a0 }

/-- The coefficients of a stored section. -/
def Biquad.coeffs (b : Biquad ℝ) : Coeffs :=
  { a0 := b.a0, a1 := b.a1 * b.a0, a2 := b.a2 * b.a0, b0 := b.b0 * b.a0, b1 := b.b1 * b.a0,
    b2 := b.b2 * b.a0 }

theorem XR.mul_fin_eq {x : XR} {a c : ℝ} (ha : a ≠ 0) (h : x * fin a = fin c) : x = fin (c / a) := by
  cases x with
  | fin x =>
    simp only [fin_mul, fin_inj] at h
    rw [← h]; congr 1; field_simp
  | nan => cases h
  | pinf =>
    rcases lt_or_gt_of_ne ha with h1 | h1
    · have : (pinf : XR) * fin a = ninf := by
        show signInf a = _; simp [signInf, h1, h1.not_gt]
      rw [this] at h; cases h
    · have : (pinf : XR) * fin a = pinf := by
        show signInf a = _; simp [signInf, h1]
      rw [this] at h; cases h
  | ninf =>
    rcases lt_or_gt_of_ne ha with h1 | h1
    · have : (ninf : XR) * fin a = pinf := by
        show signInf (-a) = _; simp [signInf, h1]
      rw [this] at h; cases h
    · have : (ninf : XR) * fin a = ninf := by
        show signInf (-a) = _; simp [signInf, h1, h1.not_gt]
      rw [this] at h; cases h

theorem hasCoeffs_iff {b : Biquad XR} {k : Coeffs} :
    HasCoeffs b k ↔ b = k.norm.toX ∧ k.a0 ≠ 0 := by
  constructor
  · rintro ⟨h0, h1, h2, h3, h4, h5, hne⟩
    refine ⟨?_, hne⟩
    rcases b with ⟨a0, a1, a2, b1, b2, b0⟩
    simp only [Biquad.getA0, Biquad.getA1, Biquad.getA2, Biquad.getB0, Biquad.getB1,
      Biquad.getB2] at h0 h1 h2 h3 h4 h5
    subst h0
    simp [Biquad.toX, Coeffs.norm, XR.mul_fin_eq hne h1, XR.mul_fin_eq hne h2,
      XR.mul_fin_eq hne h3, XR.mul_fin_eq hne h4, XR.mul_fin_eq hne h5]
  · rintro ⟨rfl, hne⟩
    constructor <;> simp [Biquad.getA0, Biquad.getA1, Biquad.getA2, Biquad.getB0, Biquad.getB1,
      Biquad.getB2, Biquad.toX, Coeffs.norm, hne]

theorem hasCoeffs_coeffs {b : Biquad ℝ} (h : b.a0 ≠ 0) : HasCoeffs b.toX b.coeffs := by
  rw [hasCoeffs_iff]
  refine ⟨?_, h⟩
  simp [Biquad.coeffs, Coeffs.norm, h]

theorem hasSections_iff {bs : List (Biquad XR)} {ks : List Coeffs} :
    HasSections bs ks ↔ bs = (ks.map Coeffs.norm).map Biquad.toX ∧ ∀ k ∈ ks, k.a0 ≠ 0 := by
  constructor
  · intro h
    induction h with
    | nil => simp
    | @cons b k bs ks h1 _ ih =>
      rw [hasCoeffs_iff] at h1
      simp [h1.1, h1.2, ← ih.1]
      simpa using ih.2
  · rintro ⟨rfl, h⟩
    induction ks with
    | nil => exact .nil
    | cons k ks ih =>
      exact .cons (hasCoeffs_iff.2 ⟨rfl, h k List.mem_cons_self⟩)
        (ih fun k hk => h k (List.mem_cons_of_mem _ hk))

/-- One step of the textbook section with normalised coefficients. -/
def secStep (b : Biquad ℝ) (x : ℝ) (c : ℝ × ℝ) : ℝ × (ℝ × ℝ) :=
  let y := c.1 + b.b0 * x
  (y, (c.2 + b.b1 * x - b.a1 * y, b.b2 * x - b.a2 * y))

/-- A topology that computes the same as `secStep` in exact arithmetic. -/
class ExactState (S : Type → Type) [StateType S XR] where
  /-- no infinity or NaN in the delay line -/
  Finite : S XR → Prop
  /-- the delay line `s` holds the past summarised by `c` -/
  Sim : Biquad ℝ → S XR → ℝ × ℝ → Prop
  sim_init : ∀ b, Sim b StateType.init (0, 0)
  finite_init : Finite StateType.init
  sim_of_finite : ∀ b s, Finite s → ∃ c, Sim b s c
  finite_of_sim : ∀ b s c, Sim b s c → Finite s
  sim_step : ∀ b s c x, Sim b s c → ∃ s', StateType.filter (fin x) b.toX s =
    (fin (secStep b x c).1, s') ∧ Sim b s' (secStep b x c).2

instance : ExactState DirectFormI where
  Finite s := ∃ x1 x2 y1 y2 : ℝ, s = { x2 := fin x2, y2 := fin y2, x1 := fin x1, y1 := fin y1 }
  Sim b s c := ∃ x1 x2 y1 y2 : ℝ,
    s = { x2 := fin x2, y2 := fin y2, x1 := fin x1, y1 := fin y1 } ∧
    c.1 = b.b1 * x1 + b.b2 * x2 - b.a1 * y1 - b.a2 * y2 ∧ c.2 = b.b2 * x1 - b.a2 * y1
  sim_init b := ⟨0, 0, 0, 0, by simp [StateType.init], by simp, by simp⟩
  finite_init := ⟨0, 0, 0, 0, by simp [StateType.init]⟩
  sim_of_finite b s := by
    rintro ⟨x1, x2, y1, y2, rfl⟩
    exact ⟨(_, _), x1, x2, y1, y2, rfl, rfl, rfl⟩
  finite_of_sim b s c := by
    rintro ⟨x1, x2, y1, y2, rfl, _, _⟩
    exact ⟨x1, x2, y1, y2, rfl⟩
  sim_step b s c x := by
    rintro ⟨x1, x2, y1, y2, rfl, h1, h2⟩
    refine ⟨{ x2 := fin x1, y2 := fin y1, x1 := fin x, y1 := fin (secStep b x c).1 }, ?_,
      x, x1, (secStep b x c).1, y1, rfl, ?_, ?_⟩
    · have : b.b0 * x + b.b1 * x1 + b.b2 * x2 - b.a1 * y1 - b.a2 * y2 = (secStep b x c).1 := by
        simp only [secStep, h1]; ring
      simp [StateType.filter, DirectFormI.filter, Biquad.toX, this]
    · simp only [secStep, h2]; ring
    · simp only [secStep]

instance : ExactState DirectFormII where
  Finite s := ∃ v1 v2 : ℝ, s = { v1 := fin v1, v2 := fin v2 }
  Sim b s c := ∃ v1 v2 : ℝ, s = { v1 := fin v1, v2 := fin v2 } ∧
    c.1 = (b.b1 - b.b0 * b.a1) * v1 + (b.b2 - b.b0 * b.a2) * v2 ∧
    c.2 = (b.b2 - b.a2 * b.b0) * v1 + (b.a1 * b.b2 - b.a2 * b.b1) * v2
  sim_init b := ⟨0, 0, by simp [StateType.init], by simp, by simp⟩
  finite_init := ⟨0, 0, by simp [StateType.init]⟩
  sim_of_finite b s := by
    rintro ⟨v1, v2, rfl⟩
    exact ⟨(_, _), v1, v2, rfl, rfl, rfl⟩
  finite_of_sim b s c := by
    rintro ⟨v1, v2, rfl, _, _⟩
    exact ⟨v1, v2, rfl⟩
  sim_step b s c x := by
    rintro ⟨v1, v2, rfl, h1, h2⟩
    refine ⟨{ v1 := fin (x - b.a1 * v1 - b.a2 * v2), v2 := fin v1 }, ?_,
      x - b.a1 * v1 - b.a2 * v2, v1, rfl, ?_, ?_⟩
    · have : b.b0 * (x - b.a1 * v1 - b.a2 * v2) + b.b1 * v1 + b.b2 * v2 = (secStep b x c).1 := by
        simp only [secStep, h1]; ring
      simp [StateType.filter, DirectFormII.filter, Biquad.toX, this]
    · simp only [secStep, h2, h1]; ring
    · simp only [secStep, h1]; ring

instance : ExactState TransposedDirectFormII where
  Finite s := ∃ p q u v : ℝ, s = { s1 := fin p, s1_1 := fin u, s2 := fin q, s2_1 := fin v }
  Sim b s c := ∃ p q : ℝ, s = { s1 := fin p, s1_1 := fin c.1, s2 := fin q, s2_1 := fin c.2 }
  sim_init b := ⟨0, 0, by simp [StateType.init]⟩
  finite_init := ⟨0, 0, 0, 0, by simp [StateType.init]⟩
  sim_of_finite b s := by
    rintro ⟨p, q, u, v, rfl⟩
    exact ⟨(u, v), p, q, rfl⟩
  finite_of_sim b s c := by
    rintro ⟨p, q, rfl⟩
    exact ⟨p, q, c.1, c.2, rfl⟩
  sim_step b s c x := by
    rintro ⟨p, q, rfl⟩
    refine ⟨⟨fin (secStep b x c).2.1, fin (secStep b x c).2.1,
      fin (secStep b x c).2.2, fin (secStep b x c).2.2⟩, ?_, _, _, rfl⟩
    simp [StateType.filter, TransposedDirectFormII.filter, Biquad.toX, secStep]

/-- all three delay line types are of this kind -/
instance (priority := 50) ExactState.ofDelayLine {S : Type → Type} [StateType S XR]
    [h : DelayLine XR S] : ExactState S := by
  cases h <;> infer_instance

/-! ## Chains -/

/-- A chain of textbook sections. -/
def chainStep : List (Biquad ℝ) → ℝ → List (ℝ × ℝ) → ℝ × List (ℝ × ℝ)
  | b :: bs, x, c :: cs =>
    ((chainStep bs (secStep b x c).1 cs).1, (secStep b x c).2 :: (chainStep bs (secStep b x c).1 cs).2)
  | _, x, cs => (x, cs)

variable {S : Type → Type} [StateType S XR] [ExactState S]

/-- delay lines simulate textbook sections one by one -/
inductive Sims : List (Biquad ℝ) → List (S XR) → List (ℝ × ℝ) → Prop
  | nil : Sims [] [] []
  | cons {b bs s ss c cs} : ExactState.Sim b s c → Sims bs ss cs → Sims (b :: bs) (s :: ss) (c :: cs)

/-- the textbook section at rest -/
def rest (n : ℕ) : List (ℝ × ℝ) := List.replicate n (0, 0)

theorem Sims.init (bs : List (Biquad ℝ)) :
    Sims bs (List.replicate bs.length (StateType.init : S XR)) (rest bs.length) := by
  induction bs with
  | nil => exact .nil
  | cons b bs ih => exact .cons (ExactState.sim_init b) ih

theorem Sims.of_finite (bs : List (Biquad ℝ)) (ss : List (S XR)) (h : bs.length = ss.length)
    (hf : ∀ s ∈ ss, ExactState.Finite s) : ∃ cs, Sims bs ss cs := by
  induction bs generalizing ss with
  | nil =>
    cases ss with
    | nil => exact ⟨[], .nil⟩
    | cons => simp at h
  | cons b bs ih =>
    cases ss with
    | nil => simp at h
    | cons s ss =>
      obtain ⟨c, hc⟩ := ExactState.sim_of_finite b s (hf s List.mem_cons_self)
      obtain ⟨cs, hcs⟩ := ih ss (by simpa using h) fun s hs => hf s (List.mem_cons_of_mem _ hs)
      exact ⟨c :: cs, .cons hc hcs⟩

theorem Sims.step {bs : List (Biquad ℝ)} {ss : List (S XR)} {cs : List (ℝ × ℝ)} (h : Sims bs ss cs)
    (x : ℝ) : ∃ ss', CascadeStages.filterD (bs.map Biquad.toX) ss (fin x) =
      (fin (chainStep bs x cs).1, ss') ∧ Sims bs ss' (chainStep bs x cs).2 := by
  induction h generalizing x with
  | nil => exact ⟨[], rfl, .nil⟩
  | @cons b bs s ss c cs h1 _ ih =>
    obtain ⟨s', e1, h2⟩ := ExactState.sim_step b s c x h1
    obtain ⟨ss', e2, h3⟩ := ih (secStep b x c).1
    refine ⟨s' :: ss', ?_, .cons h2 h3⟩
    simp [CascadeStages.filterD, e1, e2, chainStep]

/-- A system over `XR` that computes what a system over `ℝ` computes. -/
theorem outAt_of_sim {σ τ : Type} {step : XR → σ → XR × σ} {step' : ℝ → τ → ℝ × τ} {Rel : σ → τ → Prop}
    (h : ∀ s t x, Rel s t → ∃ s', step (fin x) s = (fin (step' x t).1, s') ∧ Rel s' (step' x t).2)
    {s : σ} {t : τ} (hst : Rel s t) (x : ℕ → ℝ) (n : ℕ) :
    outAt step s (fun n => fin (x n)) n = fin (outAt step' t x n) ∧
      Rel (stateAt step s (fun n => fin (x n)) n) (stateAt step' t x n) := by
  have key : ∀ n, Rel (stateAt step s (fun n => fin (x n)) n) (stateAt step' t x n) := by
    intro n
    induction n with
    | zero => exact hst
    | succ n ih =>
      obtain ⟨s', e, hs⟩ := h _ _ (x n) ih
      show Rel (step (fin (x n)) (stateAt step s (fun n => fin (x n)) n)).2 _
      rw [e]; exact hs
  refine ⟨?_, key n⟩
  obtain ⟨s', e, hs⟩ := h _ _ (x n) (key n)
  show (step (fin (x n)) (stateAt step s (fun n => fin (x n)) n)).1 = _
  rw [e]; rfl

/-- Output of a textbook section. -/
def secOut (b : Biquad ℝ) (c : ℝ × ℝ) (x : ℕ → ℝ) : ℕ → ℝ := outAt (secStep b) c x

/-- Output of a chain of textbook sections. -/
def chainOut (bs : List (Biquad ℝ)) (cs : List (ℝ × ℝ)) (x : ℕ → ℝ) : ℕ → ℝ := outAt (chainStep bs) cs x

theorem chainOut_nil (x : ℕ → ℝ) : chainOut [] [] x = x := by
  funext n
  have : ∀ n, stateAt (chainStep []) [] x n = [] := by
    intro n
    induction n with
    | zero => rfl
    | succ n ih => rw [stateAt, ih]; rfl
  rw [chainOut, outAt, this]; rfl

theorem chainOut_cons (b : Biquad ℝ) (bs : List (Biquad ℝ)) (c : ℝ × ℝ) (cs : List (ℝ × ℝ))
    (x : ℕ → ℝ) : chainOut (b :: bs) (c :: cs) x = chainOut bs cs (secOut b c x) := by
  have : ∀ n, stateAt (chainStep (b :: bs)) (c :: cs) x n =
      stateAt (secStep b) c x n :: stateAt (chainStep bs) cs (secOut b c x) n := by
    intro n
    induction n with
    | zero => rfl
    | succ n ih => simp [stateAt, ih, chainStep, secOut, outAt]
  funext n
  simp [chainOut, outAt, this, chainStep, secOut]

/-- The difference equation of a section started with past `(c0, c1)`. -/
theorem secOut_zero (b : Biquad ℝ) (c : ℝ × ℝ) (x : ℕ → ℝ) : secOut b c x 0 = c.1 + b.b0 * x 0 := rfl

theorem secOut_one (b : Biquad ℝ) (c : ℝ × ℝ) (x : ℕ → ℝ) :
    secOut b c x 1 = c.2 + b.b0 * x 1 + b.b1 * x 0 - b.a1 * secOut b c x 0 := by
  simp only [secOut, outAt, stateAt, secStep]; ring

theorem secOut_add_two (b : Biquad ℝ) (c : ℝ × ℝ) (x : ℕ → ℝ) (n : ℕ) :
    secOut b c x (n + 2) = b.b0 * x (n + 2) + b.b1 * x (n + 1) + b.b2 * x n
      - b.a1 * secOut b c x (n + 1) - b.a2 * secOut b c x n := by
  simp only [secOut, outAt, stateAt, secStep]; ring

end Iir
