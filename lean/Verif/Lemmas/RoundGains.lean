import Verif.Lemmas.RoundSharp

/-! # Chains of sections whose errors are relative to their gains -/

namespace Iir
open FArith Spec

variable {R : Type} [FArith R] {u η Ω : ℝ}

/-- A section as stored, the ideal section, a bound of the gain of the ideal section, and the relative error. -/
structure Stage (R : Type) where
  b : Biquad R
  k : Coeffs
  g : ℝ
  e : ℝ

/-- The section meets its error bound, for inputs of magnitude between `lo` and `hi`. -/
structure Stage.Sound (S : Type → Type) [StateType S R] [DelayLine R S] (r : Rounds R u η Ω) (lo hi : ℝ) (s : Stage R) : Prop where
  a0 : s.k.a0 = 1
  g_nonneg : 0 ≤ s.g
  e_nonneg : 0 ≤ s.e
  gain : ∀ (x y : ℕ → ℝ) (X : ℝ), s.k.DiffEq x y → (∀ n, |x n| ≤ X) → ∀ n, |y n| ≤ s.g * X
  within : ∀ F, (∀ fma ∈ F, r.Fused fma) → ∀ (X : ℝ) (x out : ℕ → R) (y : ℕ → ℝ), SecC F S s.b x out → r.Input X x →
    lo ≤ X → X ≤ hi → s.k.DiffEq (fun n => r.val (x n)) y → r.Within (s.g * s.e * X) out y

/-- The bounds of the inputs of the sections lie between `lo` and `hi`. -/
def Fits (lo hi : ℝ) : ℝ → List (Stage R) → Prop
  | _, [] => True
  | X, s :: l => (lo ≤ X ∧ X ≤ hi) ∧ Fits lo hi (s.g * (1 + s.e) * X) l

/-- Gain of a chain. -/
def gainOf (l : List (Stage R)) : ℝ := (l.map Stage.g).prod

/-- Gain of a chain, errors included. -/
def gainErr (l : List (Stage R)) : ℝ := (l.map fun s => s.g * (1 + s.e)).prod

variable {S : Type → Type} [StateType S R] [DelayLine R S] {r : Rounds R u η Ω} {lo hi : ℝ}

theorem gainOf_nonneg {l : List (Stage R)} (h : ∀ s ∈ l, s.Sound S r lo hi) : 0 ≤ gainOf l := by
  apply List.prod_nonneg
  intro a ha
  obtain ⟨s, hs, rfl⟩ := List.mem_map.1 ha
  exact (h s hs).g_nonneg

/-- Difference of the outputs of a chain for different inputs. -/
theorem gains_sub {l : List (Stage R)} (h : ∀ s ∈ l, s.Sound S r lo hi) :
    ∀ {x x' y y' : ℕ → ℝ} {D : ℝ}, DiffChain (l.map Stage.k) x y → DiffChain (l.map Stage.k) x' y' →
      (∀ n, |x n - x' n| ≤ D) → ∀ n, |y n - y' n| ≤ gainOf l * D := by
  induction l with
  | nil =>
    intro x x' y y' D hy hy' hD n
    cases hy
    cases hy'
    simpa [gainOf] using hD n
  | cons s l ih =>
    intro x x' y y' D hy hy' hD n
    rcases hy with _ | ⟨h1, h2⟩
    rcases hy' with _ | ⟨h1', h2'⟩
    have hs := h s List.mem_cons_self
    have h3 := hs.gain _ _ D (diffEq_sub hs.a0 h1 h1') hD
    have := ih (fun s hs => h s (List.mem_cons_of_mem _ hs)) h2 h2' h3 n
    refine this.trans (le_of_eq ?_)
    simp only [gainOf, List.map_cons, List.prod_cons]
    ring

/-- **Chains**: relative errors multiply up. -/
theorem gains_within {F : Option (R → R → R → R)} (hfm : ∀ fma ∈ F, r.Fused fma) {l : List (Stage R)}
    (h : ∀ s ∈ l, s.Sound S r lo hi) :
    ∀ {X : ℝ} {x out : ℕ → R} {y : ℕ → ℝ}, ChainC F S (l.map Stage.b) x out → r.Input X x → Fits lo hi X l → DiffChain (l.map Stage.k) (fun n => r.val (x n)) y →
      r.Within ((gainErr l - gainOf l) * X) out y := by
  induction l with
  | nil =>
    intro X x out y hrun hx _ hy n
    cases hy
    obtain rfl := hrun
    refine ⟨(hx n).1, ?_⟩
    simp [gainErr, gainOf]
  | cons s l ih =>
    intro X x out y hrun hx hf hy n
    obtain ⟨x1, hrun1, hrun2⟩ := hrun
    obtain ⟨⟨f1, f2⟩, f3⟩ := hf
    have hs := h s List.mem_cons_self
    have hl : ∀ s ∈ l, s.Sound S r lo hi := fun s hs => h s (List.mem_cons_of_mem _ hs)
    rcases hy with _ | ⟨h1, h2⟩
    rename_i y1
    have hw := hs.within F hfm X x x1 y1 hrun1 hx f1 f2 h1
    have hyb := hs.gain _ _ X h1 (fun n => (hx n).2)
    have hX1 : r.Input (s.g * (1 + s.e) * X) x1 := by
      intro m
      refine ⟨(hw m).1, ?_⟩
      have a := abs_le.1 (hw m).2
      have b := abs_le.1 (hyb m)
      exact abs_le.2 ⟨by linarith, by linarith⟩
    have g1 := ih hl hrun2 hX1 f3 (chain_diffChain (l.map Stage.k) (fun n => r.val (x1 n))) n
    have g2 := gains_sub hl (chain_diffChain (l.map Stage.k) (fun n => r.val (x1 n))) h2 (fun n => (hw n).2) n
    refine ⟨g1.1, ?_⟩
    refine (abs_sub_le _ _ _).trans ((add_le_add g1.2 g2).trans (le_of_eq ?_))
    simp only [gainErr, gainOf, List.map_cons, List.prod_cons]
    ring

/-- Small relative errors add up, with a factor of two to spare. -/
theorem gainErr_le {l : List (Stage R)} (h : ∀ s ∈ l, s.Sound S r lo hi) (he : (l.map Stage.e).sum ≤ 1 / 2) :
    gainErr l ≤ gainOf l * (1 + 2 * (l.map Stage.e).sum) ∧ 0 ≤ (l.map Stage.e).sum ∧ 0 ≤ gainErr l := by
  induction l with
  | nil => simp [gainErr, gainOf]
  | cons s l ih =>
    have hs := h s List.mem_cons_self
    have hl : ∀ s ∈ l, s.Sound S r lo hi := fun s hs => h s (List.mem_cons_of_mem _ hs)
    have hg := gainOf_nonneg hl
    have hg0 := hs.g_nonneg
    have he0 := hs.e_nonneg
    simp only [List.map_cons, List.sum_cons, gainErr, gainOf, List.prod_cons] at he ⊢
    have hsum : 0 ≤ (l.map Stage.e).sum := by
      apply List.sum_nonneg
      intro a ha
      obtain ⟨t, ht, rfl⟩ := List.mem_map.1 ha
      exact (hl t ht).e_nonneg
    obtain ⟨i1, i2, i3⟩ := ih hl (by linarith)
    simp only [gainErr, gainOf] at i1 i3 hg
    refine ⟨?_, by linarith, by positivity⟩
    generalize (l.map fun s => s.g * (1 + s.e)).prod = P' at *
    generalize (l.map Stage.g).prod = P at *
    generalize (l.map Stage.e).sum = σ at *
    have j1 := mul_le_mul_of_nonneg_left i1 (show 0 ≤ s.g * (1 + s.e) by positivity)
    refine j1.trans ?_
    have e : s.g * P * (1 + 2 * (s.e + σ)) - s.g * (1 + s.e) * (P * (1 + 2 * σ)) = s.g * P * (s.e * (1 - 2 * σ)) := by ring
    have : 0 ≤ s.g * P * (s.e * (1 - 2 * σ)) :=
      mul_nonneg (mul_nonneg hg0 hg) (mul_nonneg he0 (by linarith))
    linarith

/-- A chain whose gains are at least one fits if the largest signal does. -/
theorem fits_of_le {l : List (Stage R)} (h : ∀ s ∈ l, s.Sound S r lo hi) (hg : ∀ s ∈ l, 1 ≤ s.g) :
    ∀ {X : ℝ}, lo ≤ X → 0 ≤ X → gainErr l * X ≤ hi → Fits lo hi X l := by
  induction l with
  | nil => intros; trivial
  | cons s l ih =>
    intro X h1 h0 h2
    have hs := h s List.mem_cons_self
    have hl : ∀ s ∈ l, s.Sound S r lo hi := fun s hs => h s (List.mem_cons_of_mem _ hs)
    have hg1 := hg s List.mem_cons_self
    have hgl : ∀ s ∈ l, 1 ≤ s.g := fun s hs => hg s (List.mem_cons_of_mem _ hs)
    have hge : 1 ≤ s.g * (1 + s.e) := one_le_mul_of_one_le_of_one_le hg1 (by have := hs.e_nonneg; linarith)
    have hle : X ≤ s.g * (1 + s.e) * X := le_mul_of_one_le_left h0 hge
    have hP : 1 ≤ gainErr l := by
      clear ih h2
      induction l with
      | nil => simp [gainErr]
      | cons t l ih =>
        have ht := (hl t List.mem_cons_self).e_nonneg
        have := ih (fun s hs => h s (by simp only [List.mem_cons] at hs ⊢; tauto)) (fun s hs => hg s (by simp only [List.mem_cons] at hs ⊢; tauto))
          (fun s hs => hl s (List.mem_cons_of_mem _ hs)) (fun s hs => hgl s (List.mem_cons_of_mem _ hs))
        simp only [gainErr, List.map_cons, List.prod_cons] at this ⊢
        exact one_le_mul_of_one_le_of_one_le
          (one_le_mul_of_one_le_of_one_le (hgl t List.mem_cons_self) (by linarith)) this
    have e : gainErr (s :: l) * X = gainErr l * (s.g * (1 + s.e) * X) := by
      simp only [gainErr, List.map_cons, List.prod_cons]; ring
    rw [e] at h2
    have h3 : s.g * (1 + s.e) * X ≤ gainErr l * (s.g * (1 + s.e) * X) := le_mul_of_one_le_left (h0.trans hle) hP
    exact ⟨⟨h1, by linarith⟩, ih hl hgl (h1.trans hle) (h0.trans hle) h2⟩

end Iir
