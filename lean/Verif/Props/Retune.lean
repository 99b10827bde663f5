import Verif.Spec.Retune
import Verif.Props.RBJ
import Verif.Props.Objects
import Verif.Lemmas.RoundChain

/-! # C93: retuning a running filter -/

set_option linter.unusedSectionVars false

namespace Iir
open Spec XR Exec

/-- The difference equation with coefficients that change from sample to sample. -/
def VaryingEq (k : ℕ → Coeffs) (x y : ℕ → ℝ) : Prop :=
  ∀ n, y n = ((k n).b0 * x n + (k n).b1 * delayed 1 x n + (k n).b2 * delayed 2 x n
    - (k n).a1 * delayed 1 y n - (k n).a2 * delayed 2 y n) / (k n).a0

theorem varying_exists (k : ℕ → Coeffs) (x : ℕ → ℝ) : ∃ y, VaryingEq k x y := by
  let F : ℕ → ℝ × ℝ → ℝ := fun n p => ((k n).b0 * x n + (k n).b1 * delayed 1 x n + (k n).b2 * delayed 2 x n
    - (k n).a1 * p.1 - (k n).a2 * p.2) / (k n).a0
  let st : ℕ → ℝ × ℝ := fun n => Nat.rec (0, 0) (fun n p => (F n p, p.1)) n
  have hs : ∀ n, st (n + 1) = (F n (st n), (st n).1) := fun n => rfl
  refine ⟨fun n => F n (st n), fun n => ?_⟩
  have h1 : delayed 1 (fun n => F n (st n)) n = (st n).1 := by
    cases n with
    | zero => rfl
    | succ n => rw [hs]; simp [delayed]
  have h2 : delayed 2 (fun n => F n (st n)) n = (st n).2 := by
    rcases n with _ | _ | n
    · rfl
    · rfl
    · rw [hs, hs]; simp [delayed]
  rw [h1, h2]

theorem retuned_of {f : RBJ.Filter XR} (hf : EmptyLine f) {d : ℕ → RBJ.Design XR} {k : ℕ → Coeffs}
    (hd : ∀ n, AfterRBJ (d n) fun b => HasCoeffs b (k n)) {x y : ℕ → ℝ} (hy : VaryingEq k x y) : RetunedReturns f d x y := by
  let g : ℕ → RBJ.Filter XR := fun n => { biquad := match n with | 0 => f.biquad | n + 1 => (k n).norm.toX, state := { x1 := fin (delayed 1 x n), x2 := fin (delayed 2 x n), y1 := fin (delayed 1 y n), y2 := fin (delayed 2 y n) } }
  refine ⟨g, ?_, fun n => ?_⟩
  · show ({ biquad := f.biquad, state := _ } : RBJ.Filter XR) = f
    have : f.state = { x2 := XR.fin 0, y2 := XR.fin 0, x1 := XR.fin 0, y1 := XR.fin 0 } := hf
    obtain ⟨b, s⟩ := f
    simp only at this
    subst this
    simp [delayed]
  · obtain ⟨f', h1, h2, h3⟩ := hd n (g n)
    obtain ⟨h4, h5⟩ := hasCoeffs_iff.1 h3
    have e : f' = { biquad := (k n).norm.toX, state := (g n).state } := by rw [← h2, ← h4]
    simp only [bind_def, h1]
    rw [e]
    have ey := hy n
    have d1 : ∀ z : ℕ → ℝ, delayed 1 z (n + 1) = z n := fun z => by simp [delayed]
    have d2 : ∀ z : ℕ → ℝ, delayed 2 z (n + 1) = delayed 1 z n := fun z => by
      cases n with
      | zero => rfl
      | succ n => simp [delayed]
    have out : (DirectFormI.filter (fin (x n)) (k n).norm.toX (g n).state).1 = fin (y n) := by
      simp only [DirectFormI.filter, Biquad.toX, Coeffs.norm, g, fin_mul, fin_add, fin_sub]
      congr 1
      rw [ey]
      field_simp
    have st : (DirectFormI.filter (fin (x n)) (k n).norm.toX (g n).state).2 = (g (n + 1)).state := by
      have : (DirectFormI.filter (fin (x n)) (k n).norm.toX (g n).state).2.y1 = fin (y n) := out
      have h : ∀ (s : DirectFormI XR) b v, (DirectFormI.filter v b s).2 = { x1 := v, x2 := s.x1, y1 := (DirectFormI.filter v b s).1, y2 := s.y1 } :=
        fun _ _ _ => rfl
      rw [h, out]
      simp only [g, d1, d2]
    show (Sample.ofR (DirectFormI.filter (fin (x n)) (k n).norm.toX (g n).state).1, _) = _
    rw [out]
    show (_, ({ biquad := (k n).norm.toX, state := (DirectFormI.filter (fin (x n)) (k n).norm.toX (g n).state).2 } : RBJ.Filter XR)) = _
    rw [st]
    rfl

/-- What a retuned filter returns is determined. -/
theorem RetunedReturns.unique {f : RBJ.Filter XR} {d : ℕ → RBJ.Design XR} {x y y' : ℕ → ℝ} (h : RetunedReturns f d x y)
    (h' : RetunedReturns f d x y') : y = y' := by
  obtain ⟨g, h0, h⟩ := h
  obtain ⟨g', h0', h'⟩ := h'
  have hg : ∀ n, g n = g' n := by
    intro n
    induction n with
    | zero => rw [h0, h0']
    | succ n ih =>
      have := h n
      rw [ih, h' n] at this
      exact (congrArg Prod.snd this).symm
  funext n
  have := h n
  rw [hg n, h' n] at this
  have := congrArg Prod.fst this
  simpa using this.symm

/-- **C93**, what is returned: the difference equation with the coefficients of the moment. -/
theorem C93_equation {f : RBJ.Filter XR} (hf : EmptyLine f) {d : ℕ → RBJ.Design XR} {k : ℕ → Coeffs}
    (hd : ∀ n, AfterRBJ (d n) fun b => HasCoeffs b (k n)) (x y : ℕ → ℝ) :
    RetunedReturns f d x y ↔
      ∀ n, y n = ((k n).b0 * x n + (k n).b1 * delayed 1 x n + (k n).b2 * delayed 2 x n
        - (k n).a1 * delayed 1 y n - (k n).a2 * delayed 2 y n) / (k n).a0 := by
  constructor
  · intro h
    obtain ⟨y', hy'⟩ := varying_exists k x
    rw [RetunedReturns.unique h (retuned_of hf hd hy')]
    exact hy'
  · exact retuned_of hf hd

theorem valid_coeffs {e : RBJ.Design ℝ} (he : ValidRBJ e) :
    ∃ k : Coeffs, (AfterRBJ (finRBJ e) fun b => HasCoeffs b k) ∧ k.a0 ≠ 0 ∧ k.Stable := by
  obtain ⟨f', h1, h2, k, h3, h4⟩ := C42_stable e he .init
  refine ⟨k, fun f => ?_, (hasCoeffs_iff.1 h3).2, h4⟩
  obtain ⟨f'', g1, g2, k', g3, g4⟩ := C42_stable e he f
  refine ⟨f'', g1, g2, ?_⟩
  have e1 := (C12_rbj (finRBJ e) f .init).2 (by rw [g1])
  rw [g1, h1] at e1
  simp only at e1
  rw [e1]
  exact h3

/-- The section forgets its past geometrically and answers a bounded residual with a bounded signal. -/
def Decays (k : Coeffs) (C ρ G : ℝ) : Prop :=
  ∀ (Y : ℕ → ℝ) (L : ℕ) (E M : ℝ), 0 ≤ E → |Y 0| ≤ M → |Y 1| ≤ M →
    (∀ n < L, |Y (n + 2) + k.a1 / k.a0 * Y (n + 1) + k.a2 / k.a0 * Y n| ≤ E) → ∀ n < L + 2, |Y n| ≤ C * ρ ^ n * M + G * E

theorem Decays.mono {k : Coeffs} {C ρ G C' ρ' G' : ℝ} (h : Decays k C ρ G) (hC0 : 0 ≤ C) (hC : C ≤ C') (hρ0 : 0 ≤ ρ) (hρ : ρ ≤ ρ')
    (hG : G ≤ G') : Decays k C' ρ' G' := by
  intro Y L E M hE h0 h1 hr n hn
  have hM : 0 ≤ M := (abs_nonneg _).trans h0
  have hC' : 0 ≤ C' := hC0.trans hC
  refine (h Y L E M hE h0 h1 hr n hn).trans ?_
  gcongr

theorem stable_decays {k : Coeffs} (h0 : k.a0 ≠ 0) (hs : k.Stable) : ∃ C ρ G, 1 ≤ C ∧ 0 < ρ ∧ ρ < 1 ∧ 0 ≤ G ∧ Decays k C ρ G := by
  obtain ⟨p, q, h1, h2, h3, h4⟩ := Coeffs_exists_poles (k := ⟨1, k.a1 / k.a0, k.a2 / k.a0, 0, 0, 0⟩) rfl (by
    have h0c : (k.a0 : ℂ) ≠ 0 := by exact_mod_cast h0
    intro z hz
    refine hs z ?_
    simp only at hz
    push_cast at hz
    field_simp at hz
    linear_combination hz)
  simp only at h1 h2
  obtain ⟨μ, m1, m2, m3, m4⟩ : ∃ μ : ℝ, 0 ≤ μ ∧ μ < 1 ∧ ‖p‖ ≤ μ ∧ ‖q‖ ≤ μ :=
    ⟨max ‖p‖ ‖q‖, le_max_of_le_left (norm_nonneg _), max_lt h3 h4, le_max_left _ _, le_max_right _ _⟩
  set ρ : ℝ := (1 + μ) / 2 with hρ
  have r0 : 0 < ρ := by rw [hρ]; linarith
  have r1 : ρ < 1 := by rw [hρ]; linarith
  have rμ : 0 < ρ - μ := by rw [hρ]; linarith
  have r1' : 0 < 1 - ρ := by linarith
  have hC1 : 1 ≤ 2 / (ρ - μ) := by rw [le_div_iff₀ rμ]; linarith
  have hG0 : 0 ≤ 1 / (1 - ρ) ^ 2 := by positivity
  refine ⟨2 / (ρ - μ), ρ, 1 / (1 - ρ) ^ 2, hC1, r0, r1, hG0, ?_⟩
  intro Y L E M hE hY0 hY1 hr
  have hM : 0 ≤ M := (abs_nonneg _).trans hY0
  set V : ℕ → ℂ := fun n => (Y (n + 1) : ℂ) - p * Y n with hV
  have hrec : ∀ n, V (n + 1) = q * V n + ((Y (n + 2) + k.a1 / k.a0 * Y (n + 1) + k.a2 / k.a0 * Y n : ℝ) : ℂ) := by
    intro n
    simp only [hV]
    push_cast at h1 h2 ⊢
    rw [h1, h2]
    ring
  have hV0 : ‖V 0‖ ≤ 2 * M := by
    simp only [hV]
    refine (norm_sub_le _ _).trans ?_
    rw [norm_mul, Complex.norm_real, Complex.norm_real, Real.norm_eq_abs, Real.norm_eq_abs]
    have : ‖p‖ * |Y 0| ≤ 1 * M := mul_le_mul h3.le hY0 (abs_nonneg _) zero_le_one
    linarith
  have hVn : ∀ n ≤ L, ‖V n‖ ≤ ρ ^ n * (2 * M) + E / (1 - ρ) := by
    intro n
    induction n with
    | zero =>
      intro _
      have : 0 ≤ E / (1 - ρ) := by positivity
      simpa using by linarith
    | succ n ih =>
      intro hn
      have i := ih (by omega)
      rw [hrec n]
      refine (norm_add_le _ _).trans ?_
      rw [norm_mul, Complex.norm_real, Real.norm_eq_abs]
      have e1 := hr n (by omega)
      have e2 : ‖q‖ * ‖V n‖ ≤ ρ * (ρ ^ n * (2 * M) + E / (1 - ρ)) :=
        mul_le_mul (by linarith) i (norm_nonneg _) r0.le
      have e3 : E / (1 - ρ) = ρ * (E / (1 - ρ)) + E := by field_simp; ring
      rw [pow_succ]
      nlinarith
  intro n
  induction n with
  | zero =>
    intro _
    have : 0 ≤ 1 / (1 - ρ) ^ 2 * E := by positivity
    have : 1 * M ≤ 2 / (ρ - μ) * M := mul_le_mul_of_nonneg_right hC1 hM
    rw [pow_zero, _root_.mul_one]
    linarith
  | succ n ih =>
    intro hn
    have i := ih (by omega)
    have v := hVn n (by omega)
    have e : (Y (n + 1) : ℂ) = p * Y n + V n := by simp only [hV]; ring
    have e' : |Y (n + 1)| ≤ μ * |Y n| + ‖V n‖ := by
      rw [← Real.norm_eq_abs, ← Complex.norm_real, e]
      refine (norm_add_le _ _).trans ?_
      rw [norm_mul, Complex.norm_real, Real.norm_eq_abs]
      gcongr
    have e2 : μ * |Y n| ≤ μ * (2 / (ρ - μ) * ρ ^ n * M + 1 / (1 - ρ) ^ 2 * E) := mul_le_mul_of_nonneg_left i m1
    have e3 : 2 / (ρ - μ) * ρ ^ (n + 1) * M = μ * (2 / (ρ - μ) * ρ ^ n * M) + ρ ^ n * (2 * M) := by
      rw [pow_succ]; field_simp; ring
    have e4 : 1 / (1 - ρ) ^ 2 * E = ρ * (1 / (1 - ρ) ^ 2 * E) + E / (1 - ρ) := by field_simp; ring
    have e5 : μ * (1 / (1 - ρ) ^ 2 * E) ≤ ρ * (1 / (1 - ρ) ^ 2 * E) :=
      mul_le_mul_of_nonneg_right (by linarith) (by positivity)
    linarith

/-- Constants that serve for all settings of a list. -/
theorem uniform_decays (κ : RBJ.Design ℝ → Coeffs) : ∀ S : List (RBJ.Design ℝ), (∀ e ∈ S, (κ e).a0 ≠ 0 ∧ (κ e).Stable) →
    ∃ C ρ G F, 1 ≤ C ∧ 0 < ρ ∧ ρ < 1 ∧ 0 ≤ G ∧ 0 ≤ F ∧ ∀ e ∈ S, Decays (κ e) C ρ G ∧
      (|(κ e).b0| + |(κ e).b1| + |(κ e).b2|) / |(κ e).a0| ≤ F
  | [], _ => ⟨1, 1 / 2, 0, 0, le_rfl, by norm_num, by norm_num, le_rfl, le_rfl, by simp⟩
  | e :: S, h => by
    obtain ⟨C, ρ, G, F, c1, p0, p1, g0, f0, hS⟩ := uniform_decays κ S fun e he => h e (List.mem_cons_of_mem _ he)
    obtain ⟨C', ρ', G', c1', p0', p1', g0', hd⟩ := stable_decays (h e List.mem_cons_self).1 (h e List.mem_cons_self).2
    refine ⟨max C C', max ρ ρ', max G G', max F ((|(κ e).b0| + |(κ e).b1| + |(κ e).b2|) / |(κ e).a0|), le_max_of_le_left c1,
      lt_max_of_lt_left p0, max_lt p1 p1', le_max_of_le_left g0, le_max_of_le_left f0, fun e' he' => ?_⟩
    rcases List.mem_cons.1 he' with rfl | he'
    · exact ⟨hd.mono (by linarith) (le_max_right _ _) p0'.le (le_max_right _ _) (le_max_right _ _), le_max_right _ _⟩
    · exact ⟨(hS e' he').1.mono (by linarith) (le_max_left _ _) p0.le (le_max_left _ _) (le_max_left _ _),
        (hS e' he').2.trans (le_max_left _ _)⟩

/-- The output with two zeros before it. -/
def padded (y : ℕ → ℝ) : ℕ → ℝ
  | 0 => 0
  | 1 => 0
  | n + 2 => y n

theorem padded_succ (y : ℕ → ℝ) (n : ℕ) : padded y (n + 1) = delayed 1 y n := by
  cases n <;> simp [padded, delayed]

theorem padded_self (y : ℕ → ℝ) (n : ℕ) : padded y n = delayed 2 y n := by
  rcases n with _ | _ | n <;> simp [padded, delayed]

theorem abs_delayed_le {x : ℕ → ℝ} {X : ℝ} (hx : ∀ n, |x n| ≤ X) (j n : ℕ) : |delayed j x n| ≤ X := by
  unfold delayed
  split
  · exact hx _
  · simpa using (abs_nonneg _).trans (hx 0)

/-- **C93**, what holds: for every finite choice of valid settings there is a time `D` such that the output is bounded whenever the
input is and, from some time on, no setting is left before `D` samples have passed. In particular a filter that is retuned finitely
often, as quickly as one likes, has a bounded output. Missing: schedules that change settings faster than that for ever, for which
the statement is false (`C93_false`). -/
theorem C93_slow_partial (S : List (RBJ.Design ℝ)) (hS : ∀ e ∈ S, ValidRBJ e) :
    ∃ D, ∀ (f : RBJ.Filter XR) (d : ℕ → RBJ.Design ℝ) (N : ℕ) (x : ℕ → ℝ), EmptyLine f → (∀ n, d n ∈ S) → HeldFrom N D d →
      BoundedSignal x → ∃ y, RetunedReturns f (fun n => finRBJ (d n)) x y ∧ BoundedSignal y := by
  classical
  have : Nonempty Coeffs := ⟨⟨1, 0, 0, 0, 0, 0⟩⟩
  choose! κ hκ using fun (e : RBJ.Design ℝ) (he : ValidRBJ e) => valid_coeffs he
  obtain ⟨C, ρ, G, F, c1, p0, p1, g0, f0, hU⟩ := uniform_decays κ S fun e he => (hκ e (hS e he)).2
  obtain ⟨D, hD⟩ : ∃ D : ℕ, C * ρ ^ D ≤ 1 / 2 := by
    obtain ⟨D, hD⟩ := exists_pow_lt_of_lt_one (show 0 < 1 / (2 * C) by positivity) p1
    refine ⟨D, ?_⟩
    have := mul_le_mul_of_nonneg_left hD.le (show 0 ≤ C by linarith)
    rwa [show C * (1 / (2 * C)) = 1 / 2 by field_simp] at this
  refine ⟨D, fun f d N x hf hdS hH ⟨X, hX⟩ => ?_⟩
  obtain ⟨y, hy⟩ := varying_exists (fun n => κ (d n)) x
  refine ⟨y, retuned_of hf (fun n => (hκ _ (hS _ (hdS n))).1) hy, ?_⟩
  have hX0 : 0 ≤ X := (abs_nonneg _).trans (hX 0)
  set E : ℝ := F * X with hE
  have hE0 : 0 ≤ E := by positivity
  set Y := padded y with hYdef
  have hres : ∀ n, |Y (n + 2) + (κ (d n)).a1 / (κ (d n)).a0 * Y (n + 1) + (κ (d n)).a2 / (κ (d n)).a0 * Y n| ≤ E := by
    intro n
    have ha := (hκ _ (hS _ (hdS n))).2.1
    have e : Y (n + 2) + (κ (d n)).a1 / (κ (d n)).a0 * Y (n + 1) + (κ (d n)).a2 / (κ (d n)).a0 * Y n =
        ((κ (d n)).b0 * x n + (κ (d n)).b1 * delayed 1 x n + (κ (d n)).b2 * delayed 2 x n) / (κ (d n)).a0 := by
      rw [hYdef, padded_succ y n, padded_self y n]
      show y n + _ + _ = _
      rw [hy n]
      field_simp
      ring
    rw [e, abs_div, hE]
    refine le_trans ?_ (mul_le_mul_of_nonneg_right (hU _ (hdS n)).2 hX0)
    rw [div_mul_eq_mul_div]
    gcongr
    refine (abs_add_le _ _).trans ?_
    refine (add_le_add_left (abs_add_le _ _) _).trans ?_
    rw [abs_mul, abs_mul, abs_mul]
    have b0 := mul_le_mul_of_nonneg_left (hX n) (abs_nonneg (κ (d n)).b0)
    have b1 := mul_le_mul_of_nonneg_left (abs_delayed_le hX 1 n) (abs_nonneg (κ (d n)).b1)
    have b2 := mul_le_mul_of_nonneg_left (abs_delayed_le hX 2 n) (abs_nonneg (κ (d n)).b2)
    linarith
  -- one stretch of constant setting
  have seg : ∀ s L M, (∀ j, s ≤ j → j < s + L → d j = d s) → |Y s| ≤ M → |Y (s + 1)| ≤ M →
      ∀ n < L + 2, |Y (s + n)| ≤ C * ρ ^ n * M + G * E := by
    intro s L M hc h0 h1
    refine (hU _ (hdS s)).1 (fun n => Y (s + n)) L E M hE0 h0 h1 fun n hn => ?_
    have := hres (s + n)
    rwa [hc (s + n) (by omega) (by omega)] at this
  obtain ⟨M0, hM0⟩ : ∃ M0, 0 ≤ M0 ∧ ∀ n ≤ N + 2, |Y n| ≤ M0 :=
    ⟨∑ n ∈ Finset.range (N + 3), |Y n|, Finset.sum_nonneg fun _ _ => abs_nonneg _, fun n hn =>
      Finset.single_le_sum (f := fun n => |Y n|) (fun _ _ => abs_nonneg _) (Finset.mem_range.2 (by omega))⟩
  set B : ℝ := C * M0 + 2 * (G * E) with hB
  have hGE : 0 ≤ G * E := by positivity
  have hCM : M0 ≤ C * M0 := le_mul_of_one_le_left hM0.1 c1
  have hB0 : 0 ≤ B := by rw [hB]; linarith [hM0.1]
  have hpow : ∀ n, C * ρ ^ n ≤ C := fun n => by
    have := mul_le_mul_of_nonneg_left (pow_le_one₀ (n := n) p0.le p1.le) (show 0 ≤ C by linarith)
    linarith
  have main : ∀ n, N ≤ n → ∃ s, N ≤ s ∧ s ≤ n ∧ (∀ j, s ≤ j → j ≤ n → d j = d s) ∧ |Y s| ≤ B ∧ |Y (s + 1)| ≤ B ∧
      (s = N ∨ ∀ j < D, d (s + j) = d s) := by
    intro n hn
    induction n, hn using Nat.le_induction with
    | base =>
      exact ⟨N, le_rfl, le_rfl, fun j h1 h2 => by rw [le_antisymm h2 h1], by linarith [hM0.2 N (by omega)],
        by linarith [hM0.2 (N + 1) (by omega)], .inl rfl⟩
    | succ n hn ih =>
      obtain ⟨s, h1, h2, h3, h4, h5, h6⟩ := ih
      by_cases hc : d (n + 1) = d n
      · refine ⟨s, h1, by omega, fun j j1 j2 => ?_, h4, h5, h6⟩
        rcases Nat.lt_or_ge n j with hj | hj
        · obtain rfl : j = n + 1 := by omega
          rw [hc, h3 n h2 le_rfl]
        · exact h3 j j1 hj
      · obtain ⟨L, rfl⟩ := Nat.exists_eq_add_of_le h2
        have hseg : ∀ j, s ≤ j → j < s + (L + 1) → d j = d s := fun j j1 j2 => h3 j j1 (by omega)
        have key : |Y (s + (L + 1))| ≤ B ∧ |Y (s + (L + 2))| ≤ B := by
          rcases h6 with rfl | h6
          · have hs := seg s (L + 1) M0 hseg (hM0.2 _ (by omega)) (hM0.2 _ (by omega))
            have w : ∀ m, C * ρ ^ m * M0 ≤ C * M0 := fun m => mul_le_mul_of_nonneg_right (hpow m) hM0.1
            exact ⟨(hs (L + 1) (by omega)).trans (by linarith [w (L + 1)]), (hs (L + 2) (by omega)).trans (by linarith [w (L + 2)])⟩
          · have hDL : D ≤ L + 1 := by
              by_contra hlt
              apply hc
              rw [h3 (s + L) h2 le_rfl, ← h6 (L + 1) (by omega)]
              rfl
            have hs := seg s (L + 1) B hseg h4 h5
            have w : ∀ m, D ≤ m → C * ρ ^ m * B ≤ 1 / 2 * B := fun m hm => by
              refine mul_le_mul_of_nonneg_right ?_ hB0
              exact (mul_le_mul_of_nonneg_left (pow_le_pow_of_le_one p0.le p1.le hm) (by linarith)).trans hD
            have hBB : 2 * (G * E) ≤ B := by rw [hB]; linarith [hM0.1]
            exact ⟨(hs (L + 1) (by omega)).trans (by linarith [w (L + 1) hDL]),
              (hs (L + 2) (by omega)).trans (by linarith [w (L + 2) (by omega)])⟩
        exact ⟨s + L + 1, by omega, le_rfl, fun j j1 j2 => by rw [le_antisymm j2 j1], key.1, key.2,
          .inr fun j hj => hH (s + L) (by omega) hc j hj⟩
  refine ⟨C * B + G * E, fun n => ?_⟩
  have hCB : B ≤ C * B := le_mul_of_one_le_left hB0 c1
  show |Y (n + 2)| ≤ _
  rcases Nat.lt_or_ge n N with hn | hn
  · have := hM0.2 (n + 2) (by omega)
    linarith
  · obtain ⟨s, h1, h2, h3, h4, h5, -⟩ := main n hn
    obtain ⟨L, rfl⟩ := Nat.exists_eq_add_of_le h2
    have := seg s (L + 1) B (fun j j1 j2 => h3 j j1 (by omega)) h4 h5 (L + 2) (by omega)
    have w : C * ρ ^ (L + 2) * B ≤ C * B := mul_le_mul_of_nonneg_right (hpow _) hB0
    rw [show s + L + 2 = s + (L + 2) by ring]
    linarith

theorem emptyLine_init : EmptyLine (RBJ.Filter.init : RBJ.Filter XR) := by
  simp [EmptyLine, RBJ.Filter.init]

/-- The schedule of `C93_false`: low passes at an eighth and at three eighths of the sampling frequency in turn, both with `Q = 1`. -/
noncomputable def zigzag (n : ℕ) : RBJ.Design ℝ := if n % 2 = 0 then .lowPass (1 / 8) 1 else .lowPass (3 / 8) 1

/-- **C93** is false: a low pass that is set up before every sample, at an eighth of the sampling frequency and at three eighths in
turn, answers an impulse with an output that grows without bound, although both settings are valid and the filter is stable at either
of them. -/
theorem C93_false : (∀ n, ValidRBJ (zigzag n)) ∧ (∀ n, AfterRBJ (finRBJ (zigzag n)) StableSection) ∧ BoundedSignal unitImpulse ∧
    ∃ y, RetunedReturns .init (fun n => finRBJ (zigzag n)) unitImpulse y ∧ (∀ m, (3 / 2) ^ m ≤ |y (2 * m + 1)|) ∧ ¬ BoundedSignal y := by
  have hv : ∀ n, ValidRBJ (zigzag n) := by
    intro n
    unfold zigzag
    split <;> norm_num [ValidRBJ]
  refine ⟨hv, fun n => C42_stable _ (hv n), ⟨1, fun n => by unfold unitImpulse; split <;> simp⟩, ?_⟩
  set s : ℝ := √2 with hs
  have s1 : 1.414 ≤ s := Real.le_sqrt_of_sq_le (by norm_num)
  have s2 : s ≤ 1.415 := Real.sqrt_le_iff.2 ⟨by norm_num, by norm_num⟩
  let kA : Coeffs := ⟨1 + s / 4, -s, 1 - s / 4, (1 - s / 2) / 2, 1 - s / 2, (1 - s / 2) / 2⟩
  let kB : Coeffs := ⟨1 + s / 4, s, 1 - s / 4, (1 + s / 2) / 2, 1 + s / 2, (1 + s / 2) / 2⟩
  let k : ℕ → Coeffs := fun n => if n % 2 = 0 then kA else kB
  have cA : Real.cos (2 * Real.pi * (1 / 8)) = s / 2 := by
    rw [show 2 * Real.pi * (1 / 8) = Real.pi / 4 by ring, Real.cos_pi_div_four]
  have sA : Real.sin (2 * Real.pi * (1 / 8)) = s / 2 := by
    rw [show 2 * Real.pi * (1 / 8) = Real.pi / 4 by ring, Real.sin_pi_div_four]
  have cB : Real.cos (2 * Real.pi * (3 / 8)) = -(s / 2) := by
    rw [show 2 * Real.pi * (3 / 8) = Real.pi - Real.pi / 4 by ring, Real.cos_pi_sub, Real.cos_pi_div_four]
  have sB : Real.sin (2 * Real.pi * (3 / 8)) = s / 2 := by
    rw [show 2 * Real.pi * (3 / 8) = Real.pi - Real.pi / 4 by ring, Real.sin_pi_sub, Real.sin_pi_div_four]
  have hk : ∀ n, AfterRBJ (finRBJ (zigzag n)) fun b => HasCoeffs b (k n) := by
    intro n
    by_cases h : n % 2 = 0
    · simp only [zigzag, k, if_pos h]
      refine afterRBJ_of kA (by simp only [kA]; linarith) (fun b => ?_) fun b h => h
      have := lowPass_setup (f0 := 1 / 8) (q := 1) one_pos b
      rw [cA, sA] at this
      refine this.trans ?_
      simp only [kA]
      congr 2 <;> ring
    · simp only [zigzag, k, if_neg h]
      refine afterRBJ_of kB (by simp only [kB]; linarith) (fun b => ?_) fun b h => h
      have := lowPass_setup (f0 := 3 / 8) (q := 1) one_pos b
      rw [cB, sB] at this
      refine this.trans ?_
      simp only [kB]
      congr 2 <;> ring
  obtain ⟨y, hy⟩ := varying_exists k unitImpulse
  refine ⟨y, retuned_of emptyLine_init hk hy, ?_⟩
  have hD : 1 + s / 4 ≠ 0 := by linarith
  have y0 : (4 + s) * y 0 = 2 - s := by
    have := hy 0
    simp [k, kA, delayed, unitImpulse] at this
    rw [this]
    field_simp
    ring
  have y1 : (4 + s) * y 1 = 4 + 2 * s - 4 * s * y 0 := by
    have := hy 1
    simp [k, kB, delayed, unitImpulse] at this
    rw [this]
    field_simp
    ring
  have y2 : (4 + s) * y 2 = 2 - s + 4 * s * y 1 - (4 - s) * y 0 := by
    have := hy 2
    simp [k, kA, delayed, unitImpulse] at this
    rw [this]
    field_simp
    ring
  have odd : ∀ m, (4 + s) * y (2 * m + 3) = -(4 * s) * y (2 * m + 2) - (4 - s) * y (2 * m + 1) := by
    intro m
    have := hy (2 * m + 3)
    simp [k, kB, delayed, unitImpulse, show (2 * m + 3) % 2 = 1 by omega] at this
    rw [this]
    field_simp
  have even : ∀ m, (4 + s) * y (2 * m + 4) = 4 * s * y (2 * m + 3) - (4 - s) * y (2 * m + 2) := by
    intro m
    have := hy (2 * m + 4)
    simp [k, kA, delayed, unitImpulse, show (2 * m + 4) % 2 = 0 by omega] at this
    rw [this]
    field_simp
  have b0 : 0 ≤ y 0 := by nlinarith
  have b0' : y 0 ≤ 0.11 := by nlinarith
  have b1 : 1.1 ≤ y 1 := by nlinarith
  have b2 : 1 ≤ y 2 := by nlinarith
  have grow : ∀ m : ℕ, ∃ σ : ℝ, (σ = 1 ∨ σ = -1) ∧ (3 / 2) ^ m ≤ σ * y (2 * m + 1) ∧ (3 / 2) ^ m ≤ σ * y (2 * m + 2) := by
    intro m
    induction m with
    | zero => exact ⟨1, .inl rfl, by simpa using by linarith, by simpa using b2⟩
    | succ m ih =>
      obtain ⟨σ, h, h1, h2⟩ := ih
      have ht : (0 : ℝ) < (3 / 2) ^ m := by positivity
      have o := odd m
      have e := even m
      rw [show 2 * (m + 1) + 1 = 2 * m + 3 by ring, show 2 * (m + 1) + 2 = 2 * m + 4 by ring, pow_succ]
      generalize ((3 : ℝ) / 2) ^ m = t at *
      have o' : (4 + s) * (-σ * y (2 * m + 3)) = 4 * s * (σ * y (2 * m + 2)) + (4 - s) * (σ * y (2 * m + 1)) := by
        linear_combination -σ * o
      have e' : (4 + s) * (-σ * y (2 * m + 4)) = 4 * s * (-σ * y (2 * m + 3)) + (4 - s) * (σ * y (2 * m + 2)) := by
        linear_combination -σ * e
      have g1 : 4 * s * t ≤ 4 * s * (σ * y (2 * m + 2)) := mul_le_mul_of_nonneg_left h2 (by linarith)
      have g2 : (4 - s) * t ≤ (4 - s) * (σ * y (2 * m + 1)) := mul_le_mul_of_nonneg_left h1 (by linarith)
      have g3 : (4 - s) * t ≤ (4 - s) * (σ * y (2 * m + 2)) := mul_le_mul_of_nonneg_left h2 (by linarith)
      have g4 : (4 + s) * (t * (3 / 2)) ≤ 4 * s * t + (4 - s) * t := by nlinarith
      have r1 : t * (3 / 2) ≤ -σ * y (2 * m + 3) := le_of_mul_le_mul_left (by linarith) (show 0 < 4 + s by linarith)
      have g5 : 4 * s * t ≤ 4 * s * (-σ * y (2 * m + 3)) := mul_le_mul_of_nonneg_left (by linarith) (by linarith)
      have r2 : t * (3 / 2) ≤ -σ * y (2 * m + 4) := le_of_mul_le_mul_left (by linarith) (show 0 < 4 + s by linarith)
      exact ⟨-σ, by rcases h with rfl | rfl <;> simp, r1, r2⟩
  have big : ∀ m, (3 / 2) ^ m ≤ |y (2 * m + 1)| := by
    intro m
    obtain ⟨σ, rfl | rfl, h, -⟩ := grow m
    · exact h.trans (by rw [_root_.one_mul]; exact le_abs_self _)
    · exact h.trans (by rw [neg_one_mul]; exact neg_le_abs _)
  refine ⟨big, fun ⟨B, hB⟩ => ?_⟩
  obtain ⟨m, hm⟩ := pow_unbounded_of_one_lt B (show (1 : ℝ) < 3 / 2 by norm_num)
  linarith [big m, hB (2 * m + 1)]

/-- a case of `C93_slow_partial`: the same two settings, each kept for long enough, and the same two settings in turn for a while -/
example : ∃ D, ∀ x, BoundedSignal x →
    (∃ y, RetunedReturns .init (fun n => finRBJ (zigzag (n / (D + 1)))) x y ∧ BoundedSignal y) ∧
    ∃ y, RetunedReturns .init (fun n => finRBJ (zigzag (min n 1000))) x y ∧ BoundedSignal y := by
  obtain ⟨D, hD⟩ := C93_slow_partial [.lowPass (1 / 8) 1, .lowPass (3 / 8) 1] (by
    intro e he
    simp only [List.mem_cons, List.not_mem_nil, or_false] at he
    rcases he with rfl | rfl <;> norm_num [ValidRBJ])
  have hz : ∀ n, zigzag n ∈ [RBJ.Design.lowPass (1 / 8) 1, .lowPass (3 / 8) 1] := by
    intro n; unfold zigzag; split <;> simp
  refine ⟨D, fun x hx => ⟨hD .init _ 0 x emptyLine_init (fun n => hz _) ?_ hx, hD .init _ 1000 x emptyLine_init (fun n => hz _) ?_ hx⟩⟩
  · intro n _ hn j hj
    have h : D + 1 ∣ n + 1 := by
      by_contra h
      exact hn (by dsimp only; rw [Nat.succ_div, if_neg h, Nat.add_zero])
    obtain ⟨c, hc⟩ := h
    dsimp only
    rw [hc, Nat.mul_add_div (by omega), Nat.div_eq_of_lt (by omega), Nat.mul_div_cancel_left _ (by omega), Nat.add_zero]
  · intro n hn h
    exact absurd (by dsimp only; rw [min_eq_right (by omega), min_eq_right (by omega)]) h

end Iir
