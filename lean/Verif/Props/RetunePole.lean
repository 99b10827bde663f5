import Verif.Spec.RetunePole
import Verif.Props.Retune
import Verif.Props.History
import Verif.Props.Equivalent

/-! # C96: retuning a running pole filter -/

set_option linter.unusedSectionVars false

namespace Iir
open Spec XR Exec

/-! ## Switching slowly -/

theorem Spec.HeldFrom.mono {α : Type} {N D D' : ℕ} {d : ℕ → α} (h : HeldFrom N D d) (hD : D' ≤ D) : HeldFrom N D' d :=
  fun n hn hc j hj => h n hn hc j (by omega)

/-- A quantity that decays up to a constant while the setting is kept is bounded if settings are kept long enough. -/
theorem dwell {α : Type} {m : ℕ → ℝ} {d : ℕ → α} {C ρ H : ℝ} {N D : ℕ} (hm : ∀ n, 0 ≤ m n) (c1 : 1 ≤ C) (p0 : 0 < ρ) (p1 : ρ < 1)
    (h0 : 0 ≤ H) (seg : ∀ s L, (∀ j, s ≤ j → j < s + L → d j = d s) → ∀ n ≤ L, m (s + n) ≤ C * ρ ^ n * m s + H)
    (hD : C * ρ ^ D ≤ 1 / 2) (hH : HeldFrom N D d) : ∃ B, ∀ n, m n ≤ B := by
  set B : ℝ := C * m N + 2 * H with hB
  have hB0 : 0 ≤ B := by have := hm N; positivity
  have hpow : ∀ n, C * ρ ^ n ≤ C := fun n => by
    have := mul_le_mul_of_nonneg_left (pow_le_one₀ (n := n) p0.le p1.le) (show 0 ≤ C by linarith)
    linarith
  have hN : m N ≤ B := by
    have := le_mul_of_one_le_left (hm N) c1
    linarith
  have main : ∀ n, N ≤ n → ∃ s, N ≤ s ∧ s ≤ n ∧ (∀ j, s ≤ j → j ≤ n → d j = d s) ∧ m s ≤ B ∧
      (s = N ∨ ∀ j < D, d (s + j) = d s) := by
    intro n hn
    induction n, hn using Nat.le_induction with
    | base => exact ⟨N, le_rfl, le_rfl, fun j h1 h2 => by rw [le_antisymm h2 h1], hN, .inl rfl⟩
    | succ n hn ih =>
      obtain ⟨s, h1, h2, h3, h4, h5⟩ := ih
      by_cases hc : d (n + 1) = d n
      · refine ⟨s, h1, by omega, fun j j1 j2 => ?_, h4, h5⟩
        rcases Nat.lt_or_ge n j with hj | hj
        · obtain rfl : j = n + 1 := by omega
          rw [hc, h3 n h2 le_rfl]
        · exact h3 j j1 hj
      · obtain ⟨L, rfl⟩ := Nat.exists_eq_add_of_le h2
        have hs := seg s (L + 1) (fun j j1 j2 => h3 j j1 (by omega)) (L + 1) le_rfl
        refine ⟨s + L + 1, by omega, le_rfl, fun j j1 j2 => by rw [le_antisymm j2 j1], ?_,
          .inr fun j hj => hH (s + L) (by omega) hc j hj⟩
        refine hs.trans ?_
        rcases h5 with rfl | h5
        · have := mul_le_mul_of_nonneg_right (hpow (L + 1)) (hm s)
          linarith
        · have hDL : D ≤ L + 1 := by
            by_contra hlt
            apply hc
            rw [h3 (s + L) h2 le_rfl, ← h5 (L + 1) (by omega)]
            rfl
          have w : C * ρ ^ (L + 1) * m s ≤ 1 / 2 * B := by
            refine mul_le_mul ?_ h4 (hm s) (by norm_num)
            exact (mul_le_mul_of_nonneg_left (pow_le_pow_of_le_one p0.le p1.le hDL) (by linarith)).trans hD
          have : 0 ≤ C * m N := mul_nonneg (by linarith) (hm N)
          linarith
  refine ⟨C * B + H + ∑ n ∈ Finset.range N, m n, fun n => ?_⟩
  have hCB : 0 ≤ C * B := by positivity
  have hS : 0 ≤ ∑ n ∈ Finset.range N, m n := Finset.sum_nonneg fun _ _ => hm _
  rcases Nat.lt_or_ge n N with hn | hn
  · have := Finset.single_le_sum (f := m) (fun _ _ => hm _) (Finset.mem_range.2 hn)
    linarith
  · obtain ⟨s, -, h2, h3, h4, -⟩ := main n hn
    obtain ⟨L, rfl⟩ := Nat.exists_eq_add_of_le h2
    have := seg s L (fun j j1 j2 => h3 j j1 (by omega)) L le_rfl
    have w : C * ρ ^ L * m s ≤ C * B := mul_le_mul (hpow L) h4 (hm s) (by linarith)
    linarith

/-! ## One section -/

/-- The delay line, empty at first, used with the coefficients `k n` for the sample `x n` returns `y n`. -/
def LineRuns (S : Type → Type) [StateType S XR] (k : ℕ → Coeffs) (x y : ℕ → ℝ) : Prop :=
  ∃ st : ℕ → S XR, st 0 = StateType.init ∧ ∀ n, StateType.filter (fin (x n)) (k n).norm.toX (st n) = (fin (y n), st (n + 1))

/-- Constants that serve for all settings of a list. -/
structure Uniform (k : Coeffs) (C ρ G F : ℝ) : Prop where
  ne : k.a0 ≠ 0
  decays : Decays k C ρ G
  a1 : |k.a1 / k.a0| ≤ F
  a2 : |k.a2 / k.a0| ≤ F
  b0 : |k.b0 / k.a0| ≤ F
  b1 : |k.b1 / k.a0| ≤ F
  b2 : |k.b2 / k.a0| ≤ F

theorem exists_uniform {α : Type} (κ : α → Coeffs) : ∀ L : List α, (∀ e ∈ L, (κ e).a0 ≠ 0 ∧ (κ e).Stable) →
    ∃ C ρ G F, 1 ≤ C ∧ 0 < ρ ∧ ρ < 1 ∧ 0 ≤ G ∧ 0 ≤ F ∧ ∀ e ∈ L, Uniform (κ e) C ρ G F
  | [], _ => ⟨1, 1 / 2, 0, 0, le_rfl, by norm_num, by norm_num, le_rfl, le_rfl, by simp⟩
  | e :: L, h => by
    obtain ⟨C, ρ, G, F, c1, p0, p1, g0, f0, hS⟩ := exists_uniform κ L fun e he => h e (List.mem_cons_of_mem _ he)
    obtain ⟨C', ρ', G', c1', p0', p1', g0', hd⟩ := stable_decays (h e List.mem_cons_self).1 (h e List.mem_cons_self).2
    have t1 := abs_nonneg ((κ e).a1 / (κ e).a0)
    have t2 := abs_nonneg ((κ e).a2 / (κ e).a0)
    have t3 := abs_nonneg ((κ e).b0 / (κ e).a0)
    have t4 := abs_nonneg ((κ e).b1 / (κ e).a0)
    have t5 := abs_nonneg ((κ e).b2 / (κ e).a0)
    refine ⟨max C C', max ρ ρ', max G G', F + (|(κ e).a1 / (κ e).a0| + |(κ e).a2 / (κ e).a0| + |(κ e).b0 / (κ e).a0| +
      |(κ e).b1 / (κ e).a0| + |(κ e).b2 / (κ e).a0|), le_max_of_le_left c1,
      lt_max_of_lt_left p0, max_lt p1 p1', le_max_of_le_left g0, by linarith, fun e' he' => ?_⟩
    rcases List.mem_cons.1 he' with rfl | he'
    · exact ⟨(h e' List.mem_cons_self).1, hd.mono (by linarith) (le_max_right _ _) p0'.le (le_max_right _ _) (le_max_right _ _),
        by linarith, by linarith, by linarith, by linarith, by linarith⟩
    · obtain ⟨u0, u1, u2, u3, u4, u5, u6⟩ := hS e' he'
      exact ⟨u0, u1.mono (by linarith) (le_max_left _ _) p0.le (le_max_left _ _) (le_max_left _ _),
        by linarith, by linarith, by linarith, by linarith, by linarith⟩

theorem exists_dwell {C ρ : ℝ} (c1 : 1 ≤ C) (p1 : ρ < 1) (p0 : 0 < ρ) : ∃ D : ℕ, C * ρ ^ D ≤ 1 / 2 := by
  obtain ⟨D, hD⟩ := exists_pow_lt_of_lt_one (show 0 < 1 / (2 * C) by positivity) p1
  refine ⟨D, ?_⟩
  have := mul_le_mul_of_nonneg_left hD.le (show 0 ≤ C by linarith)
  rwa [show C * (1 / (2 * C)) = 1 / 2 by field_simp] at this

/-- What is wanted of a delay line. -/
def Rides (S : Type → Type) [StateType S XR] : Prop :=
  ∀ {α : Type} (κ : α → Coeffs) (L : List α), (∀ e ∈ L, (κ e).a0 ≠ 0 ∧ (κ e).Stable) →
    ∃ D, ∀ (d : ℕ → α) (N : ℕ) (x : ℕ → ℝ), (∀ n, d n ∈ L) → HeldFrom N D d → BoundedSignal x →
      ∃ y, LineRuns S (fun n => κ (d n)) x y ∧ BoundedSignal y

/-- The recursion of the two direct forms: a sequence with bounded residuals is bounded. -/
theorem recursion_bounded {α : Type} {κ : α → Coeffs} {L : List α} {C ρ G F : ℝ} (c1 : 1 ≤ C) (p0 : 0 < ρ) (p1 : ρ < 1) (g0 : 0 ≤ G)
    (hU : ∀ e ∈ L, Uniform (κ e) C ρ G F) {D N : ℕ} (hD : C * ρ ^ D ≤ 1 / 2) {d : ℕ → α} (hd : ∀ n, d n ∈ L) (hH : HeldFrom N D d)
    {E : ℝ} (hE : 0 ≤ E) {w : ℕ → ℝ}
    (hw : ∀ n, |w n + (κ (d n)).a1 / (κ (d n)).a0 * delayed 1 w n + (κ (d n)).a2 / (κ (d n)).a0 * delayed 2 w n| ≤ E) :
    BoundedSignal w := by
  set Y := padded w with hYdef
  have hres : ∀ n, |Y (n + 2) + (κ (d n)).a1 / (κ (d n)).a0 * Y (n + 1) + (κ (d n)).a2 / (κ (d n)).a0 * Y n| ≤ E := fun n => by
    rw [hYdef, padded_succ w n, padded_self w n]
    exact hw n
  have seg : ∀ s L', (∀ j, s ≤ j → j < s + L' → d j = d s) → ∀ n ≤ L',
      max |Y (s + n)| |Y (s + n + 1)| ≤ C * ρ ^ n * max |Y s| |Y (s + 1)| + G * E := by
    intro s L' hc n hn
    have := (hU _ (hd s)).decays (fun n => Y (s + n)) L' E (max |Y s| |Y (s + 1)|) hE (le_max_left _ _) (le_max_right _ _)
      fun n hn => by
        have := hres (s + n)
        rwa [hc (s + n) (by omega) (by omega)] at this
    refine max_le (this n (by omega)) ((this (n + 1) (by omega)).trans ?_)
    have hp : ρ ^ (n + 1) ≤ ρ ^ n := pow_le_pow_of_le_one p0.le p1.le (by omega)
    have hM : 0 ≤ max |Y s| |Y (s + 1)| := le_max_of_le_left (abs_nonneg _)
    have : 0 ≤ C := by linarith
    gcongr
  obtain ⟨B, hB⟩ := dwell (m := fun n => max |Y n| |Y (n + 1)|) (fun n => le_max_of_le_left (abs_nonneg _)) c1 p0 p1
    (mul_nonneg g0 hE) seg hD hH
  exact ⟨B, fun n => (le_max_left _ _).trans (hB (n + 2))⟩

theorem df1_runs {k : ℕ → Coeffs} {x y : ℕ → ℝ} (hy : VaryingEq k x y) : LineRuns DirectFormI k x y := by
  refine ⟨fun n => { x1 := fin (delayed 1 x n), x2 := fin (delayed 2 x n), y1 := fin (delayed 1 y n), y2 := fin (delayed 2 y n) },
    by simp [StateType.init, delayed], fun n => ?_⟩
  have out : (k n).norm.b0 * x n + (k n).norm.b1 * delayed 1 x n + (k n).norm.b2 * delayed 2 x n
      - (k n).norm.a1 * delayed 1 y n - (k n).norm.a2 * delayed 2 y n = y n := by
    rw [hy n]
    simp only [Coeffs.norm]
    ring
  simp only [StateType.filter, DirectFormI.filter, Biquad.toX, fin_mul, fin_add, fin_sub, out, delayed_one_succ, delayed_two_succ]

theorem df2_runs {k : ℕ → Coeffs} {x w : ℕ → ℝ} (hw : ∀ n, w n + (k n).norm.a1 * delayed 1 w n + (k n).norm.a2 * delayed 2 w n = x n) :
    LineRuns DirectFormII k x fun n => (k n).norm.b0 * w n + (k n).norm.b1 * delayed 1 w n + (k n).norm.b2 * delayed 2 w n := by
  refine ⟨fun n => { v1 := fin (delayed 1 w n), v2 := fin (delayed 2 w n) }, by simp [StateType.init, delayed], fun n => ?_⟩
  have out : x n - (k n).norm.a1 * delayed 1 w n - (k n).norm.a2 * delayed 2 w n = w n := by
    rw [← hw n]
    ring
  simp only [StateType.filter, DirectFormII.filter, Biquad.toX, fin_mul, fin_add, fin_sub, out, delayed_one_succ, delayed_two_succ]

theorem df2_exists (k : ℕ → Coeffs) (hk : ∀ n, (k n).a0 ≠ 0) (x : ℕ → ℝ) :
    ∃ w : ℕ → ℝ, ∀ n, w n + (k n).norm.a1 * delayed 1 w n + (k n).norm.a2 * delayed 2 w n = x n := by
  obtain ⟨w, hw⟩ := varying_exists (fun n => ⟨(k n).a0, (k n).a1, (k n).a2, (k n).a0, 0, 0⟩) x
  refine ⟨w, fun n => ?_⟩
  have := hk n
  have h := hw n
  simp only at h
  rw [h]
  simp only [Coeffs.norm]
  field_simp
  ring

theorem df1_rides : Rides DirectFormI := by
  intro α κ L hL
  obtain ⟨C, ρ, G, F, c1, p0, p1, g0, f0, hU⟩ := exists_uniform κ L hL
  obtain ⟨D, hD⟩ := exists_dwell c1 p1 p0
  refine ⟨D, fun d N x hd hH ⟨X, hX⟩ => ?_⟩
  have hX0 : 0 ≤ X := (abs_nonneg _).trans (hX 0)
  obtain ⟨y, hy⟩ := varying_exists (fun n => κ (d n)) x
  refine ⟨y, df1_runs hy, ?_⟩
  · refine recursion_bounded c1 p0 p1 g0 hU hD hd hH (E := 3 * F * X) (by positivity) fun n => ?_
    have u := hU _ (hd n)
    have e : y n + (κ (d n)).a1 / (κ (d n)).a0 * delayed 1 y n + (κ (d n)).a2 / (κ (d n)).a0 * delayed 2 y n =
        (κ (d n)).b0 / (κ (d n)).a0 * x n + (κ (d n)).b1 / (κ (d n)).a0 * delayed 1 x n +
          (κ (d n)).b2 / (κ (d n)).a0 * delayed 2 x n := by
      rw [hy n]; ring
    rw [e]
    refine (abs_add_le _ _).trans ?_
    refine (add_le_add_left (abs_add_le _ _) _).trans ?_
    rw [abs_mul, abs_mul, abs_mul]
    have b0 := mul_le_mul u.b0 (hX n) (abs_nonneg _) f0
    have b1 := mul_le_mul u.b1 (abs_delayed_le hX 1 n) (abs_nonneg _) f0
    have b2 := mul_le_mul u.b2 (abs_delayed_le hX 2 n) (abs_nonneg _) f0
    linarith

theorem df2_rides : Rides DirectFormII := by
  intro α κ L hL
  obtain ⟨C, ρ, G, F, c1, p0, p1, g0, f0, hU⟩ := exists_uniform κ L hL
  obtain ⟨D, hD⟩ := exists_dwell c1 p1 p0
  refine ⟨D, fun d N x hd hH ⟨X, hX⟩ => ?_⟩
  have hX0 : 0 ≤ X := (abs_nonneg _).trans (hX 0)
  obtain ⟨w, e⟩ := df2_exists (fun n => κ (d n)) (fun n => (hU _ (hd n)).ne) x
  obtain ⟨W, hW⟩ := recursion_bounded c1 p0 p1 g0 hU hD hd hH hX0 fun n => (e n).symm ▸ hX n
  refine ⟨_, df2_runs e, 3 * F * W, fun n => ?_⟩
  · have u := hU _ (hd n)
    refine (abs_add_le _ _).trans ?_
    refine (add_le_add_left (abs_add_le _ _) _).trans ?_
    rw [abs_mul, abs_mul, abs_mul]
    have b0 := mul_le_mul u.b0 (hW n) (abs_nonneg _) f0
    have b1 := mul_le_mul u.b1 (abs_delayed_le hW 1 n) (abs_nonneg _) f0
    have b2 := mul_le_mul u.b2 (abs_delayed_le hW 2 n) (abs_nonneg _) f0
    simp only [Coeffs.norm]
    linarith

/-- The two values kept by the transposed form, used with changing coefficients. -/
noncomputable def tdfState (k : ℕ → Coeffs) (x : ℕ → ℝ) : ℕ → ℝ × ℝ
  | 0 => (0, 0)
  | n + 1 =>
    let p := tdfState k x n
    let y := p.1 + (k n).norm.b0 * x n
    (p.2 + (k n).norm.b1 * x n - (k n).norm.a1 * y, (k n).norm.b2 * x n - (k n).norm.a2 * y)

theorem tdf_runs (k : ℕ → Coeffs) (x : ℕ → ℝ) :
    LineRuns TransposedDirectFormII k x fun n => (tdfState k x n).1 + (k n).norm.b0 * x n := by
  refine ⟨fun n => { s1 := fin (tdfState k x n).1, s1_1 := fin (tdfState k x n).1, s2 := fin (tdfState k x n).2, s2_1 := fin (tdfState k x n).2 },
    by simp [StateType.init, tdfState], fun n => ?_⟩
  simp only [StateType.filter, TransposedDirectFormII.filter, Biquad.toX, fin_mul, fin_add, fin_sub, tdfState]

theorem tdf2_rides : Rides TransposedDirectFormII := by
  intro α κ L hL
  obtain ⟨C, ρ, G, F, c1, p0, p1, g0, f0, hU⟩ := exists_uniform κ L hL
  have c0 : 0 ≤ C := by linarith
  set C' : ℝ := C * (1 + F) * (1 + F / ρ) with hC'
  have c1' : 1 ≤ C' := by
    have h1 : 1 ≤ C * (1 + F) := by nlinarith
    have h2 : 0 ≤ F / ρ := by positivity
    rw [hC']
    nlinarith
  obtain ⟨D, hD⟩ := exists_dwell c1' p1 p0
  refine ⟨D, fun d N x hd hH ⟨X, hX⟩ => ⟨_, tdf_runs _ x, ?_⟩⟩
  have hX0 : 0 ≤ X := (abs_nonneg _).trans (hX 0)
  set k : ℕ → Coeffs := fun n => κ (d n) with hk
  set P : ℕ → ℝ := fun n => (tdfState k x n).1 with hP
  set Q : ℕ → ℝ := fun n => (tdfState k x n).2 with hQ
  set V : ℝ := (F + F * F) * X with hV
  have hV0 : 0 ≤ V := by positivity
  have eP : ∀ n, P (n + 1) = Q n - (k n).a1 / (k n).a0 * P n + ((k n).b1 / (k n).a0 - (k n).a1 / (k n).a0 * ((k n).b0 / (k n).a0)) * x n :=
    fun n => by simp only [hP, hQ, tdfState, Coeffs.norm]; ring
  have eQ : ∀ n, Q (n + 1) = -((k n).a2 / (k n).a0) * P n + ((k n).b2 / (k n).a0 - (k n).a2 / (k n).a0 * ((k n).b0 / (k n).a0)) * x n :=
    fun n => by simp only [hP, hQ, tdfState, Coeffs.norm]; ring
  have drive : ∀ {a b c v : ℝ}, |a| ≤ F → |b| ≤ F → |c| ≤ F → |v| ≤ X → |(a - b * c) * v| ≤ V := by
    intro a b c v ha hb hc hv
    rw [abs_mul, hV]
    refine mul_le_mul ?_ hv (abs_nonneg _) (by positivity)
    refine (abs_sub _ _).trans ?_
    rw [abs_mul]
    exact add_le_add ha (mul_le_mul hb hc (abs_nonneg _) f0)
  have bP : ∀ n, |P (n + 1)| ≤ |Q n| + F * |P n| + V := fun n => by
    have u := hU _ (hd n)
    rw [eP]
    refine (abs_add_le _ _).trans (add_le_add ((abs_sub _ _).trans (add_le_add le_rfl ?_)) (drive u.b1 u.a1 u.b0 (hX n)))
    rw [abs_mul]
    exact mul_le_mul_of_nonneg_right u.a1 (abs_nonneg _)
  have bQ : ∀ n, |Q (n + 1)| ≤ F * |P n| + V := fun n => by
    have u := hU _ (hd n)
    rw [eQ]
    refine (abs_add_le _ _).trans (add_le_add ?_ (drive u.b2 u.a2 u.b0 (hX n)))
    rw [abs_mul, abs_neg]
    exact mul_le_mul_of_nonneg_right u.a2 (abs_nonneg _)
  set K : ℝ := C * V + G * (2 * V) with hK
  have hK0 : 0 ≤ K := by positivity
  have seg : ∀ s L', (∀ j, s ≤ j → j < s + L' → d j = d s) → ∀ n ≤ L',
      max |P (s + n)| |Q (s + n)| ≤ C' * ρ ^ n * max |P s| |Q s| + ((1 + F) * K + V) := by
    intro s L' hc n hn
    set M : ℝ := max |P s| |Q s| with hM
    have hM0 : 0 ≤ M := le_max_of_le_left (abs_nonneg _)
    rcases Nat.eq_zero_or_pos n with rfl | hn0
    · rw [pow_zero, _root_.mul_one]
      have := le_mul_of_one_le_left hM0 c1'
      have : 0 ≤ (1 + F) * K + V := by positivity
      show M ≤ _
      linarith
    obtain ⟨l, rfl⟩ : ∃ l, L' = l + 1 := ⟨L' - 1, by omega⟩
    have hdec := (hU _ (hd s)).decays (fun n => P (s + n)) l (2 * V) ((1 + F) * M + V) (by positivity)
      (by
        have h1 : |P s| ≤ M := le_max_left _ _
        have : 0 ≤ F * M := by positivity
        show |P s| ≤ _
        linarith)
      (by
        have h1 : |P s| ≤ M := le_max_left _ _
        have h2 : |Q s| ≤ M := le_max_right _ _
        have := mul_le_mul_of_nonneg_left h1 f0
        have := bP s
        show |P (s + 1)| ≤ _
        linarith)
      (fun m hm => by
        have e0 : d (s + m) = d s := hc _ (by omega) (by omega)
        have e1 : d (s + (m + 1)) = d s := hc _ (by omega) (by omega)
        have u := hU _ (hd s)
        have h1 := eP (s + (m + 1))
        have h2 := eQ (s + m)
        simp only [hk, e0, e1] at h1 h2
        have : P (s + (m + 2)) + (κ (d s)).a1 / (κ (d s)).a0 * P (s + (m + 1)) + (κ (d s)).a2 / (κ (d s)).a0 * P (s + m) =
            ((κ (d s)).b2 / (κ (d s)).a0 - (κ (d s)).a2 / (κ (d s)).a0 * ((κ (d s)).b0 / (κ (d s)).a0)) * x (s + m) +
            ((κ (d s)).b1 / (κ (d s)).a0 - (κ (d s)).a1 / (κ (d s)).a0 * ((κ (d s)).b0 / (κ (d s)).a0)) * x (s + (m + 1)) := by
          rw [show s + (m + 2) = s + (m + 1) + 1 by ring, h1, show s + (m + 1) = s + m + 1 by ring, h2]
          ring
        rw [this]
        refine (abs_add_le _ _).trans ?_
        have t1 := drive u.b2 u.a2 u.b0 (hX (s + m))
        have t2 := drive u.b1 u.a1 u.b0 (hX (s + (m + 1)))
        linarith)
    have hPn : ∀ j < l + 2, |P (s + j)| ≤ C * (1 + F) * ρ ^ j * M + K := by
      intro j hj
      refine (hdec j hj).trans ?_
      have : C * ρ ^ j * V ≤ C * V := by
        have := mul_le_mul_of_nonneg_left (pow_le_one₀ (n := j) p0.le p1.le) c0
        exact mul_le_mul_of_nonneg_right (by linarith) hV0
      rw [hK]
      linarith
    obtain ⟨i, rfl⟩ : ∃ i, n = i + 1 := ⟨n - 1, by omega⟩
    have hA : 0 ≤ C * (1 + F) * ρ ^ (i + 1) * M := by positivity
    have e3 : C' * ρ ^ (i + 1) * M = C * (1 + F) * ρ ^ (i + 1) * M + F * (C * (1 + F) * ρ ^ i * M) := by
      rw [hC', pow_succ]; field_simp
    have e4 : 0 ≤ F * (C * (1 + F) * ρ ^ i * M) := by positivity
    have e5 : 0 ≤ F * K := by positivity
    rw [e3]
    refine max_le ?_ ?_
    · have := hPn (i + 1) (by omega)
      linarith
    · have h1 := bQ (s + i)
      have h2 := mul_le_mul_of_nonneg_left (hPn i (by omega)) f0
      rw [show s + i + 1 = s + (i + 1) by ring] at h1
      linarith
  obtain ⟨B, hB⟩ := dwell (m := fun n => max |P n| |Q n|) (fun n => le_max_of_le_left (abs_nonneg _)) c1' p0 p1
    (show 0 ≤ (1 + F) * K + V by positivity) seg hD hH
  refine ⟨B + F * X, fun n => (abs_add_le _ _).trans (add_le_add ((le_max_left _ _).trans (hB n)) ?_)⟩
  rw [abs_mul]
  exact mul_le_mul (hU _ (hd n)).b0 (hX n) (abs_nonneg _) f0

theorem line_rides {S : Type → Type} [StateType S XR] [h : DelayLine XR S] : Rides S := by
  cases h
  · exact df1_rides
  · exact df2_rides
  · exact tdf2_rides

/-! ## All sections -/

variable {S : Type → Type} [StateType S XR]

/-- Delay lines, `m` of them and empty at first, used with the sections `ks n` for the sample `x n`, return `y n`. -/
def ChainRuns (S : Type → Type) [StateType S XR] (m : ℕ) (ks : ℕ → List Coeffs) (x y : ℕ → ℝ) : Prop :=
  ∃ st : ℕ → List (S XR), st 0 = List.replicate m StateType.init ∧
    ∀ n, CascadeStages.filterD ((ks n).map fun k => k.norm.toX) (st n) (fin (x n)) = (fin (y n), st (n + 1))

theorem chainRuns_cons {m : ℕ} {k : ℕ → Coeffs} {ks : ℕ → List Coeffs} {x u y : ℕ → ℝ} (h : LineRuns S k x u)
    (h' : ChainRuns S m ks u y) : ChainRuns S (m + 1) (fun n => k n :: ks n) x y := by
  obtain ⟨s, s0, hs⟩ := h
  obtain ⟨st, st0, hst⟩ := h'
  refine ⟨fun n => s n :: st n, by simp only [s0, st0]; rfl, fun n => ?_⟩
  simp only [List.map_cons, CascadeStages.filterD, hs, hst]

theorem chain_rides [DelayLine XR S] {α : Type} : ∀ (m : ℕ) (κ : α → List Coeffs) (L : List α),
    (∀ e ∈ L, (κ e).length = m ∧ ∀ k ∈ κ e, k.a0 ≠ 0 ∧ k.Stable) →
    ∃ D, ∀ (d : ℕ → α) (N : ℕ) (x : ℕ → ℝ), (∀ n, d n ∈ L) → HeldFrom N D d → BoundedSignal x →
      ∃ y, ChainRuns S m (fun n => κ (d n)) x y ∧ BoundedSignal y
  | 0, κ, L, hL => by
    refine ⟨0, fun d N x hd _ hx => ⟨x, ⟨fun _ => [], rfl, fun n => ?_⟩, hx⟩⟩
    have : κ (d n) = [] := List.length_eq_zero_iff.1 (hL _ (hd n)).1
    simp [this, CascadeStages.filterD]
  | m + 1, κ, L, hL => by
    let hd : α → Coeffs := fun e => (κ e).headD ⟨1, 0, 0, 0, 0, 0⟩
    have split : ∀ e ∈ L, κ e = hd e :: (κ e).tail := fun e he => by
      have h1 := (hL e he).1
      simp only [hd]
      cases hk : κ e with
      | nil => rw [hk] at h1; cases h1
      | cons a l => rfl
    obtain ⟨D1, h1⟩ := line_rides (S := S) hd L fun e he => (hL e he).2 _ (by
      have := split e he
      rw [this]
      exact List.mem_cons_self)
    obtain ⟨D2, h2⟩ := chain_rides m (fun e => (κ e).tail) L fun e he =>
      ⟨by rw [List.length_tail, (hL e he).1]; rfl, fun k hk => (hL e he).2 k (List.mem_of_mem_tail hk)⟩
    refine ⟨max D1 D2, fun d N x hd' hH hx => ?_⟩
    obtain ⟨u, hu, hub⟩ := h1 d N x hd' (hH.mono (le_max_left _ _)) hx
    obtain ⟨y, hy, hyb⟩ := h2 d N u hd' (hH.mono (le_max_right _ _)) hub
    refine ⟨y, ?_, hyb⟩
    have := chainRuns_cons hu hy
    convert this using 2 with n
    exact split _ (hd' n)

/-! ## The object -/

variable [DelayLine XR S] {c : Cls} {n : ℕ}

/-- A valid call leaves the same sections in every object of the class. -/
theorem valid_sections (hn1 : 1 ≤ n) (hn : n < 2 ^ 30) {e : Call XR} (hc : e.design.cls = c) {o : ℕ} {d : Design XR} (ha : Asks e n o d)
    (hv : Valid o d) : ∃ ks : List Coeffs, ks.length = PoleFilter.numStages c n ∧ (∀ k ∈ ks, k.a0 ≠ 0 ∧ k.Stable) ∧
      ∀ f : PoleFilter S XR, Reach S XR c n f → ∃ f', PoleFilter.setup n e f = (.ok (), f') ∧ f'.states = f.states ∧
        f'.base.cascade.stages = ks.map fun k => k.norm.toX := by
  have hs : AfterSetup S XR n e StableFilter := C29_stable ha hv
  subst hc
  obtain ⟨g, g1, g2, g3⟩ := hs _ .new
  have conv : ∀ bs : List (Biquad XR), (∀ b ∈ bs, StableSection b) →
      ∃ ks : List Coeffs, (∀ k ∈ ks, k.a0 ≠ 0 ∧ k.Stable) ∧ bs = ks.map fun k => k.norm.toX := by
    intro bs hb
    induction bs with
    | nil => exact ⟨[], by simp, rfl⟩
    | cons b bs ih =>
      obtain ⟨ks, h1, h2⟩ := ih fun b hb' => hb b (List.mem_cons_of_mem _ hb')
      obtain ⟨k, h3, h4⟩ := hb b List.mem_cons_self
      obtain ⟨h5, h6⟩ := hasCoeffs_iff.1 h3
      refine ⟨k :: ks, fun k' hk' => ?_, by rw [h5, h2]; rfl⟩
      rcases List.mem_cons.1 hk' with rfl | hk'
      · exact ⟨h6, h4⟩
      · exact h1 k' hk'
  obtain ⟨ks, k1, k2⟩ := conv _ g3
  have rg : Reach S XR e.design.cls n g := .call _ _ (.setup e) (.ok ()) .new rfl g1 fun _ => by simp
  refine ⟨ks, ?_, k1, fun f hf => ?_⟩
  · have := (rg.ok hn1 hn).cascade.length
    rw [k2, List.length_map] at this
    exact this
  · obtain ⟨f', f1, f2, -⟩ := hs f hf
    refine ⟨f', f1, f2, ?_⟩
    have := (C12_history_partial (f := f) (call := e) hn1 hn hf rfl (by rw [ha.order]; omega) (by rw [g1])).2.stages
    rw [f1, g1] at this
    rw [← k2]
    exact this

/-- From the sections to the object. -/
theorem retuned_pole_of {f : PoleFilter S XR} (hf : Reach S XR c n f) (he : EmptyLines f) {d : ℕ → Call XR}
    (hcls : ∀ k, (d k).design.cls = c) {ks : ℕ → List Coeffs}
    (hd : ∀ k, ∀ f : PoleFilter S XR, Reach S XR c n f → ∃ f', PoleFilter.setup n (d k) f = (.ok (), f') ∧ f'.states = f.states ∧
        f'.base.cascade.stages = (ks k).map fun k => k.norm.toX) {x y : ℕ → ℝ}
    (h : ChainRuns S (PoleFilter.numStages c n) ks x y) : RetunedPoleReturns n f d x y := by
  classical
  obtain ⟨st, st0, hst⟩ := h
  have hst0 : st 0 = f.states := by
    rw [st0, eq_comm, List.eq_replicate_iff]
    exact ⟨hf.states_length, he⟩
  -- the objects between the samples
  have step : ∀ k (f : PoleFilter S XR), Reach S XR c n f → f.states = st k → ∃ f' : PoleFilter S XR, Reach S XR c n f' ∧
      f'.states = st (k + 1) ∧ (do PoleFilter.setup n (d k); PoleFilter.filter (T := XR) (XR.fin (x k)) : Exec (PoleFilter S XR) XR) f =
      (.ok (XR.fin (y k)), f') := by
    intro k f hf hs
    obtain ⟨f1, e1, e2, e3⟩ := hd k f hf
    have r1 : Reach S XR c n f1 := .call _ _ (.setup (d k)) (.ok ()) hf (hcls k) e1 fun _ => by simp
    have e4 : PoleFilter.filter (T := XR) (XR.fin (x k)) f1 = (.ok (XR.fin (y k)), { f1 with states := st (k + 1) }) := by
      have := hst k
      rw [← hs, ← e2, ← e3] at this
      simp only [PoleFilter.filter, Exec.zoom, CascadeStages.filter, Sample.toR, Sample.ofR, id_eq, this]
    refine ⟨{ f1 with states := st (k + 1) }, .call _ _ (.filter (XR.fin (x k))) (.ok ()) r1 trivial ?_ fun _ => by simp, rfl, ?_⟩
    · simp only [Op.exec, bind_def, e4]
      rfl
    · simp only [bind_def, e1, e4]
  choose! F hF1 hF2 hF3 using step
  let g : ℕ → PoleFilter S XR := fun k => Nat.rec f (fun k f => F k f) k
  have hg : ∀ k, Reach S XR c n (g k) ∧ (g k).states = st k := by
    intro k
    induction k with
    | zero => exact ⟨hf, hst0.symm⟩
    | succ k ih => exact ⟨hF1 k _ ih.1 ih.2, hF2 k _ ih.1 ih.2⟩
  exact ⟨g, rfl, fun k => hF3 k _ (hg k).1 (hg k).2⟩

/-- **C96**, what holds: for every class, order and delay line, and every finite choice of valid settings, there is a time `D` such
that the output is bounded whenever the input is and, from some time on, no setting is left before `D` samples have passed. Missing:
schedules that change settings faster than that for ever, for which the statement is false (`C96_false`). -/
theorem C96_slow_partial (hn1 : 1 ≤ n) (hn : n < 2 ^ 30) (L : List (Call XR))
    (hL : ∀ e ∈ L, e.design.cls = c ∧ ∃ o d, Asks e n o d ∧ Valid o d) :
    ∃ D, ∀ (f : PoleFilter S XR) (d : ℕ → Call XR) (N : ℕ) (x : ℕ → ℝ), Reach S XR c n f → EmptyLines f → (∀ k, d k ∈ L) →
      HeldFrom N D d → BoundedSignal x → ∃ y, RetunedPoleReturns n f d x y ∧ BoundedSignal y := by
  classical
  choose! κ hκ using fun (e : Call XR) (he : e ∈ L) => (hL e he).2.elim fun o h => h.elim fun d h =>
    valid_sections (S := S) hn1 hn (hL e he).1 h.1 h.2
  obtain ⟨D, hD⟩ := chain_rides (S := S) (PoleFilter.numStages c n) κ L fun e he => ⟨(hκ e he).1, (hκ e he).2.1⟩
  refine ⟨D, fun f d N x hf he hd hH hx => ?_⟩
  obtain ⟨y, hy, hb⟩ := hD d N x hd hH hx
  exact ⟨y, retuned_pole_of hf he (fun k => (hL _ (hd k)).1) (fun k => (hκ _ (hd k)).2.2) hy, hb⟩

theorem line_runs_exists {k : ℕ → Coeffs} (hk : ∀ n, (k n).a0 ≠ 0) (x : ℕ → ℝ) : ∃ y, LineRuns S k x y := by
  rename_i hdl
  cases hdl
  · exact (varying_exists k x).imp fun y hy => df1_runs hy
  · exact (df2_exists k hk x).elim fun w hw => ⟨_, df2_runs hw⟩
  · exact ⟨_, tdf_runs k x⟩

theorem chain_runs_exists : ∀ (m : ℕ) (ks : ℕ → List Coeffs) (x : ℕ → ℝ), (∀ n, (ks n).length = m ∧ ∀ k ∈ ks n, k.a0 ≠ 0) →
    ∃ y, ChainRuns S m ks x y
  | 0, ks, x, h => ⟨x, fun _ => [], rfl, fun n => by simp [List.length_eq_zero_iff.1 (h n).1, CascadeStages.filterD]⟩
  | m + 1, ks, x, h => by
    have split : ∀ n, ks n = (ks n).headD ⟨1, 0, 0, 0, 0, 0⟩ :: (ks n).tail := fun n => by
      have h1 := (h n).1
      cases hk : ks n with
      | nil => rw [hk] at h1; cases h1
      | cons a l => rfl
    obtain ⟨u, hu⟩ := line_runs_exists (S := S) (k := fun n => (ks n).headD ⟨1, 0, 0, 0, 0, 0⟩) (fun n => (h n).2 _ (by
      have : (ks n).headD ⟨1, 0, 0, 0, 0, 0⟩ ∈ (ks n).headD ⟨1, 0, 0, 0, 0, 0⟩ :: (ks n).tail := List.mem_cons_self
      rwa [← split n] at this)) x
    obtain ⟨y, hy⟩ := chain_runs_exists m (fun n => (ks n).tail) u fun n =>
      ⟨by rw [List.length_tail, (h n).1]; rfl, fun k hk => (h n).2 k (List.mem_of_mem_tail hk)⟩
    refine ⟨y, ?_⟩
    have := chainRuns_cons hu hy
    convert this using 2 with n
    exact split n

theorem RetunedPoleReturns.unique {f : PoleFilter S XR} {d : ℕ → Call XR} {x y y' : ℕ → ℝ} (h : RetunedPoleReturns n f d x y)
    (h' : RetunedPoleReturns n f d x y') : y = y' := by
  obtain ⟨g, h0, h⟩ := h
  obtain ⟨g', h0', h'⟩ := h'
  have hg : ∀ n, g n = g' n := by
    intro n
    induction n with
    | zero => rw [h0, h0']
    | succ n ih =>
      have := h n
      rw [ih, h' n] at this
      exact (congrArg Prod.snd this).symm
  funext n
  have := h n
  rw [hg n, h' n] at this
  have := congrArg Prod.fst this
  simpa using this.symm

/-- **C96**, every schedule: however often and between whatever valid settings the filter is retuned, no call fails and every sample
returned is a number; the samples are determined by the settings and the input. -/
theorem C96_total (hn1 : 1 ≤ n) (hn : n < 2 ^ 30) {f : PoleFilter S XR} (hf : Reach S XR c n f) (he : EmptyLines f) {d : ℕ → Call XR}
    (hd : ∀ k, (d k).design.cls = c ∧ ∃ o e, Asks (d k) n o e ∧ Valid o e) (x : ℕ → ℝ) : ∃! y, RetunedPoleReturns n f d x y := by
  choose ks hks using fun k => (hd k).2.elim fun o h => h.elim fun e h => valid_sections (S := S) hn1 hn (hd k).1 h.1 h.2
  obtain ⟨y, hy⟩ := chain_runs_exists (S := S) (PoleFilter.numStages c n) ks x fun k => ⟨(hks k).1, fun k' hk' => ((hks k).2.1 k' hk').1⟩
  have := retuned_pole_of hf he (fun k => (hd k).1) (fun k => (hks k).2.2) hy
  exact ⟨y, this, fun y' hy' => RetunedPoleReturns.unique hy' this⟩

/-! ## Switching quickly -/

/-- The settings of `C96_false`: Butterworth low passes of order 2 at an eighth and at three eighths of the sampling rate in turn. -/
noncomputable def zigzagPole (k : ℕ) : Call XR :=
  if k % 2 = 0 then .setupN (.bwLowPass (fin (1 / 8))) else .setupN (.bwLowPass (fin (3 / 8)))

/-- The answer to an impulse determines the coefficients of a section of order 2. -/
theorem norm_of_answer {k k' : Coeffs} {y : ℕ → ℝ} (hne : k.a0 ≠ 0) (hne' : k'.a0 ≠ 0) (h : k.DiffEq unitImpulse y)
    (h' : k'.DiffEq unitImpulse y) (hdet : y 2 * y 2 - y 1 * y 3 ≠ 0) :
    k.norm.a1 = k'.norm.a1 ∧ k.norm.a2 = k'.norm.a2 ∧ k.norm.b0 = k'.norm.b0 ∧ k.norm.b1 = k'.norm.b1 ∧ k.norm.b2 = k'.norm.b2 := by
  have exp : ∀ {k : Coeffs}, k.a0 ≠ 0 → k.DiffEq unitImpulse y → y 0 = k.norm.b0 ∧ y 1 = k.norm.b1 - k.norm.a1 * y 0 ∧
      y 2 = k.norm.b2 - k.norm.a1 * y 1 - k.norm.a2 * y 0 ∧ y 3 = -k.norm.a1 * y 2 - k.norm.a2 * y 1 ∧
      y 4 = -k.norm.a1 * y 3 - k.norm.a2 * y 2 := by
    intro k hne h
    refine ⟨?_, ?_, ?_, ?_, ?_⟩
    · have := h 0
      simp [delayed, unitImpulse] at this
      rw [this]; simp only [Coeffs.norm]
    · have := h 1
      simp [delayed, unitImpulse] at this
      rw [this]; simp only [Coeffs.norm]; ring
    · have := h 2
      simp [delayed, unitImpulse] at this
      rw [this]; simp only [Coeffs.norm]; ring
    · have := h 3
      simp [delayed, unitImpulse] at this
      rw [this]; simp only [Coeffs.norm]; ring
    · have := h 4
      simp [delayed, unitImpulse] at this
      rw [this]; simp only [Coeffs.norm]; ring
  obtain ⟨e0, e1, e2, e3, e4⟩ := exp hne h
  obtain ⟨f0, f1, f2, f3, f4⟩ := exp hne' h'
  have a1 : k.norm.a1 = k'.norm.a1 := by
    have : (y 2 * y 2 - y 1 * y 3) * (k.norm.a1 - k'.norm.a1) = 0 := by
      linear_combination y 2 * e3 - y 2 * f3 - y 1 * e4 + y 1 * f4
    linarith [(mul_eq_zero.1 this).resolve_left hdet]
  have a2 : k.norm.a2 = k'.norm.a2 := by
    have : (y 2 * y 2 - y 1 * y 3) * (k.norm.a2 - k'.norm.a2) = 0 := by
      linear_combination -y 3 * e3 + y 3 * f3 + y 2 * e4 - y 2 * f4
    linarith [(mul_eq_zero.1 this).resolve_left hdet]
  have b0 : k.norm.b0 = k'.norm.b0 := by rw [← e0, ← f0]
  rw [a1] at e1 e2
  rw [a2] at e2
  exact ⟨a1, a2, b0, by linarith, by linarith⟩

/-- The only section of a Butterworth low pass of order 2 tuned to an odd multiple of an eighth of the sampling rate. -/
theorem bw2_section {fc c : ℝ} (h0 : 0 < fc) (h1 : fc < 1 / 2) (hcos : Real.cos (2 * Real.pi * fc) = c)
    (hsin : Real.sin (2 * Real.pi * fc) = √2 / 2) (hc2 : c ^ 2 = 1 / 2) :
    ∃ k : Coeffs, k.a0 ≠ 0 ∧ k.norm.a1 = -4 * c / 3 ∧ k.norm.a2 = 1 / 3 ∧ k.norm.b0 = (1 - c) / 3 ∧ k.norm.b1 = 2 * ((1 - c) / 3) ∧
      k.norm.b2 = (1 - c) / 3 ∧ ∀ f : PoleFilter S XR, Reach S XR .bwLowPass 2 f →
        ∃ f', PoleFilter.setup 2 (.setupN (.bwLowPass (fin fc))) f = (.ok (), f') ∧ f'.states = f.states ∧
          f'.base.cascade.stages = [k].map fun k => k.norm.toX := by
  have ha : Asks (.setupN (.bwLowPass (fin fc))) 2 2 (.bwLowPass (fin fc)) := ⟨rfl, rfl, by norm_num, le_rfl, by norm_num⟩
  obtain ⟨ks, hl, hk, hset⟩ := valid_sections (S := S) (c := .bwLowPass) (by norm_num) (by norm_num) rfl ha ⟨h0, h1⟩
  obtain ⟨k, rfl⟩ : ∃ k, ks = [k] := List.length_eq_one_iff.1 hl
  have hne := (hk k (by simp)).1
  refine ⟨k, hne, ?_⟩
  let k' : Coeffs := ⟨3 / 2, -2 * c, 1 / 2, (1 - c) / 2, 1 - c, (1 - c) / 2⟩
  have hne' : k'.a0 ≠ 0 := by norm_num [k']
  have s2 : √2 * √2 = 2 := Real.mul_self_sqrt (by norm_num)
  have al : √2 / 2 / (2 * (1 / √2)) = 1 / 2 := by
    have : √2 ≠ 0 := by positivity
    field_simp
    nlinarith
  obtain ⟨y, hy⟩ := varying_exists (fun _ => k') unitImpulse
  have hy' : k'.DiffEq unitImpulse y := hy
  -- the object returns the answer of `k'`
  have hrbj : RBJRuns (.lowPass (fin fc) (fin (1 / √2))) unitImpulse y := by
    intro f
    have : AfterRBJ (.lowPass (fin fc) (fin (1 / √2))) fun b => HasCoeffs b k' := by
      refine afterRBJ_of k' hne' (fun b => ?_) fun b h => h
      have := lowPass_setup (f0 := fc) (q := 1 / √2) (by positivity) b
      rw [hcos, hsin] at this
      refine this.trans ?_
      simp only [al, k']
      congr 2 <;> norm_num
    obtain ⟨f', e1, -, e2⟩ := this f
    exact ⟨f', e1, (C01_rbj e2 _ _).2 hy'⟩
  have hrun := (C68_order_two (S := S) (T := XR) ha h0 h1 unitImpulse y).2 hrbj
  obtain ⟨f', e1, e2⟩ := hrun _ .new
  obtain ⟨f'', e1', -, e3⟩ := hset _ .new
  obtain rfl : f' = f'' := congrArg Prod.snd (e1.symm.trans e1')
  have hr : Reach S XR .bwLowPass 2 f' := .call _ _ (.setup (.setupN (.bwLowPass (fin fc)))) (.ok ()) .new rfl e1 fun _ => by simp
  have hsec : HasSections f'.base.cascade.stages [k] := by
    rw [e3]
    exact .cons (hasCoeffs_iff.2 ⟨rfl, hne⟩) .nil
  have hdc := (C01_pole_filter (by norm_num) (by norm_num) hr hsec unitImpulse y).1 e2
  have hd : k.DiffEq unitImpulse y := by
    cases hdc with
    | cons a b => cases b; exact a
  have y0 : y 0 = (1 - c) / 3 := by
    have := hy 0
    simp [delayed, unitImpulse, k'] at this
    rw [this]; ring
  have y1 : y 1 = 2 * ((1 - c) / 3) + 4 * c / 3 * y 0 := by
    have := hy 1
    simp [delayed, unitImpulse, k'] at this
    rw [this]; ring
  have y2 : y 2 = (1 - c) / 3 + 4 * c / 3 * y 1 - y 0 / 3 := by
    have := hy 2
    simp [delayed, unitImpulse, k'] at this
    rw [this]; ring
  have y3 : y 3 = 4 * c / 3 * y 2 - y 1 / 3 := by
    have := hy 3
    simp [delayed, unitImpulse, k'] at this
    rw [this]; ring
  have hdet : y 2 * y 2 - y 1 * y 3 ≠ 0 := by
    have e : y 2 * y 2 - y 1 * y 3 = ((1 - c) / 3) ^ 2 * (8 / 3 * (1 + 4 * c / 3)) := by
      rw [y3, y2, y1, y0]
      generalize hb : (1 - c) / 3 = b
      clear hb
      linear_combination (16 / 9 * b ^ 2) * hc2
    rw [e]
    have c1 : 1 - c ≠ 0 := fun h => by
      have : c = 1 := by linarith
      rw [this] at hc2
      norm_num at hc2
    have c2 : 1 + 4 * c / 3 ≠ 0 := fun h => by
      have : c = -3 / 4 := by linarith
      rw [this] at hc2
      norm_num at hc2
    positivity
  obtain ⟨r1, r2, r3, r4, r5⟩ := norm_of_answer hne hne' hd hy' hdet
  refine ⟨r1.trans ?_, r2.trans ?_, r3.trans ?_, r4.trans ?_, r5.trans ?_, hset⟩ <;> simp only [Coeffs.norm, k'] <;> ring

/-- What the sections of `zigzagPole` have in common; `t` is `2√2/3`. -/
structure Zigzag (t : ℝ) (k : ℕ → Coeffs) : Prop where
  ne : ∀ n, (k n).a0 ≠ 0
  a2 : ∀ n, (k n).norm.a2 = 1 / 3
  a1e : ∀ m, (k (2 * m)).norm.a1 = -t
  a1o : ∀ m, (k (2 * m + 1)).norm.a1 = t
  b1 : ∀ n, (k n).norm.b1 = 2 * (k n).norm.b0
  b2 : ∀ n, (k n).norm.b2 = (k n).norm.b0
  b0e : ∀ m, (k (2 * m)).norm.b0 = (4 - 3 * t) / 12
  b0o : ∀ m, (k (2 * m + 1)).norm.b0 = (4 + 3 * t) / 12

/-- Two steps of the recursion. -/
theorem zigzag_grows {t : ℝ} (t0 : 0 ≤ t) (t2 : t ^ 2 = 8 / 9) {z : ℕ → ℝ} (odd : ∀ m, z (2 * m + 3) = -t * z (2 * m + 2) - z (2 * m + 1) / 3)
    (even : ∀ m, z (2 * m + 4) = t * z (2 * m + 3) - z (2 * m + 2) / 3) {σ₀ c : ℝ} (hσ : σ₀ = 1 ∨ σ₀ = -1) (hc : 0 ≤ c)
    (h1 : 0 ≤ σ₀ * z 1) (h2 : c ≤ σ₀ * z 2) (m : ℕ) :
    ∃ σ : ℝ, (σ = 1 ∨ σ = -1) ∧ 0 ≤ σ * z (2 * m + 1) ∧ c * (11 / 9) ^ m ≤ σ * z (2 * m + 2) := by
  induction m with
  | zero => exact ⟨σ₀, hσ, h1, by simpa using h2⟩
  | succ m ih =>
    obtain ⟨σ, h, i1, i2⟩ := ih
    have o := odd m
    have e := even m
    have hp : 0 ≤ c * (11 / 9 : ℝ) ^ m := by positivity
    have o' : -σ * z (2 * m + 3) = t * (σ * z (2 * m + 2)) + σ * z (2 * m + 1) / 3 := by rw [o]; ring
    have e' : -σ * z (2 * m + 4) = 11 / 9 * (σ * z (2 * m + 2)) + t * (σ * z (2 * m + 1)) / 3 := by
      rw [e, o]
      linear_combination (σ * z (2 * m + 2)) * t2
    refine ⟨-σ, by rcases h with rfl | rfl <;> simp, ?_, ?_⟩
    · rw [show 2 * (m + 1) + 1 = 2 * m + 3 by ring, o']
      have := mul_nonneg t0 (hp.trans i2)
      linarith
    · rw [show 2 * (m + 1) + 2 = 2 * m + 4 by ring, e', pow_succ]
      have := mul_nonneg t0 i1
      linarith

theorem unbounded_of {y : ℕ → ℝ} {c : ℝ} (hc : 0 < c) {i : ℕ → ℕ} (h : ∀ m, c * (11 / 9) ^ m ≤ |y (i m)|) : ¬ BoundedSignal y := by
  rintro ⟨B, hB⟩
  obtain ⟨m, hm⟩ := pow_unbounded_of_one_lt (B / c) (show (1 : ℝ) < 11 / 9 by norm_num)
  have := (h m).trans (hB _)
  rw [div_lt_iff₀ hc] at hm
  linarith

theorem abs_of_sign {σ v : ℝ} (h : σ = 1 ∨ σ = -1) : |v| = |σ * v| := by
  rcases h with rfl | rfl <;> simp

section
variable {t : ℝ} {k : ℕ → Coeffs}

theorem zigzag_df1 (t0 : 0.94 ≤ t) (t1 : t ≤ 0.95) (t2 : t ^ 2 = 8 / 9) (hk : Zigzag t k) :
    ∃ y, LineRuns DirectFormI k unitImpulse y ∧ ¬ BoundedSignal y := by
  obtain ⟨y, hy⟩ := varying_exists k unitImpulse
  refine ⟨y, df1_runs hy, ?_⟩
  have hy' : ∀ n, y n = (k n).norm.b0 * unitImpulse n + (k n).norm.b1 * delayed 1 unitImpulse n + (k n).norm.b2 * delayed 2 unitImpulse n
      - (k n).norm.a1 * delayed 1 y n - (k n).norm.a2 * delayed 2 y n := fun n => by
    rw [hy n]; simp only [Coeffs.norm]; ring
  have y0 : y 0 = (4 - 3 * t) / 12 := by
    have := hy' 0
    have b := hk.b0e 0
    simp [delayed, unitImpulse] at this b
    rw [this, b]
  have y1 : y 1 = 2 * ((4 + 3 * t) / 12) - t * y 0 := by
    have := hy' 1
    have b := hk.b0o 0
    have a := hk.a1o 0
    simp [delayed, unitImpulse] at this b a
    rw [this, hk.b1, a, b]
  have y2 : y 2 = (4 - 3 * t) / 12 + t * y 1 - y 0 / 3 := by
    have := hy' 2
    have b := hk.b0e 1
    have a := hk.a1e 1
    simp [delayed, unitImpulse] at this b a
    rw [this, hk.b2, a, b, hk.a2]
    ring
  have odd : ∀ m, y (2 * m + 3) = -t * y (2 * m + 2) - y (2 * m + 1) / 3 := fun m => by
    have := hy' (2 * m + 3)
    have a := hk.a1o (m + 1)
    rw [show 2 * (m + 1) + 1 = 2 * m + 3 by ring] at a
    simp [delayed, unitImpulse] at this
    rw [this, a, hk.a2]
    ring
  have even : ∀ m, y (2 * m + 4) = t * y (2 * m + 3) - y (2 * m + 2) / 3 := fun m => by
    have := hy' (2 * m + 4)
    have a := hk.a1e (m + 2)
    rw [show 2 * (m + 2) = 2 * m + 4 by ring] at a
    simp [delayed, unitImpulse] at this
    rw [this, a, hk.a2]
    ring
  have g0 : 0 ≤ y 0 := by rw [y0]; linarith
  have g0' : y 0 ≤ 0.1 := by rw [y0]; linarith
  have g1 : 0.9 ≤ y 1 := by nlinarith
  have g2 : 0.5 ≤ y 2 := by nlinarith
  refine unbounded_of (c := 0.5) (i := fun m => 2 * m + 2) (by norm_num) fun m => ?_
  obtain ⟨σ, h, -, i⟩ := zigzag_grows (by linarith) t2 odd even (.inl rfl) (c := 0.5) (by norm_num) (by linarith) (by linarith) m
  rw [abs_of_sign h]
  exact i.trans (le_abs_self _)

theorem zigzag_df2 (t0 : 0.94 ≤ t) (t1 : t ≤ 0.95) (t2 : t ^ 2 = 8 / 9) (hk : Zigzag t k) :
    ∃ y, LineRuns DirectFormII k unitImpulse y ∧ ¬ BoundedSignal y := by
  obtain ⟨w, hw⟩ := df2_exists k hk.ne unitImpulse
  refine ⟨_, df2_runs hw, ?_⟩
  have w0 : w 0 = 1 := by
    have := hw 0
    simpa [delayed, unitImpulse] using this
  have w1 : w 1 = -t := by
    have := hw 1
    have a := hk.a1o 0
    simp [delayed, unitImpulse] at this a
    rw [a, w0] at this
    linarith
  have w2 : w 2 = -(11 / 9) := by
    have := hw 2
    have a := hk.a1e 1
    simp [delayed, unitImpulse] at this a
    rw [a, hk.a2, w0, w1] at this
    linear_combination this - t2
  have odd : ∀ m, w (2 * m + 3) = -t * w (2 * m + 2) - w (2 * m + 1) / 3 := fun m => by
    have := hw (2 * m + 3)
    have a := hk.a1o (m + 1)
    rw [show 2 * (m + 1) + 1 = 2 * m + 3 by ring] at a
    simp [delayed, unitImpulse] at this
    rw [a, hk.a2] at this
    linear_combination this
  have even : ∀ m, w (2 * m + 4) = t * w (2 * m + 3) - w (2 * m + 2) / 3 := fun m => by
    have := hw (2 * m + 4)
    have a := hk.a1e (m + 2)
    rw [show 2 * (m + 2) = 2 * m + 4 by ring] at a
    simp [delayed, unitImpulse] at this
    rw [a, hk.a2] at this
    linear_combination this
  refine unbounded_of (c := 0.09) (i := fun m => 2 * m + 4) (by norm_num) fun m => ?_
  obtain ⟨σ, h, i1, i2⟩ := zigzag_grows (by linarith) t2 odd even (σ₀ := -1) (.inr rfl) (c := 1) (by norm_num)
    (by rw [w1]; linarith) (by rw [w2]; norm_num) m
  have hp : 0 ≤ (11 / 9 : ℝ) ^ m := by positivity
  have o' : -σ * w (2 * m + 3) = t * (σ * w (2 * m + 2)) + σ * w (2 * m + 1) / 3 := by rw [odd]; ring
  have e' : -σ * w (2 * m + 4) = t * (-σ * w (2 * m + 3)) + σ * w (2 * m + 2) / 3 := by rw [even]; ring
  have b := hk.b0e (m + 2)
  rw [show 2 * (m + 2) = 2 * m + 4 by ring] at b
  have d1 : delayed 1 w (2 * m + 4) = w (2 * m + 3) := by simp [delayed]
  have d2 : delayed 2 w (2 * m + 4) = w (2 * m + 2) := by simp [delayed]
  have h' : -σ = 1 ∨ -σ = -1 := by rcases h with rfl | rfl <;> simp
  rw [abs_of_sign h']
  refine le_trans ?_ (le_abs_self _)
  rw [hk.b1, hk.b2, b, d1, d2]
  generalize (11 / 9 : ℝ) ^ m = p at *
  generalize hv2 : σ * w (2 * m + 2) = v2 at *
  have q1 : p ≤ v2 := by linarith
  have q2 : t * p ≤ t * v2 := mul_le_mul_of_nonneg_left q1 (by linarith)
  have q3 : 0.94 * v2 ≤ t * v2 := mul_le_mul_of_nonneg_right t0 (by linarith)
  have q4 : t * (0.94 * v2) ≤ t * (-σ * w (2 * m + 3)) := mul_le_mul_of_nonneg_left (by linarith) (by linarith)
  have q5 : v2 ≤ -σ * w (2 * m + 4) + 2 * (-σ * w (2 * m + 3)) - v2 := by nlinarith
  have e : -σ * ((4 - 3 * t) / 12 * w (2 * m + 4) + 2 * ((4 - 3 * t) / 12) * w (2 * m + 3) + (4 - 3 * t) / 12 * w (2 * m + 2)) =
      (4 - 3 * t) / 12 * (-σ * w (2 * m + 4) + 2 * (-σ * w (2 * m + 3)) - v2) := by rw [← hv2]; ring
  rw [e]
  have q6 : (4 - 3 * t) / 12 * p ≤ (4 - 3 * t) / 12 * (-σ * w (2 * m + 4) + 2 * (-σ * w (2 * m + 3)) - v2) :=
    mul_le_mul_of_nonneg_left (by linarith) (by linarith)
  have q7 : 0.09 * p ≤ (4 - 3 * t) / 12 * p := mul_le_mul_of_nonneg_right (by linarith) hp
  linarith

theorem zigzag_tdf2 (t0 : 0.94 ≤ t) (t1 : t ≤ 0.95) (t2 : t ^ 2 = 8 / 9) (hk : Zigzag t k) :
    ∃ y, LineRuns TransposedDirectFormII k unitImpulse y ∧ ¬ BoundedSignal y := by
  refine ⟨_, tdf_runs k unitImpulse, ?_⟩
  set P : ℕ → ℝ := fun n => (tdfState k unitImpulse n).1 with hP
  set Q : ℕ → ℝ := fun n => (tdfState k unitImpulse n).2 with hQ
  have b := hk.b0e 0
  have a := hk.a1e 0
  rw [MulZeroClass.mul_zero] at a b
  have P1 : P 1 = (4 - 3 * t) / 12 * (2 + t) := by
    simp [hP, tdfState, unitImpulse, hk.b1, b, a]
    ring
  have Q1 : Q 1 = (4 - 3 * t) / 12 * (2 / 3) := by
    simp [hQ, tdfState, unitImpulse, hk.b2, b, hk.a2]
    ring
  have sP : ∀ n, P (n + 2) = Q (n + 1) - (k (n + 1)).norm.a1 * P (n + 1) := fun n => by
    simp [hP, hQ, tdfState, unitImpulse]
  have sQ : ∀ n, Q (n + 2) = -(1 / 3) * P (n + 1) := fun n => by
    have : Q (n + 2) = -((k (n + 1)).norm.a2 * P (n + 1)) := by simp [hP, hQ, tdfState, unitImpulse]
    rw [this, hk.a2]
    ring
  have a1 := hk.a1o 0
  rw [MulZeroClass.mul_zero, zero_add] at a1
  have P2 : P 2 = (4 - 3 * t) / 12 * (2 / 3) - t * P 1 := by rw [sP 0, zero_add, Q1, a1]
  have odd : ∀ m, P (2 * m + 4) = -t * P (2 * m + 3) - P (2 * m + 2) / 3 := fun m => by
    have a := hk.a1o (m + 1)
    rw [show 2 * (m + 1) + 1 = 2 * m + 2 + 1 by ring] at a
    rw [sP (2 * m + 2), a, sQ (2 * m + 1)]
    ring
  have even : ∀ m, P (2 * m + 5) = t * P (2 * m + 4) - P (2 * m + 3) / 3 := fun m => by
    have a := hk.a1e (m + 2)
    rw [show 2 * (m + 2) = 2 * m + 3 + 1 by ring] at a
    rw [sP (2 * m + 3), a, sQ (2 * m + 2)]
    ring
  have P3 : P 3 = t * P 2 - P 1 / 3 := by
    have a := hk.a1e 1
    rw [sP 1, sQ 0, a]
    ring
  have g1 : 0.25 ≤ P 1 := by rw [P1]; nlinarith
  have g2 : P 2 ≤ 0 := by
    rw [P2]
    nlinarith
  have g3 : P 3 ≤ -0.08 := by
    rw [P3]
    nlinarith
  refine unbounded_of (c := 0.08) (i := fun m => 2 * m + 3) (by norm_num) fun m => ?_
  obtain ⟨σ, h, -, i⟩ := zigzag_grows (z := fun n => P (n + 1)) (by linarith) t2 odd even (σ₀ := -1) (.inr rfl) (c := 0.08) (by norm_num)
    (by linarith) (by linarith) m
  rw [abs_of_sign h]
  refine i.trans ((le_of_eq ?_).trans (le_abs_self _))
  simp [unitImpulse, hP]

end

theorem emptyLines_init (c : Cls) (n : ℕ) : EmptyLines (PoleFilter.init S c n : PoleFilter S XR) := by
  intro s hs
  have : s ∈ CascadeStages.reset (CascadeStages.initStates S (PoleFilter.numStages c n) (R := XR)) := hs
  simp only [CascadeStages.reset, CascadeStages.initStates, List.map_replicate] at this
  rw [List.eq_of_mem_replicate this]
  exact LawfulState.reset_eq _

/-- **C96** is false, with every delay line: a Butterworth low pass of order 2 that is set up before every sample, at an eighth of
the sampling rate and at three eighths in turn, answers an impulse with an output that grows without bound, although both settings
are valid and the filter is stable at either of them. -/
theorem C96_false : (∀ k, ∃ d, Asks (zigzagPole k) 2 2 d ∧ Valid 2 d) ∧ (∀ k, AfterSetup S XR 2 (zigzagPole k) StableFilter) ∧
    BoundedSignal unitImpulse ∧
    ∃ y, RetunedPoleReturns 2 (PoleFilter.init S .bwLowPass 2) zigzagPole unitImpulse y ∧ ¬ BoundedSignal y := by
  have hv : ∀ k, ∃ d, Asks (zigzagPole k) 2 2 d ∧ Valid 2 d := by
    intro k
    unfold zigzagPole
    split
    · exact ⟨.bwLowPass (fin (1 / 8)), ⟨rfl, rfl, by norm_num, le_rfl, by norm_num⟩, by norm_num [Valid], by norm_num⟩
    · exact ⟨.bwLowPass (fin (3 / 8)), ⟨rfl, rfl, by norm_num, le_rfl, by norm_num⟩, by norm_num [Valid], by norm_num⟩
  refine ⟨hv, fun k => (hv k).elim fun d h => C29_stable h.1 h.2, ⟨1, fun n => by unfold unitImpulse; split <;> simp⟩, ?_⟩
  have s2 : √2 * √2 = 2 := Real.mul_self_sqrt (by norm_num)
  obtain ⟨kA, nA, A1, A2, A3, A4, A5, hA⟩ := bw2_section (S := S) (fc := 1 / 8) (c := √2 / 2) (by norm_num) (by norm_num)
    (by rw [show 2 * Real.pi * (1 / 8) = Real.pi / 4 by ring, Real.cos_pi_div_four])
    (by rw [show 2 * Real.pi * (1 / 8) = Real.pi / 4 by ring, Real.sin_pi_div_four]) (by rw [div_pow, sq, s2]; norm_num)
  obtain ⟨kB, nB, B1, B2, B3, B4, B5, hB⟩ := bw2_section (S := S) (fc := 3 / 8) (c := -(√2 / 2)) (by norm_num) (by norm_num)
    (by rw [show 2 * Real.pi * (3 / 8) = Real.pi - Real.pi / 4 by ring, Real.cos_pi_sub, Real.cos_pi_div_four])
    (by rw [show 2 * Real.pi * (3 / 8) = Real.pi - Real.pi / 4 by ring, Real.sin_pi_sub, Real.sin_pi_div_four])
    (by rw [neg_sq, div_pow, sq, s2]; norm_num)
  set t : ℝ := 2 * √2 / 3 with ht
  have u1 : 1.414 ≤ √2 := Real.le_sqrt_of_sq_le (by norm_num)
  have u2 : √2 ≤ 1.415 := Real.sqrt_le_iff.2 ⟨by norm_num, by norm_num⟩
  have t0 : 0.94 ≤ t := by rw [ht]; linarith
  have t1 : t ≤ 0.95 := by rw [ht]; linarith
  have t2 : t ^ 2 = 8 / 9 := by rw [ht, div_pow, mul_pow, sq √2, s2]; norm_num
  let k : ℕ → Coeffs := fun n => if n % 2 = 0 then kA else kB
  have ke : ∀ m, k (2 * m) = kA := fun m => by simp [k]
  have ko : ∀ m, k (2 * m + 1) = kB := fun m => by simp [k, show (2 * m + 1) % 2 = 1 by omega]
  have hk : Zigzag t k := by
    refine ⟨fun n => ?_, fun n => ?_, fun m => ?_, fun m => ?_, fun n => ?_, fun n => ?_, fun m => ?_, fun m => ?_⟩
    · simp only [k]; split <;> assumption
    · simp only [k]; split <;> assumption
    · rw [ke, A1, ht]; ring
    · rw [ko, B1, ht]; ring
    · simp only [k]; split
      · rw [A4, A3]
      · rw [B4, B3]
    · simp only [k]; split
      · rw [A5, A3]
      · rw [B5, B3]
    · rw [ke, A3, ht]; ring
    · rw [ko, B3, ht]; ring
  obtain ⟨y, hy, hb⟩ : ∃ y, LineRuns S k unitImpulse y ∧ ¬ BoundedSignal y := by
    rename_i hdl
    cases hdl
    · exact zigzag_df1 t0 t1 t2 hk
    · exact zigzag_df2 t0 t1 t2 hk
    · exact zigzag_tdf2 t0 t1 t2 hk
  refine ⟨y, retuned_pole_of (c := .bwLowPass) .new (emptyLines_init _ _) (fun n => ?_) (ks := fun n => [k n]) (fun n => ?_)
    (chainRuns_cons hy ⟨fun _ => [], rfl, fun n => rfl⟩), hb⟩
  · unfold zigzagPole; split <;> rfl
  · simp only [zigzagPole, k]
    split
    · exact hA
    · exact hB

/-- a case: a Chebyshev high pass of order 5 moved between two positions, with any delay line -/
example : ∃ D, ∀ (f : PoleFilter S XR) (d : ℕ → Call XR) (N : ℕ) (x : ℕ → ℝ), Reach S XR .c1HighPass 5 f → EmptyLines f →
    (∀ k, d k = .setup (fin 1000) (.c1HighPass (fin 100) (fin 1)) ∨ d k = .setupNReq 3 (.c1HighPass (fin (1 / 5)) (fin 1))) →
      HeldFrom N D d → BoundedSignal x → ∃ y, RetunedPoleReturns 5 f d x y ∧ BoundedSignal y := by
  have hL : ∀ e ∈ [Call.setup (fin 1000) (.c1HighPass (fin 100) (fin 1)), .setupNReq 3 (.c1HighPass (fin (1 / 5)) (fin 1))],
      e.design.cls = .c1HighPass ∧ ∃ o d, Asks e 5 o d ∧ Valid o d := by
    intro e he
    simp only [List.mem_cons, List.not_mem_nil, or_false] at he
    rcases he with rfl | rfl
    · exact ⟨rfl, 5, .c1HighPass (fin (100 / 1000)) (fin 1), ⟨rfl, congrArg (Design.c1HighPass · (fin 1)) (fin_div _ (by norm_num)),
        by norm_num, le_rfl, by norm_num⟩, by norm_num [Valid, ValidCut]⟩
    · exact ⟨rfl, 3, .c1HighPass (fin (1 / 5)) (fin 1), ⟨rfl, rfl, by norm_num, by norm_num, by norm_num⟩, by norm_num [Valid, ValidCut]⟩
  obtain ⟨D, hD⟩ := C96_slow_partial (S := S) (by norm_num) (by norm_num) _ hL
  exact ⟨D, fun f d N x h1 h2 h3 => hD f d N x h1 h2 fun k => by
    rcases h3 k with h | h <;> simp [h]⟩

/-- new objects are reachable and their delay lines are empty -/
example : Reach (R := XR) S XR .c1HighPass 5 (PoleFilter.init S .c1HighPass 5) ∧
    EmptyLines (PoleFilter.init S .c1HighPass 5 : PoleFilter S XR) :=
  ⟨.new, emptyLines_init _ _⟩

/-- a schedule that is held long enough although the setting changes: once, at time 7 -/
example (D : ℕ) : HeldFrom 0 D (fun n => if n < 7 then 1 else 2) := by
  intro n _ hc j _
  simp only at hc ⊢
  have : 6 ≤ n := by
    by_contra h
    apply hc
    rw [if_pos (by omega), if_pos (by omega)]
  rw [if_neg (by omega), if_neg (by omega)]

end Iir
