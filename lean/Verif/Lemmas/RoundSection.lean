import Verif.Lemmas.Rounding

/-! # Runs of one section in arithmetic with rounding errors -/

namespace Iir
open FArith Spec

variable {R : Type} [FArith R] {u η Ω : ℝ}

/-- an empty delay line -/
abbrev initR (S : Type → Type) (R : Type) [i : FArith R] [j : StateType S R] : S R := @StateType.init S R i j

/-- `z[n-j]` as a number of the arithmetic -/
def delR (j : ℕ) (z : ℕ → R) (n : ℕ) : R := if j ≤ n then z (n - j) else 0

theorem delR_one_succ (z : ℕ → R) (n : ℕ) : delR 1 z (n + 1) = z n := by simp [delR]
theorem delR_two_succ (z : ℕ → R) (n : ℕ) : delR 2 z (n + 1) = delR 1 z n := by
  unfold delR
  by_cases h : 1 ≤ n
  · rw [if_pos (by omega), if_pos h]; congr 1
  · rw [if_neg (by omega), if_neg h]

theorem delayed_zero (z : ℕ → ℝ) (j : ℕ) (hj : 1 ≤ j) : delayed j z 0 = 0 := by
  unfold delayed; rw [if_neg (by omega)]
theorem delayed_one_succ (z : ℕ → ℝ) (n : ℕ) : delayed 1 z (n + 1) = z n := by simp [delayed]
theorem delayed_two_succ (z : ℕ → ℝ) (n : ℕ) : delayed 2 z (n + 1) = delayed 1 z n := by
  unfold delayed
  by_cases h : 1 ≤ n
  · rw [if_pos (by omega), if_pos h]; congr 1
  · rw [if_neg (by omega), if_neg h]

theorem val_delR (r : Rounds R u η Ω) (j : ℕ) (z : ℕ → R) (n : ℕ) :
    r.val (delR j z n) = delayed j (fun n => r.val (z n)) n := by
  unfold delR delayed
  split_ifs
  · rfl
  · exact r.zero.2

theorem fin_delR (r : Rounds R u η Ω) {z : ℕ → R} {n : ℕ} (h : ∀ m < n, r.Fin (z m)) {j : ℕ} (hj : 1 ≤ j) :
    r.Fin (delR j z n) := by
  unfold delR
  split_ifs with hh
  · exact h _ (by omega)
  · exact r.zero.1

/-- What the constants of a section have to satisfy: all intermediate results stay below `M`. -/
structure Room (u η Ω : ℝ) (k : Coeffs) (p q : ℂ) (X M : ℝ) : Prop where
  le : M ≤ Ω
  fits : (1 + (k.back + k.forward) * poleGain p q) * ((1 + k.forward) * X + 9 * (u * M + η)) ≤ M

theorem Coeffs_forward_nonneg (k : Coeffs) : 0 ≤ k.forward := by unfold Coeffs.forward; positivity
theorem Coeffs_back_nonneg (k : Coeffs) : 0 ≤ k.back := by unfold Coeffs.back; positivity

/-- the bounds on intermediate results that `Room` gives -/
theorem room_bounds {k : Coeffs} {p q : ℂ} (hk : k.StablePoles p q) {X M : ℝ} (hX : 0 ≤ X) (hδ : 0 ≤ u * M + η)
    (h : Room u η Ω k p q X M) :
    k.forward * X + k.back * (poleGain p q * (k.forward * X + 9 * (u * M + η))) + 9 * (u * M + η) ≤ M ∧
    X + k.back * (poleGain p q * (X + 4 * (u * M + η))) + 9 * (u * M + η) ≤ M ∧
    k.forward * (poleGain p q * (X + 4 * (u * M + η))) + 9 * (u * M + η) ≤ M := by
  have hB := Coeffs_forward_nonneg k
  have hA := Coeffs_back_nonneg k
  have hK := poleGain_pos hk.p_lt hk.q_lt
  have hf := h.fits
  generalize k.forward = B at *
  generalize k.back = A at *
  generalize poleGain p q = K at *
  generalize u * M + η = δ at *
  have e1 : 0 ≤ A * K * X := by positivity
  have e2 : 0 ≤ B * K * X := by positivity
  have e3 : 0 ≤ B * K * δ := by positivity
  have e4 : 0 ≤ A * K * δ := by positivity
  have e5 : 0 ≤ B * K * (B * X) := by positivity
  have e6 : 0 ≤ A * K * (B * X) := by positivity
  have e7 : 0 ≤ B * X := by positivity
  refine ⟨?_, ?_, ?_⟩ <;> nlinarith

variable {b : Biquad R} {k : Coeffs} {p q : ℂ} {X M : ℝ} {x : ℕ → R}

/-- `|a1 y1| + |a2 y2|` -/
theorem back_le {y : ℕ → ℝ} {Y : ℝ} (hY : 0 ≤ Y) {N : ℕ} (h : ∀ m < N, |y m| ≤ Y) :
    |k.a1 * delayed 1 y N| + |k.a2 * delayed 2 y N| ≤ k.back * Y := by
  rw [abs_mul, abs_mul, Coeffs.back]
  have h1 := delayed_abs_le hY h 1 le_rfl
  have h2 := delayed_abs_le hY h 2 (by omega)
  have := mul_le_mul_of_nonneg_left h1 (abs_nonneg k.a1)
  have := mul_le_mul_of_nonneg_left h2 (abs_nonneg k.a2)
  linarith

/-- A signal whose residual in the feed back equation of `k` is at most `E` is itself at most `K E`. -/
def GainBound (k : Coeffs) (K : ℝ) : Prop :=
  ∀ (d : ℕ → ℝ) (E : ℝ) (N : ℕ), (∀ m < N, |d m + k.a1 * delayed 1 d m + k.a2 * delayed 2 d m| ≤ E) → ∀ n < N, |d n| ≤ K * E

theorem GainBound.bound {K : ℝ} (hk : GainBound k K) {d : ℕ → ℝ} {E : ℝ} {N : ℕ}
    (h : ∀ m < N, |d m + k.a1 * delayed 1 d m + k.a2 * delayed 2 d m| ≤ E) : ∀ n < N, |d n| ≤ K * E := hk d E N h

theorem StablePoles_gain (hk : k.StablePoles p q) : GainBound k (poleGain p q) := fun _ _ _ h => second_order_bound hk h

theorem GainBound.one_le {K : ℝ} (hk : GainBound k K) : 1 ≤ K := by
  have := hk.bound (d := fun _ => 1) (E := 1) (N := 1) (fun m hm => by
    obtain rfl : m = 0 := by omega
    rw [delayed_zero _ 1 le_rfl, delayed_zero _ 2 (by omega)]; simp) 0 Nat.one_pos
  simpa using this

theorem GainBound.pos {K : ℝ} (hk : GainBound k K) : 0 < K := lt_of_lt_of_le one_pos hk.one_le

/-- From the residual of the difference equation to the deviation from its solution. -/
theorem deviation {K : ℝ} (hk : GainBound k K) (h0 : k.a0 = 1) {xr yr y : ℕ → ℝ} (hy : k.DiffEq xr y) {E : ℝ}
    (h : ∀ n, |yr n + k.a1 * delayed 1 yr n + k.a2 * delayed 2 yr n -
      (k.b0 * xr n + k.b1 * delayed 1 xr n + k.b2 * delayed 2 xr n)| ≤ E) (n : ℕ) :
    |yr n - y n| ≤ K * E := by
  refine hk.bound (d := fun n => yr n - y n) (N := n + 1) (fun m _ => ?_) n (Nat.lt_succ_self n)
  have h1 := h m
  have h2 := hy m
  rw [h0, div_one] at h2
  convert h1 using 2
  have e : ∀ j, delayed j (fun n => yr n - y n) m = delayed j yr m - delayed j y m := by
    intro j; unfold delayed; split_ifs <;> simp
  rw [e, e]
  linear_combination -h2

/-- The outputs `out` that compiled code may return for one section with an empty delay line. -/
def SecC (F : Option (R → R → R → R)) (S : Type → Type) [StateType S R] [DelayLine R S] (b : Biquad R) (x out : ℕ → R) : Prop :=
  ∃ st : ℕ → S R, st 0 = initR S R ∧ ∀ n, StepC F (x n) b (st n) (out n) (st (n + 1))

variable {F : Option (R → R → R → R)} {out : ℕ → R}

theorem SecC.df1 (h : SecC F DirectFormI b x out) (n : ℕ) :
    Computes F (.sub (.sub (.add (.add (.prod b.b0 (x n)) (.prod b.b1 (delR 1 x n))) (.prod b.b2 (delR 2 x n)))
      (.prod b.a1 (delR 1 out n))) (.prod b.a2 (delR 2 out n))) (out n) := by
  obtain ⟨st, h0, h⟩ := h
  have hst : ∀ n, st n = { x1 := delR 1 x n, x2 := delR 2 x n, y1 := delR 1 out n, y2 := delR 2 out n } := by
    intro n
    induction n with
    | zero => rw [h0]; rfl
    | succ n ih =>
      rw [(h n).2, ih]
      simp only [delR_one_succ, delR_two_succ]
  have := (h n).1
  rw [hst] at this
  exact this

theorem SecC.df2 (h : SecC F DirectFormII b x out) : ∃ w : ℕ → R, ∀ n,
    Computes F (.sub (.sub (.var (x n)) (.prod b.a1 (delR 1 w n))) (.prod b.a2 (delR 2 w n))) (w n) ∧
    Computes F (.add (.add (.prod b.b0 (w n)) (.prod b.b1 (delR 1 w n))) (.prod b.b2 (delR 2 w n))) (out n) := by
  obtain ⟨st, h0, h⟩ := h
  choose w h1 h2 h3 using h
  have hst : ∀ n, st n = { v1 := delR 1 w n, v2 := delR 2 w n } := by
    intro n
    induction n with
    | zero => rw [h0]; rfl
    | succ n ih =>
      rw [h3 n, ih]
      simp only [delR_one_succ, delR_two_succ]
  refine ⟨w, fun n => ?_⟩
  have a := h1 n
  have b := h2 n
  rw [hst] at a b
  exact ⟨a, b⟩

/-- Direct Form I: the residual of every sample is at most nine rounding errors. -/
theorem df1_run (r : Rounds R u η Ω) (hF : ∀ fma ∈ F, r.Fused fma) (hrun : SecC F DirectFormI b x out) (hv : r.Values b k) {K : ℝ} (hk : GainBound k K) (hx : r.Input X x) (hM0 : 0 ≤ M)
    (hle : M ≤ Ω)
    (hb1 : k.forward * X + k.back * (K * (k.forward * X + 9 * (u * M + η))) + 9 * (u * M + η) ≤ M) (n : ℕ) :
    let y := fun n => r.val (out n)
    r.Fin (out n) ∧ |y n + k.a1 * delayed 1 y n + k.a2 * delayed 2 y n -
      (k.b0 * r.val (x n) + k.b1 * delayed 1 (fun n => r.val (x n)) n + k.b2 * delayed 2 (fun n => r.val (x n)) n)| ≤
        9 * (u * M + η) := by
  intro y
  have hX : 0 ≤ X := (abs_nonneg _).trans (hx 0).2
  have hδ : 0 ≤ u * M + η := add_nonneg (mul_nonneg r.u_nonneg hM0) r.η_nonneg
  have hK := hk.pos
  have hB := Coeffs_forward_nonneg k
  have hY : 0 ≤ K * (k.forward * X + 9 * (u * M + η)) := by positivity
  have key : ∀ N, ∀ m < N, (r.Fin (out m) ∧ |y m| ≤ K * (k.forward * X + 9 * (u * M + η))) ∧
      |y m + k.a1 * delayed 1 y m + k.a2 * delayed 2 y m -
      (k.b0 * r.val (x m) + k.b1 * delayed 1 (fun n => r.val (x n)) m + k.b2 * delayed 2 (fun n => r.val (x n)) m)| ≤
        9 * (u * M + η) := by
    intro N
    induction N with
    | zero => intro m hm; omega
    | succ N ih =>
      have hN : r.Fin (out N) ∧ |y N + k.a1 * delayed 1 y N + k.a2 * delayed 2 y N -
          (k.b0 * r.val (x N) + k.b1 * delayed 1 (fun n => r.val (x n)) N + k.b2 * delayed 2 (fun n => r.val (x n)) N)| ≤
          9 * (u * M + η) := by
        have h1 := forward_le (k := k) (fun n => (hx n).2) N
        have h2 := back_le (k := k) hY fun m hm => (ih m hm).1.2
        have h3 := df1_local r hF hle hM0 hv (hrun.df1 N) (hx N).1 (fin_delR r (n := N) (fun m _ => (hx m).1) le_rfl)
          (fin_delR r (n := N) (j := 2) (fun m _ => (hx m).1) (by omega))
          (fin_delR r (n := N) (z := out) (fun m hm => (ih m hm).1.1) le_rfl)
          (fin_delR r (n := N) (z := out) (j := 2) (fun m hm => (ih m hm).1.1) (by omega))
          (by rw [val_delR, val_delR, val_delR, val_delR]; linarith)
        rw [val_delR, val_delR, val_delR, val_delR] at h3
        refine ⟨h3.1, le_of_eq_of_le ?_ h3.2⟩
        congr 1
        ring
      intro m hm'
      rcases Nat.lt_succ_iff_lt_or_eq.1 hm' with h | rfl
      · exact ih m h
      · refine ⟨⟨hN.1, ?_⟩, hN.2⟩
        refine hk.bound (d := y) (N := m + 1) (fun j hj => ?_) m (Nat.lt_succ_self m)
        have h5 : |y j + k.a1 * delayed 1 y j + k.a2 * delayed 2 y j - (k.b0 * r.val (x j) +
            k.b1 * delayed 1 (fun n => r.val (x n)) j + k.b2 * delayed 2 (fun n => r.val (x n)) j)| ≤
            9 * (u * M + η) := by
          rcases Nat.lt_succ_iff_lt_or_eq.1 hj with h | rfl
          · exact (ih j h).2
          · exact hN.2
        have h6 := forward_le (k := k) (fun n => (hx n).2) j
        have a0 := abs_le.1 (le_refl |k.b0 * r.val (x j)|)
        have a1 := abs_le.1 (le_refl |k.b1 * delayed 1 (fun n => r.val (x n)) j|)
        have a2 := abs_le.1 (le_refl |k.b2 * delayed 2 (fun n => r.val (x n)) j|)
        have a3 := abs_le.1 h5
        exact abs_le.2 ⟨by linarith, by linarith⟩
  exact ⟨(key (n + 1) n (Nat.lt_succ_self n)).1.1, (key (n + 1) n (Nat.lt_succ_self n)).2⟩

/-- The residual of a signal that is computed through an internal signal. -/
theorem df2_residual (k : Coeffs) (x w y : ℕ → ℝ) (n : ℕ) :
    y n + k.a1 * delayed 1 y n + k.a2 * delayed 2 y n - (k.b0 * x n + k.b1 * delayed 1 x n + k.b2 * delayed 2 x n) =
    (k.b0 * (fun n => w n - (x n - k.a1 * delayed 1 w n - k.a2 * delayed 2 w n)) n +
      k.b1 * delayed 1 (fun n => w n - (x n - k.a1 * delayed 1 w n - k.a2 * delayed 2 w n)) n +
      k.b2 * delayed 2 (fun n => w n - (x n - k.a1 * delayed 1 w n - k.a2 * delayed 2 w n)) n) +
    ((fun n => y n - (k.b0 * w n + k.b1 * delayed 1 w n + k.b2 * delayed 2 w n)) n +
      (k.a1 * delayed 1 (fun n => y n - (k.b0 * w n + k.b1 * delayed 1 w n + k.b2 * delayed 2 w n)) n +
      k.a2 * delayed 2 (fun n => y n - (k.b0 * w n + k.b1 * delayed 1 w n + k.b2 * delayed 2 w n)) n)) := by
  rcases n with _ | n
  · rw [delayed_zero _ 1 le_rfl, delayed_zero _ 2 (by omega), delayed_zero _ 1 le_rfl, delayed_zero _ 2 (by omega),
      delayed_zero _ 1 le_rfl, delayed_zero _ 2 (by omega), delayed_zero _ 1 le_rfl, delayed_zero _ 2 (by omega)]
    simp only [delayed_zero _ 1 le_rfl, delayed_zero _ 2 (show 1 ≤ 2 by omega)]
    ring
  · rcases n with _ | n
    · simp only [delayed_one_succ, delayed_two_succ, delayed_zero _ 1 le_rfl, delayed_zero _ 2 (show 1 ≤ 2 by omega)]
      ring
    · simp only [delayed_one_succ, delayed_two_succ]
      ring

/-- Direct Form II: the fed back signal. -/
theorem df2_inner (r : Rounds R u η Ω) (hF : ∀ fma ∈ F, r.Fused fma) {w : ℕ → R}
    (hw : ∀ n, Computes F (.sub (.sub (.var (x n)) (.prod b.a1 (delR 1 w n))) (.prod b.a2 (delR 2 w n))) (w n))
    (hv : r.Values b k) {K : ℝ} (hk : GainBound k K) (hx : r.Input X x) (hM0 : 0 ≤ M) (hM : M ≤ Ω)
    (hb1 : X + k.back * (K * (X + 4 * (u * M + η))) + 9 * (u * M + η) ≤ M) (n : ℕ) :
    (r.Fin (w n) ∧ |r.val (w n)| ≤ K * (X + 4 * (u * M + η))) ∧
      |r.val (w n) - (r.val (x n) - k.a1 * delayed 1 (fun n => r.val (w n)) n -
        k.a2 * delayed 2 (fun n => r.val (w n)) n)| ≤ 4 * (u * M + η) := by
  have hX : 0 ≤ X := (abs_nonneg _).trans (hx 0).2
  have hδ : 0 ≤ u * M + η := add_nonneg (mul_nonneg r.u_nonneg hM0) r.η_nonneg
  have hK := hk.pos
  have hW : 0 ≤ K * (X + 4 * (u * M + η)) := by positivity
  have key : ∀ N, ∀ m < N, (r.Fin (w m) ∧ |r.val (w m)| ≤ K * (X + 4 * (u * M + η))) ∧
      |r.val (w m) - (r.val (x m) - k.a1 * delayed 1 (fun n => r.val (w n)) m -
        k.a2 * delayed 2 (fun n => r.val (w n)) m)| ≤ 4 * (u * M + η) := by
    intro N
    induction N with
    | zero => intro m hm; omega
    | succ N ih =>
      have hN : r.Fin (w N) ∧ |r.val (w N) - (r.val (x N) - k.a1 * delayed 1 (fun n => r.val (w n)) N -
          k.a2 * delayed 2 (fun n => r.val (w n)) N)| ≤ 4 * (u * M + η) := by
        have h2 := back_le (k := k) hW fun m hm => (ih m hm).1.2
        have h3 := df2_local r hF hM hM0 hv (hw N) (hx N).1
          (fin_delR r (n := N) (z := w) (fun m hm => (ih m hm).1.1) le_rfl)
          (fin_delR r (n := N) (z := w) (j := 2) (fun m hm => (ih m hm).1.1) (by omega))
          (by rw [val_delR, val_delR]; have := (hx N).2; linarith)
        rw [val_delR, val_delR] at h3
        exact h3
      intro m hm'
      rcases Nat.lt_succ_iff_lt_or_eq.1 hm' with h | rfl
      · exact ih m h
      · refine ⟨⟨hN.1, ?_⟩, hN.2⟩
        refine hk.bound (d := fun n => r.val (w n)) (N := m + 1) (fun j hj => ?_) m (Nat.lt_succ_self m)
        have h5 : |r.val (w j) - (r.val (x j) - k.a1 * delayed 1 (fun n => r.val (w n)) j -
            k.a2 * delayed 2 (fun n => r.val (w n)) j)| ≤ 4 * (u * M + η) := by
          rcases Nat.lt_succ_iff_lt_or_eq.1 hj with h | rfl
          · exact (ih j h).2
          · exact hN.2
        have a0 := abs_le.1 (hx j).2
        have a3 := abs_le.1 h5
        exact abs_le.2 ⟨by linarith, by linarith⟩
  exact key (n + 1) n (Nat.lt_succ_self n)

/-- Direct Form II -/
theorem df2_run (r : Rounds R u η Ω) (hF : ∀ fma ∈ F, r.Fused fma) (hrun : SecC F DirectFormII b x out) (hv : r.Values b k) {K : ℝ} (hk : GainBound k K) (hx : r.Input X x) (hM0 : 0 ≤ M) (hM : M ≤ Ω) {M' : ℝ}
    (hM0' : 0 ≤ M') (hM' : M' ≤ Ω) (hb1 : X + k.back * (K * (X + 4 * (u * M + η))) + 9 * (u * M + η) ≤ M)
    (hb2 : k.forward * (K * (X + 4 * (u * M + η))) + 9 * (u * M' + η) ≤ M') (n : ℕ) :
    let y := fun n => r.val (out n)
    r.Fin (out n) ∧ |y n + k.a1 * delayed 1 y n + k.a2 * delayed 2 y n -
      (k.b0 * r.val (x n) + k.b1 * delayed 1 (fun n => r.val (x n)) n + k.b2 * delayed 2 (fun n => r.val (x n)) n)| ≤
        4 * k.forward * (u * M + η) + 5 * (1 + k.back) * (u * M' + η) := by
  intro y
  have hX : 0 ≤ X := (abs_nonneg _).trans (hx 0).2
  have hδ : 0 ≤ u * M + η := add_nonneg (mul_nonneg r.u_nonneg hM0) r.η_nonneg
  have hδ' : 0 ≤ u * M' + η := add_nonneg (mul_nonneg r.u_nonneg hM0') r.η_nonneg
  have hK := hk.pos
  have hW : 0 ≤ K * (X + 4 * (u * M + η)) := by positivity
  obtain ⟨w, hw⟩ := hrun.df2
  have key := df2_inner r hF (fun n => (hw n).1) hv hk hx hM0 hM hb1
  have hw' : ∀ m, r.Fin (w m) ∧ |r.val (w m)| ≤ K * (X + 4 * (u * M + η)) :=
    fun m => (key m).1
  have he1 : ∀ m, |r.val (w m) - (r.val (x m) - k.a1 * delayed 1 (fun n => r.val (w n)) m -
      k.a2 * delayed 2 (fun n => r.val (w n)) m)| ≤ 4 * (u * M + η) := fun m => (key m).2
  have hout : ∀ m, r.Fin (out m) ∧ |y m - (k.b0 * r.val (w m) + k.b1 * delayed 1 (fun n => r.val (w n)) m +
      k.b2 * delayed 2 (fun n => r.val (w n)) m)| ≤ 5 * (u * M' + η) := by
    intro m
    have h1 := forward_le (k := k) (fun n => (hw' n).2) m
    have h3 := df2_out r hF hM' hM0' hv (hw m).2 (hw' m).1
      (fin_delR r (n := m) (z := w) (fun m _ => (hw' m).1) le_rfl)
      (fin_delR r (n := m) (z := w) (j := 2) (fun m _ => (hw' m).1) (by omega))
      (by rw [val_delR, val_delR]; linarith)
    rw [val_delR, val_delR] at h3
    exact h3
  refine ⟨(hout n).1, ?_⟩
  have e := df2_residual k (fun n => r.val (x n)) (fun n => r.val (w n)) y n
  have f1 := forward_le (k := k) he1 n
  have f2 := back_le (k := k) (N := n) (Y := 5 * (u * M' + η)) (by positivity) (fun m _ => (hout m).2)
  have f3 := (hout n).2
  rw [e]
  refine (abs_add_le _ _).trans ?_
  have g1 := abs_add_three (k.b0 * (r.val (w n) - (r.val (x n) - k.a1 * delayed 1 (fun n => r.val (w n)) n -
      k.a2 * delayed 2 (fun n => r.val (w n)) n)))
    (k.b1 * delayed 1 (fun m => r.val (w m) - (r.val (x m) - k.a1 * delayed 1 (fun n => r.val (w n)) m -
      k.a2 * delayed 2 (fun n => r.val (w n)) m)) n)
    (k.b2 * delayed 2 (fun m => r.val (w m) - (r.val (x m) - k.a1 * delayed 1 (fun n => r.val (w n)) m -
      k.a2 * delayed 2 (fun n => r.val (w n)) m)) n)
  refine (add_le_add (g1.trans f1) ((abs_add_le _ _).trans (add_le_add f3 ((abs_add_le _ _).trans f2)))).trans
    (le_of_eq ?_)
  ring

/-- Transposed Direct Form II -/
theorem tdf2_run (r : Rounds R u η Ω) (hF : ∀ fma ∈ F, r.Fused fma) (hrun : SecC F TransposedDirectFormII b x out) (hv : r.Values b k) {K : ℝ} (hk : GainBound k K) (hx : r.Input X x) (hM0 : 0 ≤ M)
    (hle : M ≤ Ω)
    (hb1 : k.forward * X + k.back * (K * (k.forward * X + 9 * (u * M + η))) + 9 * (u * M + η) ≤ M) (n : ℕ) :
    let y := fun n => r.val (out n)
    r.Fin (out n) ∧ |y n + k.a1 * delayed 1 y n + k.a2 * delayed 2 y n -
      (k.b0 * r.val (x n) + k.b1 * delayed 1 (fun n => r.val (x n)) n + k.b2 * delayed 2 (fun n => r.val (x n)) n)| ≤
        9 * (u * M + η) := by
  intro y
  have hX : 0 ≤ X := (abs_nonneg _).trans (hx 0).2
  have hδ : 0 ≤ u * M + η := add_nonneg (mul_nonneg r.u_nonneg hM0) r.η_nonneg
  have hK := hk.pos
  have hB := Coeffs_forward_nonneg k
  have hY : 0 ≤ K * (k.forward * X + 9 * (u * M + η)) := by positivity
  generalize hYdef : K * (k.forward * X + 9 * (u * M + η)) = Y at hY hb1
  obtain ⟨st, hst0, hst⟩ := hrun
  choose t1 t2 so s1' s2' hs using hst
  have s1 : ∀ m, Computes F (.sub (.add (.var (st m).s2_1) (.prod b.b1 (x m))) (.prod b.a1 (out m))) (st (m + 1)).s1_1 :=
    fun m => by rw [hs m]; exact s1' m
  have s2 : ∀ m, Computes F (.sub (.prod b.b2 (x m)) (.prod b.a2 (out m))) (st (m + 1)).s2_1 :=
    fun m => by rw [hs m]; exact s2' m
  have z1 : (st 0).s1_1 = 0 := by rw [hst0]; rfl
  have z2 : (st 0).s2_1 = 0 := by rw [hst0]; rfl
  clear s1' s2' hs
  have cb0 := abs_nonneg k.b0
  have cb1 := abs_nonneg k.b1
  have cb2 := abs_nonneg k.b2
  have ca1 := abs_nonneg k.a1
  have ca2 := abs_nonneg k.a2
  have pb0 : 0 ≤ |k.b0| * X := by positivity
  have pb1 : 0 ≤ |k.b1| * X := by positivity
  have pb2 : 0 ≤ |k.b2| * X := by positivity
  have pa1 : 0 ≤ |k.a1| * Y := by positivity
  have pa2 : 0 ≤ |k.a2| * Y := by positivity
  have hsum : |k.b0| * X + |k.b1| * X + |k.b2| * X + |k.a1| * Y + |k.a2| * Y + 9 * (u * M + η) ≤ M := by
    rw [Coeffs.forward, Coeffs.back] at hb1; linarith
  have bx0 : ∀ m, |k.b0 * r.val (x m)| ≤ |k.b0| * X := fun m => by
    rw [abs_mul]; exact mul_le_mul_of_nonneg_left (hx m).2 cb0
  have bx1 : ∀ m, |k.b1 * r.val (x m)| ≤ |k.b1| * X := fun m => by
    rw [abs_mul]; exact mul_le_mul_of_nonneg_left (hx m).2 cb1
  have bx2 : ∀ m, |k.b2 * r.val (x m)| ≤ |k.b2| * X := fun m => by
    rw [abs_mul]; exact mul_le_mul_of_nonneg_left (hx m).2 cb2
  have by1 : ∀ m, |y m| ≤ Y → |k.a1 * r.val (out m)| ≤ |k.a1| * Y := fun m h => by
    rw [abs_mul]; exact mul_le_mul_of_nonneg_left h ca1
  have by2 : ∀ m, |y m| ≤ Y → |k.a2 * r.val (out m)| ≤ |k.a2| * Y := fun m h => by
    rw [abs_mul]; exact mul_le_mul_of_nonneg_left h ca2
  have key : ∀ N, (∀ m < N, (r.Fin (out m) ∧ |y m| ≤ Y) ∧
      |y m + k.a1 * delayed 1 y m + k.a2 * delayed 2 y m -
      (k.b0 * r.val (x m) + k.b1 * delayed 1 (fun n => r.val (x n)) m + k.b2 * delayed 2 (fun n => r.val (x n)) m)| ≤
        9 * (u * M + η)) ∧
      (r.Fin (st N).s1_1 ∧ |r.val (st N).s1_1 - (k.b1 * delayed 1 (fun n => r.val (x n)) N +
        k.b2 * delayed 2 (fun n => r.val (x n)) N - k.a1 * delayed 1 y N - k.a2 * delayed 2 y N)| ≤ 7 * (u * M + η) ∧
        |r.val (st N).s1_1| ≤ |k.b1| * X + |k.b2| * X + |k.a1| * Y + |k.a2| * Y + 7 * (u * M + η)) ∧
      (r.Fin (st N).s2_1 ∧ |r.val (st N).s2_1 - (k.b2 * delayed 1 (fun n => r.val (x n)) N - k.a2 * delayed 1 y N)| ≤
        3 * (u * M + η) ∧ |r.val (st N).s2_1| ≤ |k.b2| * X + |k.a2| * Y + 3 * (u * M + η)) := by
    intro N
    induction N with
    | zero =>
      refine ⟨fun m hm => by omega, ?_, ?_⟩
      · rw [z1]
        refine ⟨r.zero.1, ?_, ?_⟩
        · rw [r.zero.2, delayed_zero _ 1 le_rfl, delayed_zero _ 2 (by omega), delayed_zero _ 1 le_rfl,
            delayed_zero _ 2 (by omega)]
          simp only [mul_zero, add_zero, sub_zero, abs_zero]
          linarith
        · rw [r.zero.2, abs_zero]; linarith
      · rw [z2]
        refine ⟨r.zero.1, ?_, ?_⟩
        · rw [r.zero.2, delayed_zero _ 1 le_rfl, delayed_zero _ 1 le_rfl]
          simp only [mul_zero, sub_zero, abs_zero]
          linarith
        · rw [r.zero.2, abs_zero]; linarith
    | succ N ih =>
      obtain ⟨ihm, ⟨f1, g1, h1⟩, ⟨f2, g2, h2⟩⟩ := ih
      have ho := tdf2_out r hF hle hM0 hv (so N) (hx N).1 f1 (by have := bx0 N; linarith)
      have hres : |y N + k.a1 * delayed 1 y N + k.a2 * delayed 2 y N -
          (k.b0 * r.val (x N) + k.b1 * delayed 1 (fun n => r.val (x n)) N + k.b2 * delayed 2 (fun n => r.val (x n)) N)| ≤
          9 * (u * M + η) := by
        have a := abs_le.1 ho.2
        have c := abs_le.1 g1
        show |r.val (out N) + _ + _ - _| ≤ _
        exact abs_le.2 ⟨by linarith, by linarith⟩
      have hyY : |y N| ≤ Y := by
        rw [← hYdef]
        refine hk.bound (d := y) (N := N + 1) (fun j hj => ?_) N (Nat.lt_succ_self N)
        have h5 : |y j + k.a1 * delayed 1 y j + k.a2 * delayed 2 y j - (k.b0 * r.val (x j) +
            k.b1 * delayed 1 (fun n => r.val (x n)) j + k.b2 * delayed 2 (fun n => r.val (x n)) j)| ≤
            9 * (u * M + η) := by
          rcases Nat.lt_succ_iff_lt_or_eq.1 hj with h | rfl
          · exact (ihm j h).2
          · exact hres
        have h6 := forward_le (k := k) (fun n => (hx n).2) j
        have a0 := abs_le.1 (le_refl |k.b0 * r.val (x j)|)
        have a1 := abs_le.1 (le_refl |k.b1 * delayed 1 (fun n => r.val (x n)) j|)
        have a2 := abs_le.1 (le_refl |k.b2 * delayed 2 (fun n => r.val (x n)) j|)
        have a3 := abs_le.1 h5
        exact abs_le.2 ⟨by linarith, by linarith⟩
      have y1 := by1 N hyY
      have y2 := by2 N hyY
      have x1 := bx1 N
      have x2 := bx2 N
      have hs1 := tdf2_s1 r hF hle hM0 hv (s1 N) (hx N).1 f2 ho.1 (by linarith)
      have hs2 := tdf2_s2 r hF hle hM0 hv (s2 N) (hx N).1 ho.1 (by linarith)
      refine ⟨fun m hm' => ?_, ⟨hs1.1, ?_, ?_⟩, hs2.1, ?_, ?_⟩
      · rcases Nat.lt_succ_iff_lt_or_eq.1 hm' with h | rfl
        · exact ihm m h
        · exact ⟨⟨ho.1, hyY⟩, hres⟩
      · rw [delayed_one_succ, delayed_one_succ, delayed_two_succ, delayed_two_succ]
        have a := abs_le.1 hs1.2
        have c := abs_le.1 g2
        show |r.val (st (N + 1)).s1_1 - (_ + _ - k.a1 * r.val (out N) - _)| ≤ _
        exact abs_le.2 ⟨by linarith, by linarith⟩
      · have a := abs_le.1 hs1.2
        have c := abs_le.1 h2
        have y1 := abs_le.1 y1
        have x1 := abs_le.1 x1
        exact abs_le.2 ⟨by linarith, by linarith⟩
      · rw [delayed_one_succ, delayed_one_succ]
        exact hs2.2
      · have a := abs_le.1 hs2.2
        have y2 := abs_le.1 y2
        have x2 := abs_le.1 x2
        exact abs_le.2 ⟨by linarith, by linarith⟩
  exact ⟨((key (n + 1)).1 n (Nat.lt_succ_self n)).1.1, ((key (n + 1)).1 n (Nat.lt_succ_self n)).2⟩

/-- One section, any delay line: the output is finite and stays within a fixed distance of the exact response. -/
theorem section_within (S : Type → Type) [StateType S R] [D : DelayLine R S] (r : Rounds R u η Ω)
    (hF : ∀ fma ∈ F, r.Fused fma) (hrun : SecC F S b x out) (hv : r.Values b k)
    (hk : k.StablePoles p q) (hx : r.Input X x) (hM0 : 0 ≤ M) (hm : Room u η Ω k p q X M) {y : ℕ → ℝ}
    (hy : k.DiffEq (fun n => r.val (x n)) y) :
    r.Within (9 * poleGain p q * (1 + k.back + k.forward) * (u * M + η)) out y := by
  have hδ : 0 ≤ u * M + η := add_nonneg (mul_nonneg r.u_nonneg hM0) r.η_nonneg
  have hK := poleGain_pos hk.p_lt hk.q_lt
  have hB := Coeffs_forward_nonneg k
  have hA := Coeffs_back_nonneg k
  have e1 : poleGain p q * (9 * (u * M + η)) ≤ 9 * poleGain p q * (1 + k.back + k.forward) * (u * M + η) := by
    have : 0 ≤ poleGain p q * (u * M + η) * k.back := by positivity
    have : 0 ≤ poleGain p q * (u * M + η) * k.forward := by positivity
    nlinarith
  have e2 : poleGain p q * (4 * k.forward * (u * M + η) + 5 * (1 + k.back) * (u * M + η)) ≤
      9 * poleGain p q * (1 + k.back + k.forward) * (u * M + η) := by
    have : 0 ≤ poleGain p q * (u * M + η) * k.back := by positivity
    have : 0 ≤ poleGain p q * (u * M + η) * k.forward := by positivity
    have : 0 ≤ poleGain p q * (u * M + η) := by positivity
    nlinarith
  obtain ⟨b1, b2, b3⟩ := room_bounds hk ((abs_nonneg _).trans (hx 0).2) hδ hm
  have hle := hm.le
  have hg := StablePoles_gain hk
  intro n
  cases D
  · exact ⟨(df1_run r hF hrun hv hg hx hM0 hle b1 n).1, (deviation hg hv.a0 hy (fun n => (df1_run r hF hrun hv hg hx hM0 hle b1 n).2) n).trans e1⟩
  · exact ⟨(df2_run r hF hrun hv hg hx hM0 hle hM0 hle b2 b3 n).1, (deviation hg hv.a0 hy (fun n => (df2_run r hF hrun hv hg hx hM0 hle hM0 hle b2 b3 n).2) n).trans e2⟩
  · exact ⟨(tdf2_run r hF hrun hv hg hx hM0 hle b1 n).1, (deviation hg hv.a0 hy (fun n => (tdf2_run r hF hrun hv hg hx hM0 hle b1 n).2) n).trans e1⟩

end Iir
