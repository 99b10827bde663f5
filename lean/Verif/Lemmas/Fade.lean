import Verif.Lemmas.RoundChain
import Verif.Spec.Fade
import Mathlib.Analysis.SpecificLimits.Basic

/-! # Rounding errors of the past fade away -/

set_option linter.unusedSectionVars false

namespace Iir
open FArith Spec

namespace Spec.CalmsTo
variable {z w : ℕ → ℝ} {B B' : ℝ}

theorem mono (h : CalmsTo z B) (hB : B ≤ B') : CalmsTo z B' := fun ε hε => by
  obtain ⟨N, hN⟩ := h ε hε
  exact ⟨N, fun n hn => (hN n hn).trans (by linarith)⟩

theorem dom (h : CalmsTo w B) (N : ℕ) (hz : ∀ n ≥ N, |z n| ≤ |w n|) : CalmsTo z B := fun ε hε => by
  obtain ⟨N', hN⟩ := h ε hε
  exact ⟨max N N', fun n hn => (hz n (le_trans (le_max_left _ _) hn)).trans (hN n (le_trans (le_max_right _ _) hn))⟩

theorem nonneg (h : CalmsTo z B) : 0 ≤ B := by
  refine le_of_forall_pos_le_add fun ε hε => ?_
  obtain ⟨N, hN⟩ := h ε hε
  exact (abs_nonneg _).trans (hN N le_rfl)

theorem add (h : CalmsTo z B) (h' : CalmsTo w B') : CalmsTo (fun n => z n + w n) (B + B') := fun ε hε => by
  obtain ⟨N, hN⟩ := h (ε / 2) (by positivity)
  obtain ⟨N', hN'⟩ := h' (ε / 2) (by positivity)
  refine ⟨max N N', fun n hn => (abs_add_le _ _).trans ?_⟩
  have := hN n (le_trans (le_max_left _ _) hn)
  have := hN' n (le_trans (le_max_right _ _) hn)
  linarith

theorem smul (c : ℝ) (h : CalmsTo z B) : CalmsTo (fun n => c * z n) (|c| * B) := fun ε hε => by
  have hc := abs_nonneg c
  obtain ⟨N, hN⟩ := h (ε / (|c| + 1)) (by positivity)
  refine ⟨N, fun n hn => ?_⟩
  rw [abs_mul]
  have h1 := mul_le_mul_of_nonneg_left (hN n hn) hc
  have h2 : |c| * (ε / (|c| + 1)) ≤ ε := by
    rw [mul_div_assoc', div_le_iff₀ (by positivity)]
    nlinarith
  linarith

theorem const (c : ℝ) : CalmsTo (fun _ => c) |c| := fun ε hε => ⟨0, fun _ _ => by linarith⟩

theorem abs (h : CalmsTo z B) : CalmsTo (fun n => |z n|) B := h.dom 0 fun n _ => by rw [abs_abs]

theorem delayed (j : ℕ) (h : CalmsTo z B) : CalmsTo (delayed j z) B := fun ε hε => by
  obtain ⟨N, hN⟩ := h ε hε
  refine ⟨N + j, fun n hn => ?_⟩
  unfold Spec.delayed
  rw [if_pos (by omega)]
  exact hN _ (by omega)

theorem of_bound (h : ∀ n, |z n| ≤ B) : CalmsTo z B := fun ε hε => ⟨0, fun n _ => (h n).trans (by linarith)⟩

/-- A signal that settles below everything above `B`. -/
theorem inf {E : ℕ → ℝ} (hE : ∀ ε > 0, ∃ j, E j ≤ ε) (h : ∀ j, CalmsTo z (B + E j)) : CalmsTo z B := fun ε hε => by
  obtain ⟨j, hj⟩ := hE (ε / 2) (by positivity)
  obtain ⟨N, hN⟩ := h j (ε / 2) (by positivity)
  exact ⟨N, fun n hn => (hN n hn).trans (by linarith)⟩

/-- Bounds that improve themselves. -/
theorem contract {V0 E κ : ℝ} (hκ : κ ≤ 1 / 2) (h0 : CalmsTo z V0)
    (h : ∀ V, 0 ≤ V → CalmsTo z V → CalmsTo z (E + κ * V)) : CalmsTo z (2 * E) := by
  have hV0 := h0.nonneg
  have key : ∀ j : ℕ, CalmsTo z (2 * E + (V0 + 2 * |E|) * (1 / 2) ^ j) := by
    intro j
    induction j with
    | zero => exact h0.mono (by have := neg_abs_le E; rw [pow_zero]; linarith)
    | succ j ih =>
      have hn := ih.nonneg
      refine (h _ hn ih).mono ?_
      have := mul_le_mul_of_nonneg_right hκ hn
      rw [pow_succ]
      linarith
  refine inf (E := fun j => (V0 + 2 * |E|) * (1 / 2) ^ j) (fun ε hε => ?_) key
  have hc : 0 ≤ V0 + 2 * |E| := by positivity
  obtain ⟨j, hj⟩ := exists_pow_lt_of_lt_one (show 0 < ε / (V0 + 2 * |E| + 1) by positivity) (show (1 / 2 : ℝ) < 1 by norm_num)
  refine ⟨j, ?_⟩
  rw [lt_div_iff₀ (by positivity)] at hj
  have : (0 : ℝ) < (1 / 2) ^ j := by positivity
  linarith

end Spec.CalmsTo

theorem first_order_fade {p : ℂ} (hp : ‖p‖ < 1) {v : ℕ → ℂ} {E : ℝ}
    (h : ∀ ε > 0, ∃ N, ∀ n ≥ N, ‖v n - p * prevC v n‖ ≤ E + ε) :
    ∀ ε > 0, ∃ N, ∀ n ≥ N, ‖v n‖ ≤ E / (1 - ‖p‖) + ε := by
  have hp' : 0 < 1 - ‖p‖ := by linarith
  intro ε hε
  obtain ⟨N, hN⟩ := h (ε * (1 - ‖p‖) / 2) (by positivity)
  have key : ∀ j, ‖v (N + j)‖ ≤ E / (1 - ‖p‖) + ε / 2 + ‖p‖ ^ j * (‖v N‖ + |E / (1 - ‖p‖)| ) := by
    intro j
    induction j with
    | zero =>
      have := neg_abs_le (E / (1 - ‖p‖))
      simp only [Nat.add_zero, pow_zero, one_mul]
      linarith
    | succ j ih =>
      have h1 := hN (N + j + 1) (by omega)
      rw [prevC_succ] at h1
      have h3 : ‖v (N + j + 1)‖ ≤ ‖v (N + j + 1) - p * v (N + j)‖ + ‖p‖ * ‖v (N + j)‖ := by
        rw [← norm_mul]
        calc ‖v (N + j + 1)‖ = ‖(v (N + j + 1) - p * v (N + j)) + p * v (N + j)‖ := by rw [sub_add_cancel]
          _ ≤ _ := norm_add_le _ _
      have h4 := mul_le_mul_of_nonneg_left ih (norm_nonneg p)
      have h5 : E + ε * (1 - ‖p‖) / 2 + ‖p‖ * (E / (1 - ‖p‖) + ε / 2) = E / (1 - ‖p‖) + ε / 2 := by field_simp; ring
      rw [pow_succ, ← Nat.add_assoc]
      linarith
  obtain ⟨J, hJ⟩ := exists_pow_lt_of_lt_one (show 0 < ε / 2 / (‖v N‖ + |E / (1 - ‖p‖)| + 1) by positivity) hp
  refine ⟨N + J, fun n hn => ?_⟩
  obtain ⟨j, rfl⟩ := Nat.exists_eq_add_of_le (show N ≤ n by omega)
  have h1 := key j
  have h2 : ‖p‖ ^ j ≤ ‖p‖ ^ J := pow_le_pow_of_le_one (norm_nonneg _) hp.le (by omega)
  rw [lt_div_iff₀ (by positivity)] at hJ
  have h3 : 0 ≤ ‖p‖ ^ J := by positivity
  have h4 := mul_le_mul_of_nonneg_right h2 (show 0 ≤ ‖v N‖ + |E / (1 - ‖p‖)| by positivity)
  linarith

variable {k : Coeffs} {p q : ℂ}

/-- A signal whose residual settles settles itself. -/
theorem Spec.CalmsTo.gain (hk : k.StablePoles p q) {d : ℕ → ℝ} {E : ℝ}
    (h : CalmsTo (fun m => d m + k.a1 * Spec.delayed 1 d m + k.a2 * Spec.delayed 2 d m) E) : CalmsTo d (poleGain p q * E) := by
  have hp' : 0 < 1 - ‖p‖ := by linarith [hk.p_lt]
  have hq' : 0 < 1 - ‖q‖ := by linarith [hk.q_lt]
  have h1 : ∀ ε > 0, ∃ N, ∀ n ≥ N, ‖(fun m => (d m : ℂ) - p * prevC (fun n => (d n : ℂ)) m) n‖ ≤ E / (1 - ‖q‖) + ε := by
    apply first_order_fade hk.q_lt
    intro ε hε
    obtain ⟨N, hN⟩ := h ε hε
    refine ⟨N, fun m hm => ?_⟩
    have h2 := hN m hm
    rw [← Real.norm_eq_abs, ← Complex.norm_real] at h2
    convert h2 using 2
    push_cast
    rw [hk.sum, hk.prod]
    match m with
    | 0 => simp [prevC, Spec.delayed]
    | 1 => simp [prevC, Spec.delayed]; ring
    | m + 2 => simp [prevC, Spec.delayed]; ring
  have h2 := first_order_fade hk.p_lt (v := fun n => (d n : ℂ)) h1
  intro ε hε
  obtain ⟨N, hN⟩ := h2 ε hε
  refine ⟨N, fun n hn => ?_⟩
  have h3 := hN n hn
  simp only [Complex.norm_real, Real.norm_eq_abs] at h3
  refine h3.trans (le_of_eq ?_)
  unfold poleGain
  field_simp

variable {u η Φ : ℝ}

/-- The magnitudes of the feed back terms. -/
theorem back_calms {c : ℕ → ℝ} {V : ℝ} (h : CalmsTo c V) :
    CalmsTo (fun n => |k.a1 * delayed 1 c n| + |k.a2 * delayed 2 c n|) (k.back * V) := by
  refine (((h.delayed 1).smul k.a1).abs.add ((h.delayed 2).smul k.a2).abs).mono (le_of_eq ?_)
  rw [Coeffs.back]; ring

/-- The magnitudes of the feed forward terms. -/
theorem forward_calms {c : ℕ → ℝ} {V : ℝ} (h : CalmsTo c V) :
    CalmsTo (fun n => |k.b0 * c n| + |k.b1 * delayed 1 c n| + |k.b2 * delayed 2 c n|) (k.forward * V) := by
  refine (((h.smul k.b0).abs.add ((h.delayed 1).smul k.b1).abs).add ((h.delayed 2).smul k.b2).abs).mono (le_of_eq ?_)
  rw [Coeffs.forward]; ring

/-- Residuals that are a small multiple of the current magnitudes. -/
theorem residual_calms (hu0 : 0 ≤ u) (hη : 0 ≤ η) {c f t : ℕ → ℝ} {V : ℝ} (ht : CalmsTo t Φ) (hV : CalmsTo c V)
    (hres : ∀ n ≥ 2, |c n + k.a1 * delayed 1 c n + k.a2 * delayed 2 c n - f n| ≤
      18 * (u * (|t n| + (|k.a1 * delayed 1 c n| + |k.a2 * delayed 2 c n|)) + η)) :
    CalmsTo (fun n => c n + k.a1 * delayed 1 c n + k.a2 * delayed 2 c n - f n) (18 * (u * (Φ + k.back * V) + η)) := by
  have h := (((ht.abs.add (back_calms (k := k) hV)).smul u).add (CalmsTo.const η)).smul 18
  refine (h.mono (le_of_eq ?_)).dom 2 fun n hn => ?_
  · rw [abs_of_nonneg hu0, abs_of_nonneg hη, abs_of_nonneg (show (0 : ℝ) ≤ 18 by norm_num)]
  · refine (hres n hn).trans (le_abs_self _)

/-- The fed back signal of a section settles at a level that depends on the present input only. -/
theorem core_fade (hk : k.StablePoles p q) (hu0 : 0 ≤ u) (hη : 0 ≤ η) {c f t : ℕ → ℝ} {V0 : ℝ}
    (hu : 36 * u * (1 + (k.back + k.forward) * poleGain p q) ≤ 1) (hc : ∀ n, |c n| ≤ V0) (hf : CalmsTo f Φ)
    (ht : CalmsTo t Φ) (hres : ∀ n ≥ 2, |c n + k.a1 * delayed 1 c n + k.a2 * delayed 2 c n - f n| ≤
      18 * (u * (|t n| + (|k.a1 * delayed 1 c n| + |k.a2 * delayed 2 c n|)) + η)) :
    CalmsTo c (2 * (poleGain p q * (2 * Φ + 18 * η))) := by
  have hK := poleGain_pos hk.p_lt hk.q_lt
  have hA := Coeffs_back_nonneg k
  have hB := Coeffs_forward_nonneg k
  have hΦ := hf.nonneg
  have e1 : 0 ≤ u * k.forward * poleGain p q := by positivity
  have e2 : 0 ≤ u * k.back * poleGain p q := by positivity
  refine CalmsTo.contract (κ := 18 * (u * k.back * poleGain p q)) (by linarith) (CalmsTo.of_bound hc) fun V hV0 hV => ?_
  have h1 := (residual_calms hu0 hη ht hV hres).add hf
  simp only [sub_add_cancel] at h1
  refine (h1.gain hk).mono ?_
  have h2 : 18 * u ≤ 1 := by linarith
  have h3 := mul_le_mul_of_nonneg_right h2 (show 0 ≤ poleGain p q * Φ by positivity)
  linarith

/-- From the residual of the difference equation to the deviation from its solution. -/
theorem deviation_calms (hk : k.StablePoles p q) (h0 : k.a0 = 1) {xr yr y : ℕ → ℝ} (hy : k.DiffEq xr y) {E : ℝ}
    (h : CalmsTo (fun n => yr n + k.a1 * delayed 1 yr n + k.a2 * delayed 2 yr n -
      (k.b0 * xr n + k.b1 * delayed 1 xr n + k.b2 * delayed 2 xr n)) E) :
    CalmsTo (fun n => yr n - y n) (poleGain p q * E) := by
  refine CalmsTo.gain hk (h.dom 0 fun m _ => le_of_eq ?_)
  have h2 := hy m
  rw [h0, div_one] at h2
  congr 1
  rw [delayed_sub, delayed_sub]
  linear_combination -h2

/-- exact response of a stable section -/
theorem diffEq_calms (h0 : k.a0 = 1) (hk : k.StablePoles p q) {x y : ℕ → ℝ} (h : k.DiffEq x y) {X : ℝ}
    (hx : CalmsTo x X) : CalmsTo y (poleGain p q * (k.forward * X)) := by
  refine CalmsTo.gain hk ((forward_calms (k := k) hx).dom 0 fun m _ => ?_)
  have h2 := h m
  rw [h0, div_one] at h2
  have e : y m + k.a1 * delayed 1 y m + k.a2 * delayed 2 y m = k.b0 * x m + k.b1 * delayed 1 x m + k.b2 * delayed 2 x m := by
    linarith
  rw [e]
  exact (abs_add_three _ _ _).trans (le_abs_self _)

theorem chain_calms_sub {ks : List Coeffs} (hst : ∀ k ∈ ks, k.a0 = 1 ∧ k.Stable) :
    ∃ G : ℝ, 0 ≤ G ∧ ∀ x x' y y' D, DiffChain ks x y → DiffChain ks x' y' → CalmsTo (fun n => x n - x' n) D →
      CalmsTo (fun n => y n - y' n) (G * D) := by
  induction ks with
  | nil =>
    refine ⟨1, zero_le_one, ?_⟩
    intro x x' y y' D h h' hD
    cases h; cases h'
    rw [one_mul]; exact hD
  | cons k ks ih =>
    obtain ⟨G, hG0, hG⟩ := ih fun k hk => hst k (List.mem_cons_of_mem _ hk)
    obtain ⟨h0, hs⟩ := hst k (List.mem_cons_self ..)
    obtain ⟨p, q, hk⟩ := Coeffs_exists_poles h0 hs
    have hK := poleGain_pos hk.p_lt hk.q_lt
    have hB := Coeffs_forward_nonneg k
    refine ⟨G * (poleGain p q * k.forward), by positivity, ?_⟩
    intro x x' y y' D h h' hD
    rcases h with _ | ⟨h1, h2⟩
    rcases h' with _ | ⟨h1', h2'⟩
    refine (hG _ _ _ _ _ h2 h2' (diffEq_calms h0 hk (diffEq_sub h0 h1 h1') hD)).mono (le_of_eq ?_)
    ring

/-! ## One section -/

section sec
variable {R : Type} [FArith R] {Ω : ℝ} {b : Biquad R} {X M : ℝ} {x out : ℕ → R} {F : Option (R → R → R → R)}

/-- the room that one step with magnitudes `s` needs -/
theorem room_point {s : ℝ} (hs : 0 ≤ s) (hη : 0 ≤ η) (hu : 18 * u ≤ 1) :
    s + 9 * (u * (2 * (s + 9 * η)) + η) ≤ 2 * (s + 9 * η) ∧ u * (2 * (s + 9 * η)) + η ≤ 2 * (u * s + η) := by
  have h1 := mul_le_mul_of_nonneg_right hu hs
  have h2 := mul_le_mul_of_nonneg_right hu hη
  constructor <;> linarith

variable {s : ℝ}

theorem df1_point (r : Rounds R u η Ω) (hF : ∀ fma ∈ F, r.Fused fma) (hrun : SecC F DirectFormI b x out) (hv : r.Values b k)
    (hx : ∀ n, r.Fin (x n)) (ho : ∀ n, r.Fin (out n)) (hu : 18 * u ≤ 1) (n : ℕ)
    (hs : |k.b0 * r.val (x n)| + |k.b1 * delayed 1 (fun n => r.val (x n)) n| + |k.b2 * delayed 2 (fun n => r.val (x n)) n| +
      (|k.a1 * delayed 1 (fun n => r.val (out n)) n| + |k.a2 * delayed 2 (fun n => r.val (out n)) n|) = s)
    (hle : 2 * (s + 9 * η) ≤ Ω) :
    |r.val (out n) + k.a1 * delayed 1 (fun n => r.val (out n)) n + k.a2 * delayed 2 (fun n => r.val (out n)) n -
      (k.b0 * r.val (x n) + k.b1 * delayed 1 (fun n => r.val (x n)) n + k.b2 * delayed 2 (fun n => r.val (x n)) n)| ≤
        18 * (u * s + η) := by
  have hs0 : 0 ≤ s := by rw [← hs]; positivity
  have hη := r.η_nonneg
  obtain ⟨h1, h2⟩ := room_point hs0 hη hu
  have h3 := df1_local r hF hle (by positivity) hv (hrun.df1 n) (hx n) (fin_delR r (n := n) (fun m _ => hx m) le_rfl)
    (fin_delR r (n := n) (j := 2) (fun m _ => hx m) (by omega))
    (fin_delR r (n := n) (z := out) (fun m _ => ho m) le_rfl)
    (fin_delR r (n := n) (z := out) (j := 2) (fun m _ => ho m) (by omega))
    (by rw [val_delR, val_delR, val_delR, val_delR]; linarith)
  rw [val_delR, val_delR, val_delR, val_delR] at h3
  refine le_of_eq_of_le (congrArg _ ?_) (h3.2.trans (by linarith))
  ring

theorem tdf2_point (r : Rounds R u η Ω) (hF : ∀ fma ∈ F, r.Fused fma) (hrun : SecC F TransposedDirectFormII b x out)
    (hv : r.Values b k) (hx : ∀ n, r.Fin (x n)) (ho : ∀ n, r.Fin (out n)) (hu : 18 * u ≤ 1) (n : ℕ) (hn : 2 ≤ n)
    (hs : |k.b0 * r.val (x n)| + |k.b1 * delayed 1 (fun n => r.val (x n)) n| + |k.b2 * delayed 2 (fun n => r.val (x n)) n| +
      (|k.a1 * delayed 1 (fun n => r.val (out n)) n| + |k.a2 * delayed 2 (fun n => r.val (out n)) n|) = s)
    (hle : 2 * (s + 9 * η) ≤ Ω) :
    |r.val (out n) + k.a1 * delayed 1 (fun n => r.val (out n)) n + k.a2 * delayed 2 (fun n => r.val (out n)) n -
      (k.b0 * r.val (x n) + k.b1 * delayed 1 (fun n => r.val (x n)) n + k.b2 * delayed 2 (fun n => r.val (x n)) n)| ≤
        18 * (u * s + η) := by
  obtain ⟨n, rfl⟩ : ∃ m, n = m + 2 := ⟨n - 2, by omega⟩
  have hs0 : 0 ≤ s := by rw [← hs]; positivity
  have hη := r.η_nonneg
  obtain ⟨h1, h2⟩ := room_point hs0 hη hu
  have hM0 : 0 ≤ 2 * (s + 9 * η) := by positivity
  generalize 2 * (s + 9 * η) = M at *
  have hδ : 0 ≤ u * M + η := add_nonneg (mul_nonneg r.u_nonneg hM0) r.η_nonneg
  simp only [delayed_one_succ, delayed_two_succ] at hs ⊢
  obtain ⟨st, -, hst⟩ := hrun
  choose t1 t2 so s1' s2' hs' using hst
  have s1 : ∀ m, Computes F (.sub (.add (.var (st m).s2_1) (.prod b.b1 (x m))) (.prod b.a1 (out m))) (st (m + 1)).s1_1 :=
    fun m => by rw [hs' m]; exact s1' m
  have s2 : ∀ m, Computes F (.sub (.prod b.b2 (x m)) (.prod b.a2 (out m))) (st (m + 1)).s2_1 :=
    fun m => by rw [hs' m]; exact s2' m
  have p0 := abs_nonneg (k.b0 * r.val (x (n + 2)))
  have p1 := abs_nonneg (k.b1 * r.val (x (n + 1)))
  have p2 := abs_nonneg (k.b2 * r.val (x n))
  have p3 := abs_nonneg (k.a1 * r.val (out (n + 1)))
  have p4 := abs_nonneg (k.a2 * r.val (out n))
  have g2 := tdf2_s2 r hF hle hM0 hv (s2 n) (hx n) (ho n) (by linarith)
  have c2 := abs_le.1 (le_refl |k.b2 * r.val (x n)|)
  have c4 := abs_le.1 (le_refl |k.a2 * r.val (out n)|)
  have d2 := abs_le.1 g2.2
  have m2 : |r.val (st (n + 1)).s2_1| ≤ |k.b2 * r.val (x n)| + |k.a2 * r.val (out n)| + 3 * (u * M + η) :=
    abs_le.2 ⟨by linarith, by linarith⟩
  have g1 := tdf2_s1 r hF hle hM0 hv (s1 (n + 1)) (hx _) g2.1 (ho _) (by linarith)
  have c1 := abs_le.1 (le_refl |k.b1 * r.val (x (n + 1))|)
  have c3 := abs_le.1 (le_refl |k.a1 * r.val (out (n + 1))|)
  have d1 := abs_le.1 g1.2
  have m1 : |r.val (st (n + 1 + 1)).s1_1| ≤ |k.b1 * r.val (x (n + 1))| + |k.a1 * r.val (out (n + 1))| +
      |k.b2 * r.val (x n)| + |k.a2 * r.val (out n)| + 7 * (u * M + η) := abs_le.2 ⟨by linarith, by linarith⟩
  have g0 := tdf2_out r hF hle hM0 hv (so (n + 2)) (hx _) g1.1 (by linarith)
  have d0 := abs_le.1 g0.2
  exact abs_le.2 ⟨by linarith, by linarith⟩

/-- the constants of the direct forms I and II transposed -/
theorem fade_arith1 {G A B X η : ℝ} (hG : 1 ≤ G) (hA : 0 ≤ A) (hB : 0 ≤ B) (hX : 0 ≤ X) (hη : 0 ≤ η) (hu0 : 0 ≤ u)
    (hu : 36 * u * (1 + (A + B) * G) ≤ 1) :
    G * (18 * (u * (B * X + A * (2 * (G * (2 * (B * X) + 18 * η)))) + η)) ≤
      72 * G * (1 + (A + B) * G) * (1 + A + B) * (u * X + η) := by
  have e1 : 0 ≤ u * B * G := by positivity
  have h1 : 36 * (u * A * G) ≤ 1 := by linarith
  have h2 := mul_le_mul_of_nonneg_right h1 hη
  have huX : 0 ≤ u * X := by positivity
  have h3 : u * (B * X + A * (2 * (G * (2 * (B * X) + 18 * η)))) + η ≤ B * (1 + 4 * (A * G)) * (u * X) + 2 * η := by
    linarith
  have h4 : 0 ≤ A * G := by positivity
  have h5 : 0 ≤ B * G := by positivity
  have h6 : B * (1 + 4 * (A * G)) * (u * X) + 2 * η ≤ 4 * ((1 + (A + B) * G) * (1 + A + B)) * (u * X + η) := by
    have h7 : B * (1 + 4 * (A * G)) ≤ 4 * ((1 + (A + B) * G) * (1 + A + B)) := by
      have : 0 ≤ A * (A * G) := by positivity
      have : 0 ≤ A * (B * G) := by positivity
      have : 0 ≤ B * (B * G) := by positivity
      have : 0 ≤ B * (A * G) := by positivity
      linarith
    have h8 : 1 ≤ (1 + (A + B) * G) * (1 + A + B) := by
      have : 0 ≤ A * (A * G) := by positivity
      have : 0 ≤ A * (B * G) := by positivity
      have : 0 ≤ B * (B * G) := by positivity
      have : 0 ≤ B * (A * G) := by positivity
      linarith
    have h9 := mul_le_mul_of_nonneg_right h7 huX
    have h10 := mul_le_mul_of_nonneg_right h8 hη
    linarith
  have h11 := mul_le_mul_of_nonneg_left (h3.trans h6) (show 0 ≤ 18 * G by positivity)
  linarith

/-- the constants of direct form II -/
theorem fade_arith2 {G A B X η : ℝ} (hG : 1 ≤ G) (hA : 0 ≤ A) (hB : 0 ≤ B) (hX : 0 ≤ X) (hη : 0 ≤ η) (hu0 : 0 ≤ u)
    (hu : 36 * u * (1 + (A + B) * G) ≤ 1) :
    G * (B * (18 * (u * (X + A * (2 * (G * (2 * X + 18 * η)))) + η)) +
      (1 + A) * (18 * (u * (B * (2 * (G * (2 * X + 18 * η)))) + η))) ≤
      72 * G * (1 + (A + B) * G) * (1 + A + B) * (u * X + η) := by
  have e1 : 0 ≤ u * B * G := by positivity
  have e2 : 0 ≤ u * A * G := by positivity
  have h1 : 36 * (u * A * G) ≤ 1 := by linarith
  have h1' : 36 * (u * B * G) ≤ 1 := by linarith
  have h2 := mul_le_mul_of_nonneg_right h1 hη
  have h2' := mul_le_mul_of_nonneg_right h1' hη
  have huX : 0 ≤ u * X := by positivity
  have h4 : 0 ≤ A * G := by positivity
  have h5 : 0 ≤ B * G := by positivity
  have h6 : 0 ≤ A * G * (u * X) := by positivity
  have h7 : 0 ≤ B * G * (u * X) := by positivity
  have h8 : 0 ≤ A * G * η := by positivity
  have h9 : 0 ≤ B * G * η := by positivity
  have h3 : u * (X + A * (2 * (G * (2 * X + 18 * η)))) + η ≤ 4 * (1 + (A + B) * G) * (u * X + η) := by linarith
  have h3' : u * (B * (2 * (G * (2 * X + 18 * η)))) + η ≤ 4 * (1 + (A + B) * G) * (u * X + η) := by linarith
  have h10 := mul_le_mul_of_nonneg_left h3 (show 0 ≤ G * B * 18 by positivity)
  have h11 := mul_le_mul_of_nonneg_left h3' (show 0 ≤ G * (1 + A) * 18 by positivity)
  linarith

theorem abs_le_of_residual (hk : k.StablePoles p q) {xr yr : ℕ → ℝ} {E : ℝ} (hx : ∀ n, |xr n| ≤ X)
    (h : ∀ n, |yr n + k.a1 * delayed 1 yr n + k.a2 * delayed 2 yr n -
      (k.b0 * xr n + k.b1 * delayed 1 xr n + k.b2 * delayed 2 xr n)| ≤ E) (n : ℕ) :
    |yr n| ≤ poleGain p q * (k.forward * X + E) := by
  refine second_order_bound hk (d := yr) (N := n + 1) (fun m _ => ?_) n (Nat.lt_succ_self n)
  have h6 := (abs_add_three _ _ _).trans (forward_le (k := k) hx m)
  have a := abs_le.1 h6
  have b := abs_le.1 (h m)
  exact abs_le.2 ⟨by linarith, by linarith⟩

/-- The common part of the direct forms I and II transposed. -/
theorem direct_fade (r : Rounds R u η Ω) (hv : r.Values b k) (hk : k.StablePoles p q) (hx : r.Input X x)
    (hu : 36 * u * (1 + (k.back + k.forward) * poleGain p q) ≤ 1) {V0 : ℝ} (hc : ∀ n, |r.val (out n)| ≤ V0)
    (hfit : 2 * (k.forward * X + k.back * V0 + 9 * η) ≤ Ω)
    (hpt : ∀ n ≥ 2, ∀ s, |k.b0 * r.val (x n)| + |k.b1 * delayed 1 (fun n => r.val (x n)) n| +
      |k.b2 * delayed 2 (fun n => r.val (x n)) n| +
      (|k.a1 * delayed 1 (fun n => r.val (out n)) n| + |k.a2 * delayed 2 (fun n => r.val (out n)) n|) = s →
      2 * (s + 9 * η) ≤ Ω →
      |r.val (out n) + k.a1 * delayed 1 (fun n => r.val (out n)) n + k.a2 * delayed 2 (fun n => r.val (out n)) n -
      (k.b0 * r.val (x n) + k.b1 * delayed 1 (fun n => r.val (x n)) n + k.b2 * delayed 2 (fun n => r.val (x n)) n)| ≤
        18 * (u * s + η)) {X1 : ℝ} (hX1 : CalmsTo (fun n => r.val (x n)) X1) {y : ℕ → ℝ}
    (hy : k.DiffEq (fun n => r.val (x n)) y) :
    CalmsTo (fun n => r.val (out n) - y n)
      (72 * poleGain p q * (1 + (k.back + k.forward) * poleGain p q) * (1 + k.back + k.forward) * (u * X1 + η)) := by
  have hu0 := r.u_nonneg
  have hη := r.η_nonneg
  have hV0 : 0 ≤ V0 := (abs_nonneg _).trans (hc 0)
  have ht := forward_calms (k := k) hX1
  have hf : CalmsTo (fun n => k.b0 * r.val (x n) + k.b1 * delayed 1 (fun n => r.val (x n)) n +
      k.b2 * delayed 2 (fun n => r.val (x n)) n) (k.forward * X1) :=
    ht.dom 0 fun n _ => (abs_add_three _ _ _).trans (le_abs_self _)
  have hres : ∀ n ≥ 2, |(fun n => r.val (out n)) n + k.a1 * delayed 1 (fun n => r.val (out n)) n +
      k.a2 * delayed 2 (fun n => r.val (out n)) n - (k.b0 * r.val (x n) + k.b1 * delayed 1 (fun n => r.val (x n)) n +
      k.b2 * delayed 2 (fun n => r.val (x n)) n)| ≤
      18 * (u * (|(fun n => |k.b0 * r.val (x n)| + |k.b1 * delayed 1 (fun n => r.val (x n)) n| +
        |k.b2 * delayed 2 (fun n => r.val (x n)) n|) n| + (|k.a1 * delayed 1 (fun n => r.val (out n)) n| +
        |k.a2 * delayed 2 (fun n => r.val (out n)) n|)) + η) := by
    intro n hn
    rw [abs_of_nonneg (a := (fun n => |k.b0 * r.val (x n)| + |k.b1 * delayed 1 (fun n => r.val (x n)) n| +
        |k.b2 * delayed 2 (fun n => r.val (x n)) n|) n) (by positivity)]
    refine hpt n hn _ rfl ?_
    have h1 := forward_le (k := k) (fun n => (hx n).2) n
    have h2 := back_le (k := k) (N := n) hV0 fun m _ => hc m
    linarith
  have hcore := core_fade hk hu0 hη hu hc hf ht hres
  exact (deviation_calms hk hv.a0 hy (residual_calms hu0 hη ht hcore hres)).mono
    (fade_arith1 (poleGain_pos hk.p_lt hk.q_lt) (Coeffs_back_nonneg k) (Coeffs_forward_nonneg k) hX1.nonneg hη hu0 hu)

/-- Direct Form II -/
theorem df2_fade (r : Rounds R u η Ω) (hF : ∀ fma ∈ F, r.Fused fma) (hv : r.Values b k) (hk : k.StablePoles p q)
    (hx : r.Input X x) (hu : 36 * u * (1 + (k.back + k.forward) * poleGain p q) ≤ 1) {w : ℕ → R} {W : ℝ}
    (hrun : ∀ n, Computes F (.sub (.sub (.var (x n)) (.prod b.a1 (delR 1 w n))) (.prod b.a2 (delR 2 w n))) (w n) ∧
      Computes F (.add (.add (.prod b.b0 (w n)) (.prod b.b1 (delR 1 w n))) (.prod b.b2 (delR 2 w n))) (out n))
    (hw : ∀ n, r.Fin (w n) ∧ |r.val (w n)| ≤ W) (hfit1 : 2 * (X + k.back * W + 9 * η) ≤ Ω)
    (hfit2 : 2 * (k.forward * W + 9 * η) ≤ Ω) {X1 : ℝ} (hX1 : CalmsTo (fun n => r.val (x n)) X1) {y : ℕ → ℝ}
    (hy : k.DiffEq (fun n => r.val (x n)) y) :
    CalmsTo (fun n => r.val (out n) - y n)
      (72 * poleGain p q * (1 + (k.back + k.forward) * poleGain p q) * (1 + k.back + k.forward) * (u * X1 + η)) := by
  have hu0 := r.u_nonneg
  have hη := r.η_nonneg
  have hW0 : 0 ≤ W := (abs_nonneg _).trans (hw 0).2
  have hK := poleGain_pos hk.p_lt hk.q_lt
  have hB := Coeffs_forward_nonneg k
  have hA := Coeffs_back_nonneg k
  have hu18 : 18 * u ≤ 1 := by
    have e2 : 0 ≤ u * ((k.back + k.forward) * poleGain p q) := by positivity
    linarith
  have hres : ∀ n ≥ 2, |(fun n => r.val (w n)) n + k.a1 * delayed 1 (fun n => r.val (w n)) n +
      k.a2 * delayed 2 (fun n => r.val (w n)) n - r.val (x n)| ≤
      18 * (u * (|r.val (x n)| + (|k.a1 * delayed 1 (fun n => r.val (w n)) n| +
        |k.a2 * delayed 2 (fun n => r.val (w n)) n|)) + η) := by
    intro n _
    generalize hs : |r.val (x n)| + (|k.a1 * delayed 1 (fun n => r.val (w n)) n| +
        |k.a2 * delayed 2 (fun n => r.val (w n)) n|) = s
    have hs0 : 0 ≤ s := by rw [← hs]; positivity
    obtain ⟨h1, h2⟩ := room_point hs0 hη hu18
    have b1 := (hx n).2
    have b2 := back_le (k := k) (N := n) hW0 fun m _ => (hw m).2
    have h3 := df2_local r hF (M := 2 * (s + 9 * η)) (by linarith) (by positivity) hv (hrun n).1 (hx n).1
      (fin_delR r (n := n) (z := w) (fun m _ => (hw m).1) le_rfl)
      (fin_delR r (n := n) (z := w) (j := 2) (fun m _ => (hw m).1) (by omega))
      (by rw [val_delR, val_delR]; linarith)
    rw [val_delR, val_delR] at h3
    have h0 : 0 ≤ u * s + η := by positivity
    refine le_of_eq_of_le (congrArg _ ?_) (h3.2.trans (by linarith))
    ring
  have hcore := core_fade hk hu0 hη hu (fun n => (hw n).2) hX1 hX1 hres
  have he1 := residual_calms hu0 hη hX1 hcore hres
  have he2 : CalmsTo (fun n => r.val (out n) - (k.b0 * r.val (w n) + k.b1 * delayed 1 (fun n => r.val (w n)) n +
      k.b2 * delayed 2 (fun n => r.val (w n)) n))
      (18 * (u * (k.forward * (2 * (poleGain p q * (2 * X1 + 18 * η)))) + η)) := by
    have h := (((forward_calms (k := k) hcore).smul u).add (CalmsTo.const η)).smul 18
    refine (h.mono (le_of_eq ?_)).dom 0 fun n _ => ?_
    · rw [abs_of_nonneg hu0, abs_of_nonneg hη, abs_of_nonneg (show (0 : ℝ) ≤ 18 by norm_num)]
    refine le_trans ?_ (le_abs_self _)
    generalize hs : |k.b0 * r.val (w n)| + |k.b1 * delayed 1 (fun n => r.val (w n)) n| +
        |k.b2 * delayed 2 (fun n => r.val (w n)) n| = s
    have hs0 : 0 ≤ s := by rw [← hs]; positivity
    obtain ⟨h1, h2⟩ := room_point hs0 hη hu18
    have b2 := forward_le (k := k) (fun n => (hw n).2) n
    have h3 := df2_out r hF (M := 2 * (s + 9 * η)) (by linarith) (by positivity) hv (hrun n).2 (hw n).1
      (fin_delR r (n := n) (z := w) (fun m _ => (hw m).1) le_rfl)
      (fin_delR r (n := n) (z := w) (j := 2) (fun m _ => (hw m).1) (by omega))
      (by rw [val_delR, val_delR]; linarith)
    rw [val_delR, val_delR] at h3
    have h0 : 0 ≤ u * s + η := by positivity
    exact h3.2.trans (by linarith)
  refine (deviation_calms hk hv.a0 hy (E := k.forward * (18 * (u * (X1 + k.back * (2 * (poleGain p q * (2 * X1 + 18 * η)))) + η)) +
      (1 + k.back) * (18 * (u * (k.forward * (2 * (poleGain p q * (2 * X1 + 18 * η)))) + η))) ?_).mono
    (fade_arith2 hK hA hB hX1.nonneg hη hu0 hu)
  refine (((forward_calms (k := k) he1).add (he2.abs.add (back_calms (k := k) he2))).mono (le_of_eq (by ring))).dom 0
    fun n _ => ?_
  have e := df2_residual k (fun n => r.val (x n)) (fun n => r.val (w n)) (fun n => r.val (out n)) n
  refine le_trans ?_ (le_abs_self _)
  have ew : (fun n => r.val (w n) - (r.val (x n) - k.a1 * delayed 1 (fun n => r.val (w n)) n -
      k.a2 * delayed 2 (fun n => r.val (w n)) n)) = (fun n => (fun n => r.val (w n)) n + k.a1 * delayed 1 (fun n => r.val (w n)) n +
      k.a2 * delayed 2 (fun n => r.val (w n)) n - r.val (x n)) := by
    funext n; ring
  simp only at e ew
  have ewn := congrFun ew n
  rw [ew, ewn] at e
  rw [e]
  exact (abs_add_le _ _).trans (add_le_add (abs_add_three _ _ _) ((abs_add_le _ _).trans (add_le_add le_rfl (abs_add_le _ _))))

/-- **One section**, any delay line. -/
theorem section_fade (S : Type → Type) [StateType S R] [D : DelayLine R S] (r : Rounds R u η Ω)
    (hF : ∀ fma ∈ F, r.Fused fma) (hrun : SecC F S b x out) (hv : r.Values b k)
    (hk : k.StablePoles p q) (hx : r.Input X x) (hM0 : 0 ≤ M) (hm : Room u η Ω k p q X M) (hM2 : 2 * M ≤ Ω)
    (hu : 36 * u * (1 + (k.back + k.forward) * poleGain p q) ≤ 1)
    {X1 : ℝ} (hX1 : CalmsTo (fun n => r.val (x n)) X1) {y : ℕ → ℝ}
    (hy : k.DiffEq (fun n => r.val (x n)) y) :
    CalmsTo (fun n => r.val (out n) - y n)
      (72 * poleGain p q * (1 + (k.back + k.forward) * poleGain p q) * (1 + k.back + k.forward) * (u * X1 + η)) := by
  have hδ : 0 ≤ u * M + η := add_nonneg (mul_nonneg r.u_nonneg hM0) r.η_nonneg
  have huM : 0 ≤ u * M := mul_nonneg r.u_nonneg hM0
  have hK := poleGain_pos hk.p_lt hk.q_lt
  have hB := Coeffs_forward_nonneg k
  have hA := Coeffs_back_nonneg k
  obtain ⟨b1, b2, b3⟩ := room_bounds hk ((abs_nonneg _).trans (hx 0).2) hδ hm
  have hle := hm.le
  have hg := StablePoles_gain hk
  have hu18 : 18 * u ≤ 1 := by
    have e2 : 0 ≤ u * ((k.back + k.forward) * poleGain p q) := by have := r.u_nonneg; positivity
    have := r.u_nonneg
    linarith
  cases D
  · have h := df1_run r hF hrun hv hg hx hM0 hle b1
    exact direct_fade r hv hk hx hu (abs_le_of_residual hk (fun n => (hx n).2) fun n => (h n).2) (by linarith)
      (fun n _ s hs hs2 => df1_point r hF hrun hv (fun n => (hx n).1) (fun n => (h n).1) hu18 n hs hs2) hX1 hy
  · obtain ⟨w, hw⟩ := hrun.df2
    have h := df2_inner r hF (fun n => (hw n).1) hv hg hx hM0 hle b2
    exact df2_fade r hF hv hk hx hu hw (fun n => (h n).1) (by linarith) (by linarith) hX1 hy
  · have h := tdf2_run r hF hrun hv hg hx hM0 hle b1
    exact direct_fade r hv hk hx hu (abs_le_of_residual hk (fun n => (hx n).2) fun n => (h n).2) (by linarith)
      (fun n hn s hs hs2 => tdf2_point r hF hrun hv (fun n => (hx n).1) (fun n => (h n).1) hu18 n hn hs hs2) hX1 hy

end sec

/-! ## Chains -/

theorem precise_half {k : Coeffs} {u : ℝ} (hu0 : 0 ≤ u) (h : k.Precise (2 * u)) : k.Precise u := by
  intro p q hk
  have h1 := h p q hk
  have hK := poleGain_pos hk.p_lt hk.q_lt
  have : 0 ≤ u * (1 + (k.back + k.forward) * poleGain p q) := by
    have := Coeffs_back_nonneg k
    have := Coeffs_forward_nonneg k
    positivity
  linarith

/-- **Chains of stable sections**: in the long run the error depends on the present input only. -/
theorem chain_fade {ks : List Coeffs} (hst : ∀ k ∈ ks, k.a0 = 1 ∧ k.Stable) :
    ∃ C : ℝ, 1 ≤ C ∧ ∀ (R : Type) [FArith R] (S : Type → Type) [StateType S R] [DelayLine R S] (u η Ω : ℝ)
      (r : Rounds R u η Ω), (∀ k ∈ ks, k.Precise (2 * u)) → ∀ bs, List.Forall₂ r.Values bs ks → ∀ X x, r.Input X x →
      C * (X + η) ≤ Ω → ∀ F, (∀ fma ∈ F, r.Fused fma) → ∀ out, ChainC F S bs x out →
      ∀ X1, CalmsTo (fun n => r.val (x n)) X1 →
      ∀ y, DiffChain ks (fun n => r.val (x n)) y → CalmsTo (fun n => r.val (out n) - y n) (C * (u * X1 + η)) := by
  induction ks with
  | nil =>
    refine ⟨1, le_rfl, ?_⟩
    intro R _ S _ _ u η Ω r hu bs hbs X x hx hΩ F hF out hrun X1 hX1 y hy
    cases hbs
    cases hy
    obtain rfl := hrun
    simp only [sub_self]
    have := mul_nonneg r.u_nonneg hX1.nonneg
    have := r.η_nonneg
    exact (CalmsTo.const 0).mono (by rw [abs_zero]; linarith)
  | cons k ks ih =>
    obtain ⟨C', hC'1, hC'⟩ := ih fun k hk => hst k (List.mem_cons_of_mem _ hk)
    obtain ⟨G, hG0, hG⟩ := chain_calms_sub fun k hk => hst k (List.mem_cons_of_mem _ hk)
    obtain ⟨h0, hs⟩ := hst k (List.mem_cons_self ..)
    obtain ⟨p, q, hk⟩ := Coeffs_exists_poles h0 hs
    have hK := poleGain_pos hk.p_lt hk.q_lt
    have hB := Coeffs_forward_nonneg k
    have hA := Coeffs_back_nonneg k
    generalize hLdef : 1 + (k.back + k.forward) * poleGain p q = L
    have hL : 1 ≤ L := by rw [← hLdef]; have : 0 ≤ (k.back + k.forward) * poleGain p q := by positivity
                          linarith
    generalize hcdef : 20 * L * (1 + k.forward) = c
    have hc : 1 ≤ c := by rw [← hcdef]; nlinarith
    generalize hC0def : 9 * poleGain p q * (1 + k.back + k.forward) * c = C0
    have hC0 : 0 ≤ C0 := by rw [← hC0def]; positivity
    generalize hC1def : 72 * poleGain p q * L * (1 + k.back + k.forward) = C1
    have hC1 : 0 ≤ C1 := by rw [← hC1def]; positivity
    generalize hHdef : poleGain p q * k.forward = H
    have hH : 0 ≤ H := by rw [← hHdef]; positivity
    refine ⟨2 * c + C' * (H + C0 + 1) + C' * (H + C1 + 1) + G * C1, ?_, ?_⟩
    · have : 0 ≤ C' * (H + C0 + 1) := by positivity
      have : 0 ≤ C' * (H + C1 + 1) := by positivity
      have : 0 ≤ G * C1 := by positivity
      linarith
    intro R _ S _ _ u η Ω r hu bs hbs X x hx hΩ F hF out hrun X1 hX1 z hz
    have hu0 := r.u_nonneg
    have hη := r.η_nonneg
    have hu1 : ∀ k ∈ ks, k.Precise (2 * u) := fun k hk => hu k (List.mem_cons_of_mem _ hk)
    have hu36 : 36 * u * (1 + (k.back + k.forward) * poleGain p q) ≤ 1 := by
      have := hu k List.mem_cons_self p q hk
      linarith
    have hu3 : u * (18 * L) ≤ 1 := by
      have : 0 ≤ u * L := by positivity
      rw [hLdef] at hu36
      linarith
    have hu2 : u ≤ 1 := by
      have : u * (18 * 1) ≤ u * (18 * L) := mul_le_mul_of_nonneg_left (by linarith) r.u_nonneg
      linarith
    have hX : 0 ≤ X := (abs_nonneg _).trans (hx 0).2
    have hX1' := hX1.nonneg
    rcases hbs with _ | ⟨hb, hbs⟩
    rename_i b bs
    rcases hz with _ | ⟨hy, hz⟩
    rename_i y
    generalize hMdef : 2 * L * ((1 + k.forward) * X + 9 * η) = M
    have hM0 : 0 ≤ M := by rw [← hMdef]; positivity
    have hMle : M ≤ c * (X + η) := by rw [← hMdef, ← hcdef]; exact round_arith1 hL hB hX hη
    have hXη : 0 ≤ X + η := by positivity
    have hCpos0 : 0 ≤ C' * (H + C0 + 1) := by positivity
    have hCpos1 : 0 ≤ C' * (H + C1 + 1) := by positivity
    have hCpos2 : 0 ≤ G * C1 := by positivity
    have hM2 : 2 * M ≤ Ω := by
      refine (mul_le_mul_of_nonneg_left hMle zero_le_two).trans (le_trans ?_ hΩ)
      rw [← mul_assoc]
      exact mul_le_mul_of_nonneg_right (by linarith) hXη
    have hroom : Room u η Ω k p q X M := by
      constructor
      · linarith
      · rw [hLdef]; exact round_arith2 hM0 hu3 hMdef
    have hδ : u * M + η ≤ c * (u * X + η) := by
      rw [← hMdef, ← hcdef]; exact round_arith3 hL hB hX hη hu0 hu3
    obtain ⟨x1, hrun1, hrun2⟩ := hrun
    have hsec := section_within S r hF hrun1 hb hk hx hM0 hroom hy
    have hD0 : 9 * poleGain p q * (1 + k.back + k.forward) * (u * M + η) ≤ C0 * (u * X + η) := by
      rw [← hC0def, mul_assoc (9 * poleGain p q * (1 + k.back + k.forward)) c]
      exact mul_le_mul_of_nonneg_left hδ (by positivity)
    have hyb := diffEq_bound h0 hk hy (fun n => (hx n).2)
    have hXin : r.Input (H * X + C0 * (u * X + η)) x1 := by
      intro n
      refine ⟨(hsec n).1, ?_⟩
      have a := abs_le.1 ((hsec n).2.trans hD0)
      have b := hyb n
      rw [← mul_assoc, hHdef] at b
      have b := abs_le.1 b
      exact abs_le.2 ⟨by linarith, by linarith⟩
    have hXle := round_arith4 (X := X) hH hC0 hX hη hu2
    have hfade := section_fade S r hF hrun1 hb hk hx hM0 hroom hM2 hu36 hX1 hy
    rw [hLdef, hC1def] at hfade
    have hyc := diffEq_calms h0 hk hy hX1
    rw [← mul_assoc, hHdef] at hyc
    have hx1c : CalmsTo (fun n => r.val (x1 n)) (H * X1 + C1 * (u * X1 + η)) := by
      have := hyc.add hfade
      simpa only [add_sub_cancel] using this
    have hchain := hC' R S u η Ω r hu1 bs hbs _ x1 hXin (by
      refine (mul_le_mul_of_nonneg_left hXle (by linarith)).trans (le_trans ?_ hΩ)
      rw [← mul_assoc]
      exact mul_le_mul_of_nonneg_right (by linarith) hXη) F hF _ hrun2 _ hx1c _ (chain_diffChain ks (fun n => r.val (x1 n)))
    have g3 := hG _ _ _ _ _ (chain_diffChain ks (fun n => r.val (x1 n))) hz hfade
    have g := hchain.add g3
    simp only [sub_add_sub_cancel] at g
    refine g.mono ?_
    have g4 : C' * (u * (H * X1 + C1 * (u * X1 + η)) + η) ≤ C' * (H + C1 + 1) * (u * X1 + η) := by
      rw [mul_assoc]
      refine mul_le_mul_of_nonneg_left ?_ (by linarith)
      exact round_arith5 hH hC1 hX1' hη hu0 hu2
    have g5 : 0 ≤ c * (u * X1 + η) := by positivity
    have g6 : 0 ≤ C' * (H + C0 + 1) * (u * X1 + η) := by positivity
    linarith

/-- the exact response of a chain -/
theorem chain_calms {ks : List Coeffs} (hst : ∀ k ∈ ks, k.a0 = 1 ∧ k.Stable) :
    ∃ G : ℝ, 0 ≤ G ∧ ∀ x y X, DiffChain ks x y → CalmsTo x X → CalmsTo y (G * X) := by
  induction ks with
  | nil =>
    refine ⟨1, zero_le_one, ?_⟩
    intro x y X h hX
    cases h
    rw [one_mul]; exact hX
  | cons k ks ih =>
    obtain ⟨G, hG0, hG⟩ := ih fun k hk => hst k (List.mem_cons_of_mem _ hk)
    obtain ⟨h0, hs⟩ := hst k (List.mem_cons_self ..)
    obtain ⟨p, q, hk⟩ := Coeffs_exists_poles h0 hs
    have hK := poleGain_pos hk.p_lt hk.q_lt
    have hB := Coeffs_forward_nonneg k
    refine ⟨G * (poleGain p q * k.forward), by positivity, ?_⟩
    intro x y X h hX
    rcases h with _ | ⟨h1, h2⟩
    refine (hG _ _ _ h2 (diffEq_calms h0 hk h1 hX)).mono (le_of_eq ?_)
    ring

/-- Everything about a chain with one constant. -/
theorem chain_fade_all {ks : List Coeffs} (hst : ∀ k ∈ ks, k.a0 = 1 ∧ k.Stable) :
    ∃ C : ℝ, 0 < C ∧ ∀ (R : Type) [FArith R] (S : Type → Type) [StateType S R] [DelayLine R S] (u η Ω : ℝ)
      (r : Rounds R u η Ω), (∀ k ∈ ks, k.Precise (2 * u)) → ∀ bs, List.Forall₂ r.Values bs ks → ∀ X x, r.Input X x →
      C * (X + η) ≤ Ω → ∀ F, (∀ fma ∈ F, r.Fused fma) → ∀ out, ChainC F S bs x out →
      ∀ X1, CalmsTo (fun n => r.val (x n)) X1 →
      (∀ n, r.Fin (out n)) ∧ CalmsTo (fun n => r.val (out n)) (C * (X1 + η)) ∧
      ∀ y, DiffChain ks (fun n => r.val (x n)) y → CalmsTo (fun n => r.val (out n) - y n) (C * (u * X1 + η)) := by
  obtain ⟨C1, hC1, h1⟩ := chain_within hst
  obtain ⟨C2, hC2, h2⟩ := chain_fade hst
  obtain ⟨G, hG0, hG⟩ := chain_calms hst
  refine ⟨C1 + C2 + G, by linarith, ?_⟩
  intro R _ S _ _ u η Ω r hu bs hbs X x hx hΩ F hF out hrun X1 hX1
  have hX : 0 ≤ X := (abs_nonneg _).trans (hx 0).2
  have hη := r.η_nonneg
  have hu0 := r.u_nonneg
  have hX1' := hX1.nonneg
  have hXη : 0 ≤ X + η := by positivity
  have e1 : C1 * (X + η) ≤ Ω := le_trans (mul_le_mul_of_nonneg_right (by linarith) hXη) hΩ
  have e2 : C2 * (X + η) ≤ Ω := le_trans (mul_le_mul_of_nonneg_right (by linarith) hXη) hΩ
  have hd := chain_diffChain ks fun n => r.val (x n)
  have hc := h2 R S u η Ω r hu bs hbs X x hx e2 F hF out hrun X1 hX1
  refine ⟨fun n => (h1 R S u η Ω r (fun k hk => precise_half hu0 (hu k hk)) bs hbs X x hx e1 F hF out hrun _ hd n).1, ?_,
    fun y hy => (hc y hy).mono (mul_le_mul_of_nonneg_right (by linarith) (by positivity))⟩
  rcases ks with _ | ⟨k, ks⟩
  · cases hbs
    obtain rfl := hrun
    exact hX1.mono (by nlinarith)
  · have h3 := (hc _ hd).add (hG _ _ _ hd hX1)
    simp only [sub_add_cancel] at h3
    refine h3.mono ?_
    have hu1 : u ≤ 1 := by
      obtain ⟨p, q, hk⟩ := Coeffs_exists_poles (hst k (List.mem_cons_self ..)).1 (hst k (List.mem_cons_self ..)).2
      have := hu k List.mem_cons_self p q hk
      have hK := poleGain_pos hk.p_lt hk.q_lt
      have : 0 ≤ u * ((k.back + k.forward) * poleGain p q) := by
        have := Coeffs_back_nonneg k
        have := Coeffs_forward_nonneg k
        positivity
      linarith
    have h4 := mul_le_mul_of_nonneg_left (mul_le_mul_of_nonneg_right hu1 hX1') (show 0 ≤ C2 by linarith)
    have h5 : 0 ≤ C1 * (X1 + η) := by positivity
    have h6 : 0 ≤ G * η := by positivity
    linarith

end Iir
