import Verif.Lemmas.Energy

/-! # Chains with the same frequency response return the same samples

A difference of two outputs whose spectra agree has no energy. -/

namespace Iir
open Spec

theorem chainOut_append (bs bs' : List (Biquad ℝ)) (x : ℕ → ℝ) :
    chainOut (bs ++ bs') (rest (bs ++ bs').length) x =
      chainOut bs' (rest bs'.length) (chainOut bs (rest bs.length) x) := by
  induction bs generalizing x with
  | nil => simp [rest, chainOut_nil]
  | cons b bs ih =>
    show chainOut (b :: (bs ++ bs')) ((0, 0) :: rest (bs ++ bs').length) x =
      chainOut bs' (rest bs'.length) (chainOut (b :: bs) ((0, 0) :: rest bs.length) x)
    rw [chainOut_cons, ih, chainOut_cons]

/-- spectrum of the output for a signal that ends -/
theorem chain_spectrum {ks : List Coeffs} (hne : ∀ k ∈ ks, k.a0 ≠ 0) (hst : ∀ k ∈ ks, k.Stable) {x : ℕ → ℝ} {N : ℕ}
    (h : ∀ n, N ≤ n → x n = 0) :
    Summable (fun n => |chainOut (ks.map Coeffs.norm) (rest ks.length) x n|) ∧ ∀ fr,
      zT (chainOut (ks.map Coeffs.norm) (rest ks.length) x) (circle fr)⁻¹ =
        ((ks.map Coeffs.norm).map (secH · (circle fr))).prod * zT x (circle fr)⁻¹ := by
  obtain ⟨ρ, h0, h1, hp⟩ := exists_radius hne hst
  obtain ⟨M, hM⟩ := ends_geometric h h0
  obtain ⟨B, hB⟩ := chain_geometric h0 hne hp (rest ks.length) (by simp [rest]) hM
  exact ⟨summable_of_geometric h0 h1 hB, fun fr => zT_chain hne h0 h1 hp hM (norm_circle fr)⟩

theorem norm_circle_inv (fr : ℝ) : ‖(circle fr)⁻¹‖ = 1 := by rw [norm_inv, norm_circle, inv_one]

/-- absolutely summable signals with the same spectrum are equal -/
theorem eq_of_spectrum {y y' : ℕ → ℝ} (hy : Summable fun n => |y n|) (hy' : Summable fun n => |y' n|)
    (h : ∀ fr, 0 < fr → fr < 1 / 2 → zT y (circle fr)⁻¹ = zT y' (circle fr)⁻¹) : y = y' := by
  have hd : Summable fun n => |y n - y' n| :=
    Summable.of_nonneg_of_le (fun n => abs_nonneg _) (fun n => abs_sub _ _) (hy.add hy')
  have he := energy hd
  rw [intervalIntegral.integral_congr_Ioo_of_le (g := fun _ => 0) (by norm_num) (fun fr hfr => ?_),
    intervalIntegral.integral_zero, mul_zero] at he
  · funext n
    have h0 := (hasSum_zero_iff_of_nonneg fun n => sq_nonneg _).1 he
    have := congrFun h0 n
    exact sub_eq_zero.1 (pow_eq_zero_iff two_ne_zero |>.1 this)
  · have e : zT (fun n => y n - y' n) (circle fr)⁻¹ = 0 := by
      rw [zT, ← sub_eq_zero.2 (h fr hfr.1 hfr.2), zT, zT,
        ← (zT_summable hy (norm_circle_inv fr)).tsum_sub (zT_summable hy' (norm_circle_inv fr))]
      exact tsum_congr fun n => by push_cast; ring
    show power _ fr = 0
    rw [power, e]; simp

/-- **Identification**: equal products of responses below half the sampling rate, equal outputs. -/
theorem chain_identify {ks ks' : List Coeffs} (hne : ∀ k ∈ ks, k.a0 ≠ 0) (hst : ∀ k ∈ ks, k.Stable)
    (hne' : ∀ k ∈ ks', k.a0 ≠ 0) (hst' : ∀ k ∈ ks', k.Stable)
    (h : ∀ fr, 0 < fr → fr < 1 / 2 → ((ks.map Coeffs.norm).map (secH · (circle fr))).prod =
      ((ks'.map Coeffs.norm).map (secH · (circle fr))).prod) (x : ℕ → ℝ) :
    chainOut (ks.map Coeffs.norm) (rest ks.length) x = chainOut (ks'.map Coeffs.norm) (rest ks'.length) x := by
  funext n
  set x' : ℕ → ℝ := fun m => if m < n + 1 then x m else 0 with hx'
  have hend : ∀ m, n + 1 ≤ m → x' m = 0 := fun m hm => if_neg (not_lt.2 hm)
  have hag : ∀ m ≤ n, x m = x' m := fun m hm => (if_pos (Nat.lt_succ_of_le hm)).symm
  obtain ⟨hs, hz⟩ := chain_spectrum hne hst hend
  obtain ⟨hs', hz'⟩ := chain_spectrum hne' hst' hend
  have e := eq_of_spectrum hs hs' fun fr h0 h1 => by rw [hz, hz', h fr h0 h1]
  rw [chainOut, chainOut, outAt_causal _ _ hag, outAt_causal _ _ hag]
  exact congrFun e n

/-- **Identification** of filters in parallel. -/
theorem chain_parallel {ks ks' ks'' : List Coeffs} (hne : ∀ k ∈ ks, k.a0 ≠ 0) (hst : ∀ k ∈ ks, k.Stable)
    (hne' : ∀ k ∈ ks', k.a0 ≠ 0) (hst' : ∀ k ∈ ks', k.Stable) (hne'' : ∀ k ∈ ks'', k.a0 ≠ 0)
    (hst'' : ∀ k ∈ ks'', k.Stable) {c c' : ℝ}
    (h : ∀ fr, 0 < fr → fr < 1 / 2 → c * ((ks.map Coeffs.norm).map (secH · (circle fr))).prod +
      c' * ((ks'.map Coeffs.norm).map (secH · (circle fr))).prod =
      ((ks''.map Coeffs.norm).map (secH · (circle fr))).prod) (x : ℕ → ℝ) (n : ℕ) :
    chainOut (ks''.map Coeffs.norm) (rest ks''.length) x n =
      c * chainOut (ks.map Coeffs.norm) (rest ks.length) x n +
        c' * chainOut (ks'.map Coeffs.norm) (rest ks'.length) x n := by
  set x' : ℕ → ℝ := fun m => if m < n + 1 then x m else 0 with hx'
  have hend : ∀ m, n + 1 ≤ m → x' m = 0 := fun m hm => if_neg (not_lt.2 hm)
  have hag : ∀ m ≤ n, x m = x' m := fun m hm => (if_pos (Nat.lt_succ_of_le hm)).symm
  obtain ⟨hs, hz⟩ := chain_spectrum hne hst hend
  obtain ⟨hs', hz'⟩ := chain_spectrum hne' hst' hend
  obtain ⟨hs'', hz''⟩ := chain_spectrum hne'' hst'' hend
  have hsum : Summable fun n => |c * chainOut (ks.map Coeffs.norm) (rest ks.length) x' n +
      c' * chainOut (ks'.map Coeffs.norm) (rest ks'.length) x' n| :=
    Summable.of_nonneg_of_le (fun n => abs_nonneg _) (fun n => (abs_add_le _ _).trans_eq (by rw [abs_mul, abs_mul]))
      ((hs.mul_left |c|).add (hs'.mul_left |c'|))
  have e := eq_of_spectrum hs'' hsum fun fr h0 h1 => by
    rw [hz'', ← h fr h0 h1, add_mul, mul_assoc, mul_assoc, ← hz, ← hz']
    rw [zT, zT, zT, ← tsum_mul_left, ← tsum_mul_left,
      ← ((zT_summable hs (norm_circle_inv fr)).mul_left (c : ℂ)).tsum_add
        ((zT_summable hs' (norm_circle_inv fr)).mul_left (c' : ℂ))]
    exact tsum_congr fun n => by push_cast; ring
  rw [chainOut, chainOut, chainOut, outAt_causal _ _ hag, outAt_causal _ _ hag, outAt_causal _ _ hag]
  exact congrFun e n

/-- the other way round: outputs that agree for the impulse come from the same response -/
theorem chain_identified {ks ks' : List Coeffs} (hne : ∀ k ∈ ks, k.a0 ≠ 0) (hst : ∀ k ∈ ks, k.Stable)
    (hne' : ∀ k ∈ ks', k.a0 ≠ 0) (hst' : ∀ k ∈ ks', k.Stable)
    (h : chainOut (ks.map Coeffs.norm) (rest ks.length) impulse =
      chainOut (ks'.map Coeffs.norm) (rest ks'.length) impulse) (fr : ℝ) :
    ((ks.map Coeffs.norm).map (secH · (circle fr))).prod = ((ks'.map Coeffs.norm).map (secH · (circle fr))).prod := by
  have hend : ∀ m, 1 ≤ m → impulse m = 0 := fun n hn => by simp [impulse]; omega
  obtain ⟨-, hz⟩ := chain_spectrum hne hst hend
  obtain ⟨-, hz'⟩ := chain_spectrum hne' hst' hend
  have hi : zT impulse (circle fr)⁻¹ = 1 := by
    rw [zT, tsum_eq_single 0 fun n hn => by simp [impulse, hn]]
    simp [impulse]
  have e := hz fr
  rw [h, hz' fr, hi, mul_one, mul_one] at e
  exact e.symm

end Iir
