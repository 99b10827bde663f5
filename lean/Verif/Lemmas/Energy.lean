import Mathlib.Analysis.Fourier.AddCircle
import Mathlib.Analysis.Normed.Lp.lpSpace
import Verif.Props.Forget
import Verif.Spec.Growth

/-! # Energy of the signals around a chain of sections (Parseval) -/

namespace Iir

open Spec Filter Topology

noncomputable section

/-- The `z` transform of an absolutely summable signal, as a function of `z⁻¹`. -/
def zT (y : ℕ → ℝ) (w : ℂ) : ℂ := ∑' n, (y n : ℂ) * w ^ n

theorem zT_summable {y : ℕ → ℝ} (hy : Summable fun n => |y n|) {w : ℂ} (hw : ‖w‖ = 1) :
    Summable fun n => (y n : ℂ) * w ^ n := by
  refine Summable.of_norm ?_
  simpa [hw] using hy

/-! ## Parseval -/

local instance : Fact ((0 : ℝ) < 1) := ⟨one_pos⟩

abbrev Circ := AddCircle (1 : ℝ)

def zF (y : ℕ → ℝ) : C(Circ, ℂ) := ∑' n : ℕ, (y n : ℂ) • fourier (T := 1) (n : ℤ)

theorem zF_hasSum {y : ℕ → ℝ} (hy : Summable fun n => |y n|) :
    HasSum (fun n : ℕ => (y n : ℂ) • fourier (T := 1) (n : ℤ)) (zF y) := by
  refine Summable.hasSum (Summable.of_norm ?_)
  simpa [norm_smul, fourier_norm] using hy

theorem zF_apply {y : ℕ → ℝ} (hy : Summable fun n => |y n|) (t : Circ) :
    zF y t = zT y (fourier 1 t) := by
  have h := (zF_hasSum hy).map (ContinuousMap.evalCLM (M := ℂ) ℂ t : C(Circ, ℂ) →L[ℂ] ℂ) (ContinuousLinearMap.continuous _)
  have := h.tsum_eq
  simp only [ContinuousMap.evalCLM_apply] at this
  rw [← this, zT]
  refine tsum_congr fun n => ?_
  have e : fourier (T := 1) (n : ℤ) t = fourier 1 t ^ n := by
    rw [fourier_apply, fourier_apply, natCast_zsmul, one_zsmul, AddCircle.toCircle_nsmul, Circle.coe_pow]
  simp [e]

theorem parseval {y : ℕ → ℝ} (hy : Summable fun n => |y n|) :
    HasSum (fun n => y n ^ 2) (‖ContinuousMap.toLp (E := ℂ) 2 (AddCircle.haarAddCircle (T := 1)) ℂ (zF y)‖ ^ 2) := by
  set L := ContinuousMap.toLp (E := ℂ) 2 (AddCircle.haarAddCircle (T := 1)) ℂ
  have h := (zF_hasSum hy).map L L.continuous
  have hs : Summable fun n => y n ^ 2 := by
    have := hy.of_norm_bounded_eventually_nat (f := fun n => y n ^ 2) (g := fun n => |y n|) ?_
    · exact this
    have h0 := hy.tendsto_atTop_zero
    filter_upwards [h0.eventually (gt_mem_nhds one_pos)] with n hn
    rw [Real.norm_eq_abs, abs_pow, pow_two]
    nlinarith [abs_nonneg (y n)]
  have h1 := h.tendsto_sum_nat
  have h2 := (h1.norm).pow 2
  rw [hs.hasSum_iff_tendsto_nat]
  refine h2.congr fun N => ?_
  have ho := (orthonormal_fourier (T := 1)).comp (fun n : ℕ => (n : ℤ)) Nat.cast_injective
  have : ‖∑ i ∈ Finset.range N, (y i : ℂ) • fourierLp (T := 1) 2 (i : ℤ)‖ ^ 2 = ∑ i ∈ Finset.range N, y i ^ 2 := by
    have h3 := ho.inner_sum (fun n => (y n : ℂ)) (fun n => (y n : ℂ)) (Finset.range N)
    have h4 := inner_self_eq_norm_sq_to_K (𝕜 := ℂ) (∑ i ∈ Finset.range N, (y i : ℂ) • fourierLp (T := 1) 2 (i : ℤ))
    simp only [Function.comp_def] at h3
    rw [h3] at h4
    have h5 : ((∑ i ∈ Finset.range N, y i ^ 2 : ℝ) : ℂ) = ((‖∑ i ∈ Finset.range N, (y i : ℂ) • fourierLp (T := 1) 2 (i : ℤ)‖ ^ 2 : ℝ) : ℂ) := by
      push_cast
      refine Eq.trans (Finset.sum_congr rfl fun i _ => ?_) h4
      simp [pow_two]
    exact_mod_cast h5.symm
  rw [← this]
  congr 2

theorem conj_zT {y : ℕ → ℝ} (w : ℂ) : starRingEnd ℂ (zT y w) = zT y (starRingEnd ℂ w) := by
  rw [zT, Complex.conj_tsum]
  simp [zT]

theorem conj_circle (a : ℝ) : starRingEnd ℂ (circle a) = (circle a)⁻¹ := by
  rw [Complex.inv_def, Complex.normSq_eq_norm_sq, norm_circle]; simp

theorem circle_neg (a : ℝ) : circle (-a) = (circle a)⁻¹ := by
  rw [circle, circle, ← Complex.exp_neg]; push_cast; ring_nf

theorem norm_zT_inv (y : ℕ → ℝ) (a : ℝ) : ‖zT y (circle a)⁻¹‖ = ‖zT y (circle a)‖ := by
  rw [← conj_circle, ← conj_zT, Complex.norm_conj]

theorem fourier_circle (a : ℝ) : fourier (T := 1) 1 (a : Circ) = circle a := by
  rw [fourier_coe_apply, circle]; push_cast; ring_nf

/-- The power spectrum of the signal. -/
def power (y : ℕ → ℝ) (fr : ℝ) : ℝ := ‖zT y (circle fr)⁻¹‖ ^ 2

theorem power_eq {y : ℕ → ℝ} (hy : Summable fun n => |y n|) (fr : ℝ) : power y fr = ‖zF y (fr : Circ)‖ ^ 2 := by
  rw [power, norm_zT_inv, zF_apply hy, fourier_circle]

theorem power_continuous {y : ℕ → ℝ} (hy : Summable fun n => |y n|) : Continuous (power y) := by
  rw [funext (power_eq hy)]
  exact (((zF y).continuous.comp (AddCircle.continuous_mk' 1)).norm).pow 2

theorem power_neg (y : ℕ → ℝ) (fr : ℝ) : power y (-fr) = power y fr := by
  rw [power, circle_neg, inv_inv, power, norm_zT_inv]

theorem norm_toLp (F : C(Circ, ℂ)) :
    ‖ContinuousMap.toLp (E := ℂ) 2 (AddCircle.haarAddCircle (T := 1)) ℂ F‖ ^ 2 =
      ∫ t, ‖F t‖ ^ 2 ∂(AddCircle.haarAddCircle (T := 1)) := by
  set f := ContinuousMap.toLp (E := ℂ) 2 (AddCircle.haarAddCircle (T := 1)) ℂ F with hf
  have H₃ := congr_arg RCLike.re (@MeasureTheory.L2.inner_def Circ ℂ ℂ _ _ _ _ _ f f)
  rw [← integral_re] at H₃
  · simp only [← norm_sq_eq_re_inner] at H₃
    rw [H₃]
    refine MeasureTheory.integral_congr_ae ?_
    filter_upwards [ContinuousMap.coeFn_toLp (E := ℂ) (𝕜 := ℂ) (p := 2) (AddCircle.haarAddCircle (T := 1)) F] with t h
    rw [hf, h]
  · exact MeasureTheory.L2.integrable_inner f f

/-- The energy of a signal is the mean of its power spectrum. -/
theorem energy {y : ℕ → ℝ} (hy : Summable fun n => |y n|) :
    HasSum (fun n => y n ^ 2) (2 * ∫ fr in (0 : ℝ)..(1 / 2), power y fr) := by
  have h := parseval hy
  rw [norm_toLp, AddCircle.integral_haarAddCircle, inv_one, one_smul,
    ← AddCircle.intervalIntegral_preimage 1 (-(1 / 2))] at h
  have e : (fun a : ℝ => ‖zF y (a : Circ)‖ ^ 2) = power y := funext fun a => (power_eq hy a).symm
  rw [e, show (-(1 / 2) + 1 : ℝ) = 1 / 2 by norm_num] at h
  have hc := power_continuous hy
  rw [← intervalIntegral.integral_add_adjacent_intervals (b := 0) (hc.intervalIntegrable _ _)
    (hc.intervalIntegrable _ _)] at h
  have e2 : ∫ fr in (-(1 / 2) : ℝ)..0, power y fr = ∫ fr in (0 : ℝ)..(1 / 2), power y fr := by
    have := intervalIntegral.integral_comp_neg (f := power y) (a := 0) (b := 1 / 2)
    rw [neg_zero] at this
    rw [← this]
    simp only [power_neg]
  rwa [e2, ← two_mul] at h

/-! ## The transfer function on absolutely summable signals -/

theorem zT_shift {y : ℕ → ℝ} (hy : Summable fun n => |y n|) {w : ℂ} (hw : ‖w‖ = 1) (k : ℕ) :
    HasSum (fun n => (delayed k y n : ℂ) * w ^ n) (w ^ k * zT y w) := by
  have h := (zT_summable hy hw).hasSum.mul_left (w ^ k)
  have h' : HasSum (fun n => (delayed k y (n + k) : ℂ) * w ^ (n + k)) (w ^ k * zT y w) := by
    refine h.congr_fun fun n => ?_
    simp [delayed, pow_add]; ring
  rw [hasSum_nat_add_iff (f := fun n => (delayed k y n : ℂ) * w ^ n)] at h'
  have e : ∑ i ∈ Finset.range k, (delayed k y i : ℂ) * w ^ i = 0 := by
    refine Finset.sum_eq_zero fun i hi => ?_
    simp [delayed, Finset.mem_range.1 hi]
  rwa [e, add_zero] at h'

theorem zT_sec {b : Biquad ℝ} {x : ℕ → ℝ} (hx : Summable fun n => |x n|)
    (hy : Summable fun n => |secOut b (0, 0) x n|) {w : ℂ} (hw : ‖w‖ = 1) :
    (1 + b.a1 * w + b.a2 * w ^ 2) * zT (secOut b (0, 0) x) w = (b.b0 + b.b1 * w + b.b2 * w ^ 2) * zT x w := by
  have h0 := zT_shift hx hw 0
  have h1 := zT_shift hx hw 1
  have h2 := zT_shift hx hw 2
  have g0 := zT_shift hy hw 0
  have g1 := zT_shift hy hw 1
  have g2 := zT_shift hy hw 2
  have L := (g0.add (g1.mul_left (b.a1 : ℂ))).add (g2.mul_left (b.a2 : ℂ))
  have R := ((h0.mul_left (b.b0 : ℂ)).add (h1.mul_left (b.b1 : ℂ))).add (h2.mul_left (b.b2 : ℂ))
  have e := L.unique (R.congr_fun fun n => ?_)
  · simp only [pow_zero, one_mul, pow_one] at e
    linear_combination e
  · have := congrArg (fun t : ℝ => (t : ℂ)) (secOut_diffEq b x n)
    simp only [delayed, Nat.zero_le, if_true, Nat.sub_zero]
    simp only [delayed] at this
    push_cast at this ⊢
    linear_combination (w ^ n) * this

theorem summable_of_geometric {y : ℕ → ℝ} {B ρ : ℝ} (h0 : 0 < ρ) (h1 : ρ < 1) (h : ∀ n, |y n| ≤ B * ρ ^ n) :
    Summable fun n => |y n| :=
  Summable.of_nonneg_of_le (fun _ => abs_nonneg _) h ((summable_geometric_of_lt_one h0.le h1).mul_left B)

/-- From rest, a chain of stable sections multiplies the transform of a signal that dies out by the product of the
transfer functions. -/
theorem zT_chain {ks : List Coeffs} (hne : ∀ k ∈ ks, k.a0 ≠ 0) {ρ : ℝ} (h0 : 0 < ρ) (h1 : ρ < 1)
    (hp : PolesWithin ks ρ) {x : ℕ → ℝ} {M : ℝ} (hx : ∀ n, |x n| ≤ M * ρ ^ n) {z : ℂ} (hz : ‖z‖ = 1) :
    zT (chainOut (ks.map Coeffs.norm) (rest ks.length) x) z⁻¹ =
      ((ks.map Coeffs.norm).map (secH · z)).prod * zT x z⁻¹ := by
  induction ks generalizing x M with
  | nil => simp [rest, chainOut_nil]
  | cons k ks ih =>
    have hk : ∀ k' ∈ [k], k'.a0 ≠ 0 := by simpa using hne k List.mem_cons_self
    have hpk : PolesWithin [k] ρ := by
      intro k' hk'
      rw [List.mem_singleton.1 hk']
      exact hp k List.mem_cons_self
    obtain ⟨B, hB⟩ := chain_geometric h0 hk hpk [(0, 0)] rfl hx
    have e1 : chainOut ([k].map Coeffs.norm) [(0, 0)] x = secOut k.norm (0, 0) x := by
      rw [List.map_cons, List.map_nil, chainOut_cons, chainOut_nil]
    rw [e1] at hB
    have e2 : rest (k :: ks).length = (0, 0) :: rest ks.length := rfl
    rw [e2, List.map_cons, chainOut_cons, ih (fun k hk => hne k (List.mem_cons_of_mem _ hk))
      (fun k hk => hp k (List.mem_cons_of_mem _ hk)) hB]
    have hw : ‖z⁻¹‖ = 1 := by simp [hz]
    have hs := zT_sec (summable_of_geometric h0 h1 hx) (summable_of_geometric h0 h1 hB) hw
    have hst : SecStable k.norm := (Coeffs.stable_norm (hne k List.mem_cons_self)).2 fun z hz' =>
      (hp k List.mem_cons_self z hz').trans h1
    have hden := den_ne_zero_of_stable hst hz
    have hY : zT (secOut k.norm (0, 0) x) z⁻¹ = secH k.norm z * zT x z⁻¹ := by
      rw [secH, div_mul_eq_mul_div, eq_div_iff hden, mul_comm, hs]
    rw [List.map_cons, List.prod_cons, hY]
    ring

theorem power_chain {ks : List Coeffs} (hne : ∀ k ∈ ks, k.a0 ≠ 0) {ρ : ℝ} (h0 : 0 < ρ) (h1 : ρ < 1)
    (hp : PolesWithin ks ρ) {x : ℕ → ℝ} {M : ℝ} (hx : ∀ n, |x n| ≤ M * ρ ^ n) (fr : ℝ) :
    power (chainOut (ks.map Coeffs.norm) (rest ks.length) x) fr =
      ‖((ks.map Coeffs.norm).map (secH · (circle fr))).prod‖ ^ 2 * power x fr := by
  rw [power, zT_chain hne h0 h1 hp hx (norm_circle fr), norm_mul, mul_pow, power]

/-! ## Signals that end -/

theorem outAt_causal {σ : Type} (step : ℝ → σ → ℝ × σ) (s : σ) {x x' : ℕ → ℝ} {n : ℕ} (h : ∀ i ≤ n, x i = x' i) :
    outAt step s x n = outAt step s x' n := by
  have hs : ∀ m ≤ n, stateAt step s x m = stateAt step s x' m := by
    intro m hm
    induction m with
    | zero => rfl
    | succ m ih => rw [stateAt, stateAt, ih (by omega), h m (by omega)]
  rw [outAt, outAt, hs n le_rfl, h n le_rfl]

/-- A signal that ends lies under every geometric sequence. -/
theorem ends_geometric {x : ℕ → ℝ} {N : ℕ} (h : ∀ n, N ≤ n → x n = 0) {ρ : ℝ} (h0 : 0 < ρ) :
    ∃ M, ∀ n, |x n| ≤ M * ρ ^ n := by
  refine ⟨∑ i ∈ Finset.range N, |x i| / ρ ^ i, fun n => ?_⟩
  have hnn : ∀ i ∈ Finset.range N, 0 ≤ |x i| / ρ ^ i := fun i _ => by positivity
  by_cases hn : n < N
  · have := Finset.single_le_sum hnn (Finset.mem_range.2 hn)
    rwa [div_le_iff₀ (by positivity)] at this
  · rw [h n (by omega), abs_zero]
    exact mul_nonneg (Finset.sum_nonneg hnn) (by positivity)

theorem ends_energy {x : ℕ → ℝ} {N : ℕ} (h : ∀ n, N ≤ n → x n = 0) :
    2 * ∫ fr in (0 : ℝ)..(1 / 2), power x fr = ∑ i ∈ Finset.range N, x i ^ 2 := by
  obtain ⟨M, hM⟩ := ends_geometric h (ρ := 1 / 2) (by norm_num)
  refine (energy (summable_of_geometric (by norm_num) (by norm_num) hM)).unique ?_
  exact hasSum_sum_of_ne_finset_zero fun n hn => by
    rw [h n (by simpa using hn)]; norm_num

theorem stable_radius {ks : List Coeffs} (hne : ∀ k ∈ ks, k.a0 ≠ 0) (hst : ∀ k ∈ ks, k.Stable) {x : ℕ → ℝ} {N : ℕ}
    (h : ∀ n, N ≤ n → x n = 0) :
    Summable (fun n => |chainOut (ks.map Coeffs.norm) (rest ks.length) x n|) ∧ ∀ fr,
      power (chainOut (ks.map Coeffs.norm) (rest ks.length) x) fr =
        ‖((ks.map Coeffs.norm).map (secH · (circle fr))).prod‖ ^ 2 * power x fr := by
  obtain ⟨ρ, h0, h1, hp⟩ := exists_radius hne hst
  obtain ⟨M, hM⟩ := ends_geometric h h0
  obtain ⟨B, hB⟩ := chain_geometric h0 hne hp (rest ks.length) (by simp [rest]) hM
  exact ⟨summable_of_geometric h0 h1 hB, power_chain hne h0 h1 hp hM⟩

/-- Energy of the output for a signal that ends. -/
theorem chain_energy {ks : List Coeffs} (hne : ∀ k ∈ ks, k.a0 ≠ 0) (hst : ∀ k ∈ ks, k.Stable) {x : ℕ → ℝ} {N : ℕ}
    (h : ∀ n, N ≤ n → x n = 0) {v : ℝ → ℝ}
    (hv : ∀ fr, 0 ≤ fr → fr ≤ 1 / 2 → ‖((ks.map Coeffs.norm).map (secH · (circle fr))).prod‖ ^ 2 = v fr) :
    HasSum (fun n => chainOut (ks.map Coeffs.norm) (rest ks.length) x n ^ 2)
      (2 * ∫ fr in (0 : ℝ)..(1 / 2), v fr * power x fr) := by
  obtain ⟨hs, hp⟩ := stable_radius hne hst h
  have := energy hs
  rw [intervalIntegral.integral_congr (g := fun fr => v fr * power x fr)] at this
  · exact this
  · intro fr hfr
    rw [Set.uIcc_of_le (by norm_num)] at hfr
    simp only
    rw [hp, hv fr hfr.1 hfr.2]

/-- With the square of the gain at most `G`, the energy of the output is at no time larger than `G` times that of the
input. -/
theorem chain_energy_le {ks : List Coeffs} (hne : ∀ k ∈ ks, k.a0 ≠ 0) (hst : ∀ k ∈ ks, k.Stable) {G : ℝ}
    (hG : ∀ fr, 0 ≤ fr → fr ≤ 1 / 2 → ‖((ks.map Coeffs.norm).map (secH · (circle fr))).prod‖ ^ 2 ≤ G)
    (x : ℕ → ℝ) (N : ℕ) :
    ∑ i ∈ Finset.range N, chainOut (ks.map Coeffs.norm) (rest ks.length) x i ^ 2 ≤
      G * ∑ i ∈ Finset.range N, x i ^ 2 := by
  set x' : ℕ → ℝ := fun n => if n < N then x n else 0 with hx'
  have hend : ∀ n, N ≤ n → x' n = 0 := fun n hn => by simp [hx', not_lt.2 hn]
  have hag : ∀ n < N, x' n = x n := fun n hn => by simp [hx', hn]
  obtain ⟨hs, hp⟩ := stable_radius hne hst hend
  have hE := energy hs
  have hxs : Summable fun n => |x' n| := by
    obtain ⟨M, hM⟩ := ends_geometric hend (ρ := 1 / 2) (by norm_num)
    exact summable_of_geometric (by norm_num) (by norm_num) hM
  have h1 : ∑ i ∈ Finset.range N, chainOut (ks.map Coeffs.norm) (rest ks.length) x i ^ 2 =
      ∑ i ∈ Finset.range N, chainOut (ks.map Coeffs.norm) (rest ks.length) x' i ^ 2 := by
    refine Finset.sum_congr rfl fun i hi => ?_
    have hi := Finset.mem_range.1 hi
    rw [chainOut, chainOut, outAt_causal (x' := x') _ _ fun m hm => (hag m (by omega)).symm]
  have h2 : ∑ i ∈ Finset.range N, x i ^ 2 = ∑ i ∈ Finset.range N, x' i ^ 2 :=
    Finset.sum_congr rfl fun i hi => by rw [hag i (Finset.mem_range.1 hi)]
  rw [h1, h2, ← ends_energy hend]
  refine (sum_le_hasSum (Finset.range N) (fun i _ => sq_nonneg _) hE).trans ?_
  rw [mul_left_comm, ← intervalIntegral.integral_const_mul G]
  refine mul_le_mul_of_nonneg_left ?_ zero_le_two
  refine intervalIntegral.integral_mono_on (by norm_num) ((power_continuous hs).intervalIntegrable _ _)
    (((power_continuous hxs).const_smul G).intervalIntegrable _ _) fun fr hfr => ?_
  rw [hp]
  exact mul_le_mul_of_nonneg_right (hG fr hfr.1 hfr.2) (sq_nonneg _)

/-! ## Signals of finite energy -/

theorem chain_rest_sub (bs : List (Biquad ℝ)) (x x' : ℕ → ℝ) :
    chainOut bs (rest bs.length) (fun n => x n - x' n) =
      fun n => chainOut bs (rest bs.length) x n - chainOut bs (rest bs.length) x' n := by
  induction bs generalizing x x' with
  | nil => simp [rest, chainOut_nil]
  | cons b bs ih =>
    have : rest (b :: bs).length = (0, 0) :: rest bs.length := rfl
    rw [this, chainOut_cons, chainOut_cons, chainOut_cons, ← ih]
    congr 1
    funext n
    rw [sec_diff]; simp

theorem memlp_iff {y : ℕ → ℝ} : Memℓp y 2 ↔ Summable fun n => y n ^ 2 := by
  rw [memℓp_gen_iff (by norm_num)]
  simp

theorem lp_energy {y : ℕ → ℝ} (h : Memℓp y 2) :
    HasSum (fun n => y n ^ 2) (‖(⟨y, h⟩ : lp (fun _ : ℕ => ℝ) 2)‖ ^ 2) := by
  have := lp.hasSum_norm (p := 2) (by norm_num) (⟨y, h⟩ : lp (fun _ : ℕ => ℝ) 2)
  simpa using this

/-- Energies of signals that approach a signal approach its energy. -/
theorem energy_tendsto {y : ℕ → ℝ} {ys : ℕ → ℕ → ℝ} {e d : ℕ → ℝ} (h : ∀ K, HasSum (fun n => ys K n ^ 2) (e K))
    (hd : ∀ K, HasSum (fun n => (y n - ys K n) ^ 2) (d K)) (h0 : Tendsto d atTop (𝓝 0)) :
    ∃ E, HasSum (fun n => y n ^ 2) E ∧ Tendsto e atTop (𝓝 E) := by
  have m : ∀ K, Memℓp (ys K) 2 := fun K => memlp_iff.2 (h K).summable
  have md : ∀ K, Memℓp (fun n => y n - ys K n) 2 := fun K => memlp_iff.2 (hd K).summable
  have my : Memℓp y 2 := by
    have := (md 0).add (m 0)
    have e : (fun n => y n - ys 0 n) + ys 0 = y := by funext n; simp
    rwa [e] at this
  refine ⟨_, lp_energy my, ?_⟩
  have he : ∀ K, e K = ‖(⟨ys K, m K⟩ : lp (fun _ : ℕ => ℝ) 2)‖ ^ 2 := fun K => (h K).unique (lp_energy (m K))
  have hde : ∀ K, d K = ‖(⟨y, my⟩ : lp (fun _ : ℕ => ℝ) 2) - ⟨ys K, m K⟩‖ ^ 2 := fun K =>
    (hd K).unique (lp_energy (md K))
  rw [funext he]
  refine Tendsto.pow (Tendsto.norm ?_) 2
  rw [tendsto_iff_norm_sub_tendsto_zero]
  have h1 : Tendsto (fun K => √(d K)) atTop (𝓝 0) := by
    have := h0.sqrt
    rwa [Real.sqrt_zero] at this
  refine h1.congr fun K => ?_
  rw [hde, Real.sqrt_sq (norm_nonneg _), norm_sub_rev]

/-- the first `K` samples -/
def cut (K : ℕ) (x : ℕ → ℝ) (n : ℕ) : ℝ := if n < K then x n else 0

theorem cut_ends (K : ℕ) (x : ℕ → ℝ) (n : ℕ) (h : K ≤ n) : cut K x n = 0 := if_neg (not_lt.2 h)

theorem cut_energy (K : ℕ) (x : ℕ → ℝ) :
    HasSum (fun n => cut K x n ^ 2) (∑ i ∈ Finset.range K, x i ^ 2) := by
  have : ∑ i ∈ Finset.range K, x i ^ 2 = ∑ i ∈ Finset.range K, cut K x i ^ 2 :=
    Finset.sum_congr rfl fun i hi => by rw [cut, if_pos (Finset.mem_range.1 hi)]
  rw [this]
  exact hasSum_sum_of_ne_finset_zero fun n hn => by
    rw [cut_ends K x n (by simpa using hn)]; norm_num

theorem tail_energy {x : ℕ → ℝ} {E : ℝ} (h : HasSum (fun n => x n ^ 2) E) (K : ℕ) :
    HasSum (fun n => (x n - cut K x n) ^ 2) (E - ∑ i ∈ Finset.range K, x i ^ 2) := by
  refine (h.sub (cut_energy K x)).congr_fun fun n => ?_
  by_cases hn : n < K <;> simp [cut, hn]

theorem chain_gain_bound {ks : List Coeffs} (hne : ∀ k ∈ ks, k.a0 ≠ 0) (hst : ∀ k ∈ ks, k.Stable) :
    ∃ G, ∀ fr, ‖((ks.map Coeffs.norm).map (secH · (circle fr))).prod‖ ^ 2 ≤ G := by
  have h1 : ∃ x : ℕ → ℝ, ∃ N, (∀ n, N ≤ n → x n = 0) ∧ ∀ fr, power x fr = 1 := by
    refine ⟨fun n => if n = 0 then 1 else 0, 1, fun n hn => by simp; omega, fun fr => ?_⟩
    rw [power, zT, tsum_eq_single 0 fun n hn => by simp [hn]]
    simp
  obtain ⟨x, N, hx, hp⟩ := h1
  obtain ⟨s, e⟩ := stable_radius hne hst hx
  refine ⟨(∑' n, |chainOut (ks.map Coeffs.norm) (rest ks.length) x n|) ^ 2, fun fr => ?_⟩
  have := e fr
  rw [hp, mul_one] at this
  rw [← this, power]
  refine pow_le_pow_left₀ (norm_nonneg _) ?_ 2
  rw [zT]
  refine (norm_tsum_le_tsum_norm ?_).trans (le_of_eq ?_)
  · simpa [norm_circle] using s
  · simp [norm_circle]

/-- Outputs for the first `K` samples approach the output. -/
theorem chain_energy_tendsto {ks : List Coeffs} (hne : ∀ k ∈ ks, k.a0 ≠ 0) (hst : ∀ k ∈ ks, k.Stable) {x : ℕ → ℝ}
    {E : ℝ} (h : HasSum (fun n => x n ^ 2) E) :
    ∃ F, HasSum (fun n => chainOut (ks.map Coeffs.norm) (rest ks.length) x n ^ 2) F ∧
      Tendsto (fun K => 2 * ∫ fr in (0 : ℝ)..(1 / 2), power (chainOut (ks.map Coeffs.norm) (rest ks.length) (cut K x)) fr)
        atTop (𝓝 F) := by
  obtain ⟨G, hG⟩ := chain_gain_bound hne hst
  have hd : ∀ K, Summable (fun n => (chainOut (ks.map Coeffs.norm) (rest ks.length) x n -
      chainOut (ks.map Coeffs.norm) (rest ks.length) (cut K x) n) ^ 2) ∧
      ∑' n, (chainOut (ks.map Coeffs.norm) (rest ks.length) x n -
      chainOut (ks.map Coeffs.norm) (rest ks.length) (cut K x) n) ^ 2 ≤ G * (E - ∑ i ∈ Finset.range K, x i ^ 2) := by
    intro K
    have hl : ks.length = (ks.map Coeffs.norm).length := by rw [List.length_map]
    have hle : ∀ N, ∑ i ∈ Finset.range N, (chainOut (ks.map Coeffs.norm) (rest ks.length) x i -
      chainOut (ks.map Coeffs.norm) (rest ks.length) (cut K x) i) ^ 2 ≤ G * (E - ∑ i ∈ Finset.range K, x i ^ 2) := by
      intro N
      have h1 := chain_energy_le hne hst (fun fr _ _ => hG fr) (fun n => x n - cut K x n) N
      rw [hl, chain_rest_sub, ← hl] at h1
      refine h1.trans (mul_le_mul_of_nonneg_left ?_ ((sq_nonneg _).trans (hG 0)))
      exact sum_le_hasSum _ (fun i _ => sq_nonneg _) (tail_energy h K)
    have hs := summable_of_sum_range_le (fun n => sq_nonneg _) hle
    exact ⟨hs, Real.tsum_le_of_sum_range_le (fun n => sq_nonneg _) hle⟩
  refine energy_tendsto (fun K => energy (stable_radius hne hst (cut_ends K x)).1) (fun K => (hd K).1.hasSum) ?_
  refine squeeze_zero (fun K => tsum_nonneg fun n => sq_nonneg _) (fun K => (hd K).2) ?_
  have := (h.tendsto_sum_nat.const_sub E).const_mul G
  simpa using this

end

/-- The energy of the impulse response is the mean of the squared gain. -/
theorem chain_impulse {ks : List Coeffs} (hne : ∀ k ∈ ks, k.a0 ≠ 0) (hst : ∀ k ∈ ks, k.Stable) {v : ℝ → ℝ}
    (hv : ∀ fr, 0 ≤ fr → fr ≤ 1 / 2 → ‖((ks.map Coeffs.norm).map (secH · (circle fr))).prod‖ ^ 2 = v fr) :
    HasSum (fun n => chainOut (ks.map Coeffs.norm) (rest ks.length) impulse n ^ 2)
      (2 * ∫ fr in (0 : ℝ)..(1 / 2), v fr) := by
  have he := chain_energy hne hst (x := impulse) (N := 1) (v := v) (fun n hn => by simp [impulse]; omega) hv
  have hp : ∀ fr, power impulse fr = 1 := fun fr => by
    rw [power, zT, tsum_eq_single 0 fun n hn => by simp [impulse, hn]]
    simp [impulse]
  simpa only [hp, mul_one] using he

theorem cut_tendsto {x : ℕ → ℝ} {E : ℝ} (h : HasSum (fun n => x n ^ 2) E) :
    Tendsto (fun K => 2 * ∫ fr in (0 : ℝ)..(1 / 2), power (cut K x) fr) atTop (𝓝 E) := by
  refine h.tendsto_sum_nat.congr fun K => ?_
  rw [ends_energy (cut_ends K x)]
  exact Finset.sum_congr rfl fun i hi => by rw [cut, if_pos (Finset.mem_range.1 hi)]

/-- Two chains whose squared gains add up to 1 split the energy. -/
theorem chain_complementary {ks ks' : List Coeffs} (hne : ∀ k ∈ ks, k.a0 ≠ 0) (hst : ∀ k ∈ ks, k.Stable)
    (hne' : ∀ k ∈ ks', k.a0 ≠ 0) (hst' : ∀ k ∈ ks', k.Stable)
    (hp : ∀ fr, 0 ≤ fr → fr ≤ 1 / 2 → ‖((ks.map Coeffs.norm).map (secH · (circle fr))).prod‖ ^ 2 +
      ‖((ks'.map Coeffs.norm).map (secH · (circle fr))).prod‖ ^ 2 = 1) {x : ℕ → ℝ} {E : ℝ}
    (h : HasSum (fun n => x n ^ 2) E) :
    ∃ e e', HasSum (fun n => chainOut (ks.map Coeffs.norm) (rest ks.length) x n ^ 2) e ∧
      HasSum (fun n => chainOut (ks'.map Coeffs.norm) (rest ks'.length) x n ^ 2) e' ∧ e + e' = E := by
  obtain ⟨e, h1, t1⟩ := chain_energy_tendsto hne hst h
  obtain ⟨e', h2, t2⟩ := chain_energy_tendsto hne' hst' h
  refine ⟨e, e', h1, h2, tendsto_nhds_unique (t1.add t2) ((cut_tendsto h).congr fun K => ?_)⟩
  obtain ⟨s1, e1⟩ := stable_radius hne hst (cut_ends K x)
  obtain ⟨s2, e2⟩ := stable_radius hne' hst' (cut_ends K x)
  rw [← mul_add, ← intervalIntegral.integral_add ((power_continuous s1).intervalIntegrable _ _)
    ((power_continuous s2).intervalIntegrable _ _)]
  congr 1
  refine intervalIntegral.integral_congr fun fr hfr => ?_
  rw [Set.uIcc_of_le (by norm_num)] at hfr
  rw [e1, e2, ← add_mul, hp fr hfr.1 hfr.2, one_mul]

/-- A chain whose gain is 1 at every frequency keeps the energy. -/
theorem chain_allPass {ks : List Coeffs} (hne : ∀ k ∈ ks, k.a0 ≠ 0) (hst : ∀ k ∈ ks, k.Stable)
    (hp : ∀ fr, 0 ≤ fr → fr ≤ 1 / 2 → ‖((ks.map Coeffs.norm).map (secH · (circle fr))).prod‖ ^ 2 = 1) {x : ℕ → ℝ} {E : ℝ}
    (h : HasSum (fun n => x n ^ 2) E) :
    HasSum (fun n => chainOut (ks.map Coeffs.norm) (rest ks.length) x n ^ 2) E := by
  obtain ⟨e, h1, t1⟩ := chain_energy_tendsto hne hst h
  have : e = E := tendsto_nhds_unique t1 ((cut_tendsto h).congr fun K => ?_)
  · rwa [this] at h1
  obtain ⟨s1, e1⟩ := stable_radius hne hst (cut_ends K x)
  congr 1
  refine intervalIntegral.integral_congr fun fr hfr => ?_
  rw [Set.uIcc_of_le (by norm_num)] at hfr
  rw [e1, hp fr hfr.1 hfr.2, one_mul]

end Iir
