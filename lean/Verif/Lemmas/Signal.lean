import Verif.Exact.Section
import Verif.Math.Recurrence
import Mathlib.RingTheory.PowerSeries.Basic
import Mathlib.RingTheory.PowerSeries.NoZeroDivisors

/-! # Time domain behaviour of textbook sections and chains -/

namespace Iir
open Spec Filter Topology

/-! ## As power series in the delay -/

namespace Ser
open PowerSeries

/-- denominator `1 + a1 q + a2 q²` -/
noncomputable def den (b : Biquad ℝ) : PowerSeries ℝ := 1 + C b.a1 * X + C b.a2 * (X * X)
/-- numerator `b0 + b1 q + b2 q²` -/
noncomputable def num (b : Biquad ℝ) : PowerSeries ℝ := C b.b0 + C b.b1 * X + C b.b2 * (X * X)

theorem den_ne_zero (b : Biquad ℝ) : den b ≠ 0 := by
  intro h
  have := congrArg constantCoeff h
  simp [den] at this

theorem coeff_lin (a b c : ℝ) (x : ℕ → ℝ) (n : ℕ) :
    coeff n ((C a + C b * X + C c * (X * X)) * PowerSeries.mk x) =
      a * x n + b * delayed 1 x n + c * delayed 2 x n := by
  rw [add_mul, add_mul, map_add, map_add, mul_assoc, mul_assoc, mul_assoc]
  simp only [coeff_C_mul]
  rcases n with _ | _ | n
  · simp [delayed]
  · simp [delayed, coeff_succ_X_mul]
  · simp [delayed, coeff_succ_X_mul]

theorem coeff_den (b : Biquad ℝ) (x : ℕ → ℝ) (n : ℕ) :
    coeff n (den b * PowerSeries.mk x) = x n + b.a1 * delayed 1 x n + b.a2 * delayed 2 x n := by
  have : den b = C 1 + C b.a1 * X + C b.a2 * (X * X) := by simp [den]
  rw [this, coeff_lin, one_mul]

theorem sec_series (b : Biquad ℝ) (x : ℕ → ℝ) :
    den b * PowerSeries.mk (secOut b (0, 0) x) = num b * PowerSeries.mk x := by
  ext n
  rw [coeff_den, num, coeff_lin]
  rcases n with _ | _ | n
  · simp [delayed, secOut_zero]
  · have := secOut_one b (0, 0) x
    simp [delayed, this]
  · have := secOut_add_two b (0, 0) x n
    simp [delayed, this]
    ring

theorem chain_series (bs : List (Biquad ℝ)) (x : ℕ → ℝ) :
    (bs.map den).prod * PowerSeries.mk (chainOut bs (rest bs.length) x) =
      (bs.map num).prod * PowerSeries.mk x := by
  induction bs generalizing x with
  | nil => simp [rest, chainOut_nil]
  | cons b bs ih =>
    have : rest (b :: bs).length = (0, 0) :: rest bs.length := rfl
    rw [this, chainOut_cons]
    simp only [List.map_cons, List.prod_cons]
    rw [mul_assoc, ih, mul_left_comm, sec_series]
    ring

theorem prod_den_ne_zero (bs : List (Biquad ℝ)) : (bs.map den).prod ≠ 0 := by
  induction bs with
  | nil => simp
  | cons b bs ih =>
    rw [List.map_cons, List.prod_cons]
    exact mul_ne_zero (den_ne_zero b) ih

theorem mk_inj {x y : ℕ → ℝ} (h : PowerSeries.mk x = PowerSeries.mk y) : x = y := by
  funext n
  simpa using congrArg (coeff n) h

/-- The output of a chain at rest is characterised by its transfer series. -/
theorem chain_unique (bs : List (Biquad ℝ)) (x y : ℕ → ℝ)
    (h : (bs.map den).prod * PowerSeries.mk y = (bs.map num).prod * PowerSeries.mk x) :
    y = chainOut bs (rest bs.length) x := by
  apply mk_inj
  exact mul_left_cancel₀ (prod_den_ne_zero bs) (h.trans (chain_series bs x).symm)

theorem chain_perm {bs bs' : List (Biquad ℝ)} (h : bs.Perm bs') (x : ℕ → ℝ) :
    chainOut bs (rest bs.length) x = chainOut bs' (rest bs'.length) x := by
  apply chain_unique
  rw [← (h.map den).prod_eq, ← (h.map num).prod_eq, chain_series]

theorem chain_linear (bs : List (Biquad ℝ)) (α β : ℝ) (x x' : ℕ → ℝ) :
    chainOut bs (rest bs.length) (fun n => α * x n + β * x' n) =
      fun n => α * chainOut bs (rest bs.length) x n + β * chainOut bs (rest bs.length) x' n := by
  have hlin : ∀ u v : ℕ → ℝ, PowerSeries.mk (fun n => α * u n + β * v n) =
      C α * PowerSeries.mk u + C β * PowerSeries.mk v := by
    intro u v; ext n; simp
  symm
  apply chain_unique
  rw [hlin, hlin, mul_add, mul_add, mul_left_comm, chain_series, mul_left_comm _ (C β), chain_series]
  ring

theorem chain_shift (bs : List (Biquad ℝ)) (k : ℕ) (x : ℕ → ℝ) :
    chainOut bs (rest bs.length) (delayed k x) = delayed k (chainOut bs (rest bs.length) x) := by
  have hs : ∀ u : ℕ → ℝ, PowerSeries.mk (delayed k u) = X ^ k * PowerSeries.mk u := by
    intro u; ext n
    rw [coeff_X_pow_mul', coeff_mk, delayed]
    simp
  symm
  apply chain_unique
  rw [hs, hs, mul_left_comm, chain_series]
  ring

end Ser

/-- From rest, a section satisfies its difference equation. -/
theorem secOut_diffEq (b : Biquad ℝ) (x : ℕ → ℝ) :
    ∀ n, secOut b (0, 0) x n = b.b0 * x n + b.b1 * delayed 1 x n + b.b2 * delayed 2 x n
      - b.a1 * delayed 1 (secOut b (0, 0) x) n - b.a2 * delayed 2 (secOut b (0, 0) x) n := by
  intro n
  rcases n with _ | _ | n
  · simp [delayed, secOut_zero]
  · have := secOut_one b (0, 0) x
    simp [delayed, this]
  · have := secOut_add_two b (0, 0) x n
    simp [delayed, this]

/-! ## Stability -/

/-- The roots of `z² + a1 z + a2` are inside the unit circle. -/
def StableDen (a1 a2 : ℝ) : Prop := ∀ z : ℂ, z ^ 2 + a1 * z + a2 = 0 → ‖z‖ < 1

/-- Roots of a monic real quadratic inside the unit disc. -/
theorem stable_roots {a1 a2 : ℝ} (h : StableDen a1 a2) :
    ∃ p q : ℂ, ‖p‖ < 1 ∧ ‖q‖ < 1 ∧ (a1 : ℂ) = -(p + q) ∧ (a2 : ℂ) = p * q := by
  set d : ℂ := Cx.sqrtC ((a1 : ℂ) ^ 2 - 4 * a2) with hd
  have hd2 : d * d = (a1 : ℂ) ^ 2 - 4 * a2 := Cx.sqrtC_sq _
  refine ⟨(-a1 + d) / 2, (-a1 - d) / 2, h _ ?_, h _ ?_, ?_, ?_⟩
  · linear_combination hd2 / 4
  · linear_combination hd2 / 4
  · ring
  · linear_combination hd2 / 4

theorem stable_bounded {a1 a2 : ℝ} (h : StableDen a1 a2) {e d : ℕ → ℝ}
    (he : ∀ n, e (n + 2) + a1 * e (n + 1) + a2 * e n = d n) {M : ℝ} (hd : ∀ n, |d n| ≤ M) :
    ∃ B, ∀ n, |e n| ≤ B := by
  obtain ⟨p, q, hp, hq, h1, h2⟩ := stable_roots h
  obtain ⟨B, hB⟩ := Recurrence.second_bounded hp hq (e := fun n => (e n : ℂ)) (d := fun n => (d n : ℂ))
    (fun n => by rw [← he n]; push_cast; rw [h1, h2]; ring) (M := M) (fun n => by simpa using hd n)
  exact ⟨B, fun n => by simpa using hB n⟩

theorem stable_tendsto {a1 a2 : ℝ} (h : StableDen a1 a2) {e d : ℕ → ℝ}
    (he : ∀ n, e (n + 2) + a1 * e (n + 1) + a2 * e n = d n) (hd : Tendsto d atTop (𝓝 0)) :
    Tendsto e atTop (𝓝 0) := by
  obtain ⟨p, q, hp, hq, h1, h2⟩ := stable_roots h
  have := Recurrence.second_tendsto hp hq (e := fun n => (e n : ℂ)) (d := fun n => (d n : ℂ))
    (fun n => by rw [← he n]; push_cast; rw [h1, h2]; ring)
    (by simpa [Function.comp_def] using (Complex.continuous_ofReal.tendsto 0).comp hd)
  simpa [Function.comp_def] using (Complex.continuous_re.tendsto 0).comp this

/-- A section whose poles are inside the unit circle. -/
def SecStable (b : Biquad ℝ) : Prop := StableDen b.a1 b.a2

theorem sec_bounded {b : Biquad ℝ} (h : SecStable b) (c : ℝ × ℝ) {x : ℕ → ℝ} {M : ℝ}
    (hx : ∀ n, |x n| ≤ M) : ∃ B, ∀ n, |secOut b c x n| ≤ B := by
  refine stable_bounded h (e := secOut b c x)
    (d := fun n => b.b0 * x (n + 2) + b.b1 * x (n + 1) + b.b2 * x n)
    (fun n => by rw [secOut_add_two]; ring) (M := |b.b0| * M + |b.b1| * M + |b.b2| * M) fun n => ?_
  refine (abs_add_three _ _ _).trans ?_
  rw [abs_mul, abs_mul, abs_mul]
  gcongr <;> apply hx

theorem sec_tendsto {b : Biquad ℝ} (h : SecStable b) (c : ℝ × ℝ) {x : ℕ → ℝ}
    (hx : Tendsto x atTop (𝓝 0)) : Tendsto (secOut b c x) atTop (𝓝 0) := by
  refine stable_tendsto h (e := secOut b c x)
    (d := fun n => b.b0 * x (n + 2) + b.b1 * x (n + 1) + b.b2 * x n)
    (fun n => by rw [secOut_add_two]; ring) ?_
  have h2 := (tendsto_add_atTop_iff_nat 2).2 hx
  have h1 := (tendsto_add_atTop_iff_nat 1).2 hx
  simpa using ((h2.const_mul b.b0).add (h1.const_mul b.b1)).add (hx.const_mul b.b2)

theorem chain_bounded {bs : List (Biquad ℝ)} (h : ∀ b ∈ bs, SecStable b) (cs : List (ℝ × ℝ))
    (hl : bs.length = cs.length) {x : ℕ → ℝ} {M : ℝ} (hx : ∀ n, |x n| ≤ M) :
    ∃ B, ∀ n, |chainOut bs cs x n| ≤ B := by
  induction bs generalizing cs x M with
  | nil =>
    cases cs with
    | nil => rw [chainOut_nil]; exact ⟨M, hx⟩
    | cons => simp at hl
  | cons b bs ih =>
    cases cs with
    | nil => simp at hl
    | cons c cs =>
      obtain ⟨B, hB⟩ := sec_bounded (h b List.mem_cons_self) c hx
      rw [chainOut_cons]
      exact ih (fun b hb => h b (List.mem_cons_of_mem _ hb)) cs (by simpa using hl) hB

theorem chain_tendsto {bs : List (Biquad ℝ)} (h : ∀ b ∈ bs, SecStable b) (cs : List (ℝ × ℝ))
    (hl : bs.length = cs.length) {x : ℕ → ℝ} (hx : Tendsto x atTop (𝓝 0)) :
    Tendsto (chainOut bs cs x) atTop (𝓝 0) := by
  induction bs generalizing cs x with
  | nil =>
    cases cs with
    | nil => rwa [chainOut_nil]
    | cons => simp at hl
  | cons b bs ih =>
    cases cs with
    | nil => simp at hl
    | cons c cs =>
      rw [chainOut_cons]
      exact ih (fun b hb => h b (List.mem_cons_of_mem _ hb)) cs (by simpa using hl)
        (sec_tendsto (h b List.mem_cons_self) c hx)

/-! ## Steady state -/

/-- Transfer function of a section with normalised coefficients. -/
noncomputable def secH (b : Biquad ℝ) (z : ℂ) : ℂ :=
  (b.b0 + b.b1 * z⁻¹ + b.b2 * z⁻¹ ^ 2) / (1 + b.a1 * z⁻¹ + b.a2 * z⁻¹ ^ 2)

theorem den_ne_zero_of_stable {a1 a2 : ℝ} (h : StableDen a1 a2) {z : ℂ} (hz : ‖z‖ = 1) :
    (1 : ℂ) + a1 * z⁻¹ + a2 * z⁻¹ ^ 2 ≠ 0 := by
  have hz0 : z ≠ 0 := by intro h0; simp [h0] at hz
  intro h0
  have := h z (by
    have : z ^ 2 + a1 * z + a2 = z ^ 2 * (1 + a1 * z⁻¹ + a2 * z⁻¹ ^ 2) := by
      field_simp
    rw [this, h0, mul_zero])
  linarith

theorem sec_steady {b : Biquad ℝ} (h : SecStable b) (c : ℝ × ℝ) {z K : ℂ} (hz : ‖z‖ = 1) {x : ℕ → ℝ}
    (hx : Tendsto (fun n => x n - (K * z ^ n).re) atTop (𝓝 0)) :
    Tendsto (fun n => secOut b c x n - (secH b z * K * z ^ n).re) atTop (𝓝 0) := by
  have hz0 : z ≠ 0 := by intro h0; simp [h0] at hz
  have hden := den_ne_zero_of_stable h hz
  refine stable_tendsto h (e := fun n => secOut b c x n - (secH b z * K * z ^ n).re)
    (d := fun n => b.b0 * (x (n + 2) - (K * z ^ (n + 2)).re) + b.b1 * (x (n + 1) - (K * z ^ (n + 1)).re)
      + b.b2 * (x n - (K * z ^ n).re)) (fun n => ?_) ?_
  · have key : secH b z * K * z ^ (n + 2) + b.a1 * (secH b z * K * z ^ (n + 1))
        + b.a2 * (secH b z * K * z ^ n) =
        b.b0 * (K * z ^ (n + 2)) + b.b1 * (K * z ^ (n + 1)) + b.b2 * (K * z ^ n) := by
      have e : secH b z * (1 + b.a1 * z⁻¹ + b.a2 * z⁻¹ ^ 2) = b.b0 + b.b1 * z⁻¹ + b.b2 * z⁻¹ ^ 2 := by
        rw [secH, div_mul_cancel₀ _ hden]
      have e1 : z⁻¹ * z = 1 := inv_mul_cancel₀ hz0
      rw [pow_succ, pow_succ]
      linear_combination K * z ^ n * z * z * e -
        (secH b z * (b.a1 + b.a2 * z⁻¹) - (b.b1 + b.b2 * z⁻¹)) * K * z ^ n * z * e1 -
        (secH b z * b.a2 - b.b2) * K * z ^ n * e1
    have hre := congrArg Complex.re key
    simp only [Complex.add_re, Complex.re_ofReal_mul] at hre
    simp only [secOut_add_two]
    linear_combination -hre
  · have h2 := (tendsto_add_atTop_iff_nat 2).2 hx
    have h1 := (tendsto_add_atTop_iff_nat 1).2 hx
    simpa using ((h2.const_mul b.b0).add (h1.const_mul b.b1)).add (hx.const_mul b.b2)

theorem chain_steady {bs : List (Biquad ℝ)} (h : ∀ b ∈ bs, SecStable b) (cs : List (ℝ × ℝ))
    (hl : bs.length = cs.length) {z K : ℂ} (hz : ‖z‖ = 1) {x : ℕ → ℝ}
    (hx : Tendsto (fun n => x n - (K * z ^ n).re) atTop (𝓝 0)) :
    Tendsto (fun n => chainOut bs cs x n - ((bs.map (secH · z)).prod * K * z ^ n).re) atTop (𝓝 0) := by
  induction bs generalizing cs x K with
  | nil =>
    cases cs with
    | nil => simpa [chainOut_nil] using hx
    | cons => simp at hl
  | cons b bs ih =>
    cases cs with
    | nil => simp at hl
    | cons c cs =>
      rw [chainOut_cons]
      have := ih (fun b hb => h b (List.mem_cons_of_mem _ hb)) cs (by simpa using hl)
        (sec_steady (h b List.mem_cons_self) c hz hx)
      simpa [mul_comm, mul_assoc, mul_left_comm] using this

end Iir
