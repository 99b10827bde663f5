import Verif.Lemmas.Identify
import Verif.Math.Unbounded
import Mathlib.Analysis.SpecialFunctions.Trigonometric.Bounds

/-! # The greatest output for inputs of full scale

An impulse answer whose absolute values sum to no more than its greatest gain bends down from there like a parabola;
maximally flat responses do not. -/

namespace Iir
open Spec Filter Topology

theorem circle_add (a b : ℝ) : circle (a + b) = circle a * circle b := by
  rw [circle, circle, circle, ← Complex.exp_add]; push_cast; ring_nf

theorem circle_pow (a : ℝ) (m : ℕ) : circle a ^ m = circle (m * a) := by
  rw [circle, circle, ← Complex.exp_nat_mul]; push_cast; ring_nf

/-- two terms of the sum at a small distance in frequency -/
theorem pair_norm {p q : ℝ} (hp : 0 < p) (hq : 0 < q) {m : ℕ} (hm : 0 < m) {δ : ℝ} (h0 : 0 < δ) (h1 : δ ≤ 1 / (2 * m)) :
    ‖(p : ℂ) + q * (circle δ)⁻¹ ^ m‖ ≤ p + q - 8 * p * q / (p + q) * δ ^ 2 ∧
      8 * p * q / (p + q) * δ ^ 2 ≤ p + q := by
  have hm1 : (1 : ℝ) ≤ m := by exact_mod_cast hm
  have hpi := Real.pi_pos
  have hx : |2 * Real.pi * (m * δ)| ≤ Real.pi := by
    rw [abs_of_nonneg (by positivity)]
    have : (m : ℝ) * δ ≤ 1 / 2 := by
      rw [le_div_iff₀ (by positivity)] at h1
      linarith
    nlinarith
  have hc := Real.cos_le_one_sub_mul_cos_sq hx
  have e1 : 2 / Real.pi ^ 2 * (2 * Real.pi * (m * δ)) ^ 2 = 8 * m ^ 2 * δ ^ 2 := by field_simp; ring
  rw [e1] at hc
  have hd : 8 * δ ^ 2 ≤ 8 * (m : ℝ) ^ 2 * δ ^ 2 := by
    have : (1 : ℝ) ≤ (m : ℝ) ^ 2 := one_le_pow₀ hm1
    nlinarith [sq_nonneg δ]
  set c := Real.cos (2 * Real.pi * (m * δ)) with hcd
  have hc1 := Real.neg_one_le_cos (2 * Real.pi * (m * δ))
  rw [← hcd] at hc1
  have hn : ‖(p : ℂ) + q * (circle δ)⁻¹ ^ m‖ ^ 2 = p ^ 2 + q ^ 2 + 2 * p * q * c := by
    rw [inv_pow, circle_pow, circle_inv, ← Complex.normSq_eq_norm_sq, Complex.normSq_apply]
    simp only [Complex.add_re, Complex.add_im, Complex.mul_re, Complex.mul_im, Complex.ofReal_re, Complex.ofReal_im]
    rw [← hcd]
    have hs := Real.sin_sq_add_cos_sq (2 * Real.pi * (m * δ))
    rw [← hcd] at hs
    linear_combination q ^ 2 * hs
  have hpq : 0 < p * q := mul_pos hp hq
  have hs : 0 < p + q := by positivity
  set e := 8 * p * q / (p + q) * δ ^ 2 with he
  have hes : e * (p + q) = 8 * (p * q) * δ ^ 2 := by rw [he]; field_simp
  have h8 : 8 * δ ^ 2 ≤ 2 := by linarith
  have hle : e ≤ p + q := by
    have : e * (p + q) ≤ (p + q) * (p + q) := by
      rw [hes]; nlinarith [sq_nonneg (p - q)]
    exact le_of_mul_le_mul_right this hs
  refine ⟨?_, hle⟩
  refine le_of_sq_le_sq ?_ (by linarith)
  rw [hn]
  have : p * q * c ≤ p * q * (1 - 8 * δ ^ 2) := mul_le_mul_of_nonneg_left (by linarith) hpq.le
  nlinarith [sq_nonneg e]

/-- a sum of terms of one phase, two of them not zero, bends down -/
theorem power_bend {h : ℕ → ℝ} (hs : Summable fun n => |h n|) (h0 : ∀ n, 0 ≤ h n) {A : ℝ} (hA : ∑' n, |h n| ≤ A)
    {j k : ℕ} (hjk : j < k) (hj : h j ≠ 0) (hk : h k ≠ 0) :
    ∃ c > 0, ∀ᶠ δ in 𝓝[>] (0 : ℝ), power h δ ≤ A ^ 2 - c * δ ^ 2 := by
  have pj : 0 < h j := (h0 j).lt_of_ne' hj
  have pk : 0 < h k := (h0 k).lt_of_ne' hk
  have hm : 0 < k - j := by omega
  set s := h j + h k with hsd
  have sp : 0 < s := by positivity
  have e1 := hs.sum_add_tsum_compl (s := {j, k})
  rw [Finset.sum_pair hjk.ne, abs_of_pos pj, abs_of_pos pk] at e1
  have t0 : 0 ≤ ∑' x : ↑((({j, k} : Finset ℕ) : Set ℕ)ᶜ), |h x| := tsum_nonneg fun _ => abs_nonneg _
  have Ap : 0 < A := by linarith
  refine ⟨A * (8 * h j * h k / s), by positivity, ?_⟩
  have hd : (0 : ℝ) < 1 / (2 * (k - j : ℕ)) := by
    have : (0 : ℝ) < (k - j : ℕ) := by exact_mod_cast hm
    positivity
  filter_upwards [Ioc_mem_nhdsGT hd] with δ hδ
  obtain ⟨p1, p2⟩ := pair_norm pj pk hm hδ.1 hδ.2
  rw [← hsd] at p1 p2
  set e := 8 * h j * h k / s * δ ^ 2 with he
  have e0 : 0 ≤ e := by positivity
  set w := (circle δ)⁻¹ with hw
  have w1 : ‖w‖ = 1 := norm_circle_inv δ
  have e2 := (zT_summable hs w1).sum_add_tsum_compl (s := {j, k})
  rw [Finset.sum_pair hjk.ne] at e2
  have e3 : (h j : ℂ) * w ^ j + h k * w ^ k = w ^ j * (h j + h k * w ^ (k - j)) := by
    rw [show w ^ k = w ^ j * w ^ (k - j) by rw [← pow_add]; congr 1; omega]; ring
  have sub : Summable fun x : ↑((({j, k} : Finset ℕ) : Set ℕ)ᶜ) => ‖(h x : ℂ) * w ^ (x : ℕ)‖ := by
    simp only [norm_mul, norm_pow, w1, one_pow, _root_.mul_one, Complex.norm_real, Real.norm_eq_abs]
    exact hs.subtype _
  have n1 : ‖zT h w‖ ≤ A - e := by
    rw [zT, ← e2, e3]
    refine (norm_add_le _ _).trans ?_
    rw [norm_mul, norm_pow, w1, one_pow, _root_.one_mul]
    have n2 := norm_tsum_le_tsum_norm sub
    have n3 : ∑' x : ↑((({j, k} : Finset ℕ) : Set ℕ)ᶜ), ‖(h x : ℂ) * w ^ (x : ℕ)‖ =
        ∑' x : ↑((({j, k} : Finset ℕ) : Set ℕ)ᶜ), |h x| := tsum_congr fun x => by simp [w1]
    rw [n3] at n2
    linarith
  have eA : e ≤ A := by linarith
  rw [power, ← hw]
  calc ‖zT h w‖ ^ 2 ≤ (A - e) ^ 2 := pow_le_pow_left₀ (norm_nonneg _) n1 2
    _ ≤ A ^ 2 - A * e := by nlinarith
    _ = _ := by rw [he]; ring

/-- the absolute values of the impulse answer sum to no less than the gain -/
theorem power_le {h : ℕ → ℝ} (hs : Summable fun n => |h n|) (fr : ℝ) : power h fr ≤ (∑' n, |h n|) ^ 2 := by
  refine pow_le_pow_left₀ (norm_nonneg _) ?_ 2
  have w1 := norm_circle_inv fr
  refine (norm_tsum_le_tsum_norm ?_).trans_eq (tsum_congr fun n => by simp [norm_circle])
  simpa [norm_circle] using hs

/-- **Overshoot**: where the gain of an impulse answer is flat to the fourth order at its level `A`, and not that
everywhere, its absolute values sum to more than `A`. -/
theorem flat_overshoot {h : ℕ → ℝ} (hs : Summable fun n => |h n|) {f0 A C : ℝ} (hA : 0 < A)
    (hb : ∀ᶠ δ in 𝓝[>] (0 : ℝ), A ^ 2 - power h (f0 + δ) ≤ C * δ ^ 4) (hne : ∃ fr, power h fr ≠ A ^ 2) :
    A < ∑' n, |h n| := by
  by_contra hS
  rw [not_lt] at hS
  have S0 : 0 ≤ ∑' n, |h n| := tsum_nonneg fun _ => abs_nonneg _
  -- the gain at `f0`
  have top : A ^ 2 ≤ power h f0 := by
    have c1 : Tendsto (fun δ => A ^ 2 - power h (f0 + δ)) (𝓝[>] (0 : ℝ)) (𝓝 (A ^ 2 - power h f0)) := by
      have : Continuous fun δ => A ^ 2 - power h (f0 + δ) :=
        continuous_const.sub ((power_continuous hs).comp (continuous_const.add continuous_id))
      have t := this.tendsto 0
      simp only [add_zero] at t
      exact t.mono_left nhdsWithin_le_nhds
    have c2 : Tendsto (fun δ : ℝ => C * δ ^ 4) (𝓝[>] (0 : ℝ)) (𝓝 0) := by
      have : Continuous fun δ : ℝ => C * δ ^ 4 := by fun_prop
      have t := this.tendsto 0
      simp only [ne_eq, OfNat.ofNat_ne_zero, not_false_eq_true, zero_pow, MulZeroClass.mul_zero] at t
      exact t.mono_left nhdsWithin_le_nhds
    have := le_of_tendsto_of_tendsto c1 c2 hb
    linarith
  have w1 := norm_circle_inv f0
  set Z := zT h (circle f0)⁻¹ with hZ
  have AZ : A ≤ ‖Z‖ := le_of_sq_le_sq top (norm_nonneg _)
  have Z0 : (‖Z‖ : ℂ) ≠ 0 := by exact_mod_cast (hA.trans_le AZ).ne'
  -- all terms have one phase
  set u : ℂ := starRingEnd ℂ Z / ‖Z‖ with hu
  have uZ : u * Z = ‖Z‖ := by
    rw [hu, div_mul_eq_mul_div, div_eq_iff Z0, ← Complex.normSq_eq_conj_mul_self, Complex.normSq_eq_norm_sq]
    push_cast; ring
  have u1 : ‖u‖ = 1 := by
    rw [hu, norm_div, RCLike.norm_conj, Complex.norm_real, norm_norm]
    exact div_self (hA.trans_le AZ).ne'
  have hz := zT_summable hs w1
  have hsu : Summable fun n => u * ((h n : ℂ) * (circle f0)⁻¹ ^ n) := hz.mul_left u
  have nrm : ∀ n, ‖u * ((h n : ℂ) * (circle f0)⁻¹ ^ n)‖ = |h n| := fun n => by simp [u1, norm_circle]
  have re_le : ∀ n, (u * ((h n : ℂ) * (circle f0)⁻¹ ^ n)).re ≤ |h n| := fun n => nrm n ▸ Complex.re_le_norm _
  have hre : Summable fun n => (u * ((h n : ℂ) * (circle f0)⁻¹ ^ n)).re := (Complex.hasSum_re hsu.hasSum).summable
  have sre : ∑' n, (u * ((h n : ℂ) * (circle f0)⁻¹ ^ n)).re = ‖Z‖ := by
    rw [← Complex.re_tsum hsu, tsum_mul_left]
    show (u * Z).re = _
    rw [uZ, Complex.ofReal_re]
  have phase : ∀ n, u * ((h n : ℂ) * (circle f0)⁻¹ ^ n) = (|h n| : ℝ) := by
    have hd := (hs.sub hre).hasSum
    have z : ∑' n, (|h n| - (u * ((h n : ℂ) * (circle f0)⁻¹ ^ n)).re) = 0 := by
      refine le_antisymm ?_ (tsum_nonneg fun n => sub_nonneg.2 (re_le n))
      rw [hs.tsum_sub hre, sre]; linarith
    rw [z] at hd
    have all := (hasSum_zero_iff_of_nonneg fun n => sub_nonneg.2 (re_le n)).1 hd
    intro n
    have e : (u * ((h n : ℂ) * (circle f0)⁻¹ ^ n)).re = ‖u * ((h n : ℂ) * (circle f0)⁻¹ ^ n)‖ := by
      rw [nrm]; have := congrFun all n; simp only [Pi.zero_apply] at this; linarith
    rw [← nrm n]
    exact Complex.eq_coe_norm_of_nonneg (Complex.re_eq_norm.1 e)
  have shift : ∀ δ, power h (f0 + δ) = power (fun n => |h n|) δ := fun δ => by
    have e : u * zT h (circle (f0 + δ))⁻¹ = zT (fun n => |h n|) (circle δ)⁻¹ := by
      rw [zT, zT, ← tsum_mul_left]
      refine tsum_congr fun n => ?_
      rw [← phase n, circle_add, mul_inv, mul_pow]; ring
    rw [power, power, ← e, norm_mul, u1, _root_.one_mul]
  by_cases two : ∃ j k, j < k ∧ h j ≠ 0 ∧ h k ≠ 0
  · obtain ⟨j, k, hjk, hj, hk⟩ := two
    obtain ⟨c, c0, hc⟩ := power_bend (h := fun n => |h n|) (by simpa using hs) (fun n => abs_nonneg _)
      (A := A) (by simpa using hS) hjk (abs_ne_zero.2 hj) (abs_ne_zero.2 hk)
    have small : ∀ᶠ δ in 𝓝[>] (0 : ℝ), C * δ ^ 2 < c := by
      have : Continuous fun δ : ℝ => C * δ ^ 2 := by fun_prop
      have t := this.tendsto 0
      simp only [ne_eq, OfNat.ofNat_ne_zero, not_false_eq_true, zero_pow, MulZeroClass.mul_zero] at t
      exact (t.mono_left nhdsWithin_le_nhds).eventually_lt_const c0
    obtain ⟨δ, ⟨⟨h1, h2⟩, h3⟩, h4⟩ := (((hb.and hc).and small).and self_mem_nhdsWithin).exists
    rw [shift] at h1
    have h4 : 0 < δ := h4
    have : c * δ ^ 2 ≤ C * δ ^ 2 * δ ^ 2 := by
      have e : C * δ ^ 2 * δ ^ 2 = C * δ ^ 4 := by ring
      rw [e]; linarith
    have := lt_of_lt_of_le (mul_lt_mul_of_pos_right h3 (by positivity : 0 < δ ^ 2)) this
    exact lt_irrefl _ this
  · push Not at two
    obtain ⟨fr, hfr⟩ := hne
    apply hfr
    have flat : ∀ fr, power h fr = power h f0 := by
      by_cases z : ∀ n, h n = 0
      · intro fr; simp [power, zT, z]
      · push Not at z
        obtain ⟨j, hj⟩ := z
        have only : ∀ n, n ≠ j → h n = 0 := fun n hn => by
          by_contra hh
          rcases lt_or_gt_of_ne hn with l | l
          · exact hj (two n j l hh)
          · exact hh (two j n l hj)
        have one : ∀ fr, power h fr = |h j| ^ 2 := fun fr => by
          rw [power, zT, tsum_eq_single j fun n hn => by rw [only n hn]; simp]
          rw [norm_mul, norm_pow, norm_circle_inv, one_pow, _root_.mul_one, Complex.norm_real, Real.norm_eq_abs]
        intro fr; rw [one, one]
    rw [flat]
    exact le_antisymm ((power_le hs f0).trans (pow_le_pow_left₀ S0 hS 2)) top

end Iir
