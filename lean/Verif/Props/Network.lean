import Verif.Props.Series
import Mathlib.RingTheory.PowerSeries.Basic
import Mathlib.Analysis.Normed.Ring.InfiniteSum

/-! # C102: filters connected in series and in parallel -/

set_option linter.unusedSectionVars false

namespace Iir
open FArith XR Spec Exec

/-! ## Statements -/

/-- A network without feedback: filters of the library, delays by one sample, series connections and mixers; what it does with
the input and its response. -/
inductive Spec.Network : ((ℕ → ℝ) → (ℕ → ℝ) → Prop) → (ℝ → ℂ) → Prop
  | device {run H} : Device run H → Network run H
  | wire : Network (fun x y => y = x) fun _ => 1
  | delay : Network (fun x y => y = delayed 1 x) fun fr => (circle fr)⁻¹
  | series {run H run' H'} : Network run H → Network run' H' →
      Network (fun x z => ∃ y, run x y ∧ run' y z) fun fr => H fr * H' fr
  | mix {run H run' H'} (c c' : ℝ) : Network run H → Network run' H' →
      Network (fun x y => ∃ u v, run x u ∧ run' x v ∧ ∀ n, y n = c * u n + c' * v n) fun fr => c * H fr + c' * H' fr

/-! ## Tools -/

/-- convolution -/
def convolve (h x : ℕ → ℝ) (n : ℕ) : ℝ := ∑ k ∈ Finset.range (n + 1), h k * x (n - k)

theorem mk_conv (h x : ℕ → ℝ) : PowerSeries.mk (convolve h x) = PowerSeries.mk h * PowerSeries.mk x := by
  ext n
  rw [PowerSeries.coeff_mk, PowerSeries.coeff_mul, Finset.Nat.sum_antidiagonal_eq_sum_range_succ_mk]
  simp only [PowerSeries.coeff_mk, convolve]

theorem conv_ext {h x y : ℕ → ℝ} : y = convolve h x ↔ PowerSeries.mk y = PowerSeries.mk h * PowerSeries.mk x := by
  rw [← mk_conv]
  refine ⟨fun e => by rw [e], fun e => funext fun n => ?_⟩
  have := congrArg (PowerSeries.coeff n) e
  simpa using this

theorem mk_impulse : PowerSeries.mk impulse = 1 := by
  ext n
  rw [PowerSeries.coeff_mk, PowerSeries.coeff_one, impulse]

theorem conv_impulse (h : ℕ → ℝ) : convolve h impulse = h := by
  symm
  rw [conv_ext, mk_impulse, _root_.mul_one]

/-- `run` is convolution with an absolutely summable signal whose spectrum is `H` -/
def Linear (run : (ℕ → ℝ) → (ℕ → ℝ) → Prop) (H : ℝ → ℂ) : Prop :=
  ∃ h, Summable (fun n => |h n|) ∧ (∀ x y, run x y ↔ y = convolve h x) ∧
    ∀ fr, 0 < fr → fr < 1 / 2 → zT h (circle fr)⁻¹ = H fr

theorem Known.linear {run : (ℕ → ℝ) → (ℕ → ℝ) → Prop} {H : ℝ → ℂ} (k : Known run H) : Linear run H := by
  obtain ⟨h, hh, -, hs, -, hz⟩ := k.peak
  have key : ∀ x y, run x y → y = convolve h x := fun x y hy => funext fun n => k.conv hh hy n
  refine ⟨h, hs, fun x y => ⟨key x y, fun e => ?_⟩, hz⟩
  obtain ⟨z, hz⟩ := k.total x
  rw [e, ← key x z hz]
  exact hz

theorem linear_wire : Linear (fun x y => y = x) fun _ => 1 := by
  refine ⟨impulse, ?_, fun x y => ?_, fun fr _ _ => zT_impulse _⟩
  · exact summable_of_ne_finset_zero (s := {0}) fun n hn => by simp [impulse, Finset.mem_singleton.not.1 hn]
  · rw [conv_ext, mk_impulse, _root_.one_mul]
    refine ⟨fun e => by rw [e], fun e => funext fun n => ?_⟩
    simpa using congrArg (PowerSeries.coeff n) e

theorem linear_delay : Linear (fun x y => y = delayed 1 x) fun fr => (circle fr)⁻¹ := by
  refine ⟨delayed 1 impulse, ?_, fun x y => ?_, fun fr _ _ => ?_⟩
  · refine summable_of_ne_finset_zero (s := {1}) fun n hn => ?_
    have := Finset.mem_singleton.not.1 hn
    rw [delayed, impulse]
    split_ifs <;> first | omega | simp
  · have e : ∀ z : ℕ → ℝ, PowerSeries.mk (delayed 1 z) = PowerSeries.X * PowerSeries.mk z := fun z => by
      ext n
      cases n with
      | zero => simp [delayed]
      | succ n => simp [delayed, PowerSeries.coeff_succ_X_mul]
    rw [conv_ext, e, mk_impulse, _root_.mul_one, ← e]
    refine ⟨fun e => by rw [e], fun e => funext fun n => ?_⟩
    simpa using congrArg (PowerSeries.coeff n) e
  · rw [zT, tsum_eq_single 1 fun n hn => ?_]
    · simp [delayed, impulse]
    · rw [delayed, impulse]
      split_ifs <;> first | omega | simp

theorem Linear.series {run run' : (ℕ → ℝ) → (ℕ → ℝ) → Prop} {H H' : ℝ → ℂ} (k : Linear run H) (k' : Linear run' H') :
    Linear (fun x z => ∃ y, run x y ∧ run' y z) fun fr => H fr * H' fr := by
  obtain ⟨h, hs, hr, hz⟩ := k
  obtain ⟨h', hs', hr', hz'⟩ := k'
  refine ⟨convolve h h', ?_, fun x z => ?_, fun fr a b => ?_⟩
  · exact summable_norm_sum_mul_range_of_summable_norm (f := h) (g := h') hs hs'
  · have : (∃ y, run x y ∧ run' y z) ↔ z = convolve h' (convolve h x) :=
      ⟨fun ⟨y, hy, e⟩ => by rw [(hr' _ _).1 e, (hr _ _).1 hy], fun e => ⟨_, (hr _ _).2 rfl, (hr' _ _).2 e⟩⟩
    refine this.trans ?_
    rw [conv_ext, conv_ext, mk_conv, mk_conv, ← _root_.mul_assoc, _root_.mul_comm (PowerSeries.mk h')]
  · have w1 := norm_circle_inv fr
    beta_reduce
    rw [← hz fr a b, ← hz' fr a b, zT, zT, zT, tsum_mul_tsum_eq_tsum_sum_range_of_summable_norm (zT_summable hs w1).norm
      (zT_summable hs' w1).norm]
    refine tsum_congr fun n => ?_
    rw [convolve, Complex.ofReal_sum, Finset.sum_mul]
    refine Finset.sum_congr rfl fun k hk => ?_
    have hk : k ≤ n := Nat.lt_succ_iff.1 (Finset.mem_range.1 hk)
    rw [show (circle fr)⁻¹ ^ n = (circle fr)⁻¹ ^ k * (circle fr)⁻¹ ^ (n - k) by rw [← pow_add, Nat.add_sub_cancel' hk]]
    push_cast; ring

theorem Linear.mix {run run' : (ℕ → ℝ) → (ℕ → ℝ) → Prop} {H H' : ℝ → ℂ} (c c' : ℝ) (k : Linear run H) (k' : Linear run' H') :
    Linear (fun x y => ∃ u v, run x u ∧ run' x v ∧ ∀ n, y n = c * u n + c' * v n) fun fr => c * H fr + c' * H' fr := by
  obtain ⟨h, hs, hr, hz⟩ := k
  obtain ⟨h', hs', hr', hz'⟩ := k'
  refine ⟨fun n => c * h n + c' * h' n, ?_, fun x y => ?_, fun fr a b => ?_⟩
  · refine Summable.of_nonneg_of_le (fun n => abs_nonneg _) (fun n => ?_) ((hs.mul_left |c|).add (hs'.mul_left |c'|))
    rw [← abs_mul, ← abs_mul]
    exact abs_add_le _ _
  · have e : convolve (fun n => c * h n + c' * h' n) x = fun n => c * convolve h x n + c' * convolve h' x n := by
      funext n
      simp only [convolve, Finset.mul_sum, ← Finset.sum_add_distrib]
      exact Finset.sum_congr rfl fun k _ => by ring
    rw [e]
    constructor
    · rintro ⟨u, v, hu, hv, hy⟩
      rw [← (hr _ _).1 hu, ← (hr' _ _).1 hv]
      exact funext hy
    · rintro rfl
      exact ⟨_, _, (hr _ _).2 rfl, (hr' _ _).2 rfl, fun _ => rfl⟩
  · have w1 := norm_circle_inv fr
    beta_reduce
    rw [← hz fr a b, ← hz' fr a b, zT, zT, zT, ← tsum_mul_left, ← tsum_mul_left,
      ← ((zT_summable hs w1).mul_left _).tsum_add ((zT_summable hs' w1).mul_left _)]
    exact tsum_congr fun n => by push_cast; ring

variable {run run' : (ℕ → ℝ) → (ℕ → ℝ) → Prop} {H H' : ℝ → ℂ}

theorem Spec.Network.linear (h : Network run H) : Linear run H := by
  induction h with
  | device h => exact h.known.linear
  | wire => exact linear_wire
  | delay => exact linear_delay
  | series _ _ h h' => exact h.series h'
  | mix c c' _ _ h h' => exact h.mix c c' h'

/-! ## C102 -/

/-- **C102**: a network answers every input by exactly one output. -/
theorem C102_total (h : Network run H) (x : ℕ → ℝ) : ∃! y, run x y := by
  obtain ⟨h, -, hr, -⟩ := h.linear
  exact ⟨_, (hr _ _).2 rfl, fun z hz => (hr _ _).1 hz⟩

/-- **C102**: two networks do the same if and only if their responses are the same between 0 and half the sampling rate. -/
theorem C102_response (h : Network run H) (h' : Network run' H') :
    (∀ fr, 0 < fr → fr < 1 / 2 → H fr = H' fr) ↔ ∀ x y, run x y ↔ run' x y := by
  obtain ⟨g, hs, hr, hz⟩ := h.linear
  obtain ⟨g', hs', hr', hz'⟩ := h'.linear
  constructor
  · intro e
    obtain rfl : g = g' := eq_of_spectrum hs hs' fun fr a b => by rw [hz fr a b, hz' fr a b, e fr a b]
    exact fun x y => by rw [hr, hr']
  · intro e fr a b
    have : convolve g impulse = convolve g' impulse := (hr' _ _).1 ((e _ _).1 ((hr _ _).2 rfl))
    rw [conv_impulse, conv_impulse] at this
    rw [← hz fr a b, ← hz' fr a b, this]

/-- **C102**: a sampled sinusoid comes out, after transients, scaled and shifted by the response. -/
theorem C102_settles (h : Network run H) {fr A φ : ℝ} (a : 0 < fr) (b : fr < 1 / 2) {y : ℕ → ℝ}
    (hy : run (fun n => A * Real.cos (2 * Real.pi * fr * n + φ)) y) : Settles (H fr) fr A φ y := by
  obtain ⟨g, hs, hr, hz⟩ := h.linear
  have w1 := norm_circle_inv fr
  have hsum := (zT_summable hs w1).hasSum.tendsto_sum_nat.comp (Filter.tendsto_add_atTop_nat 1)
  change Filter.Tendsto _ _ (nhds (zT g (circle fr)⁻¹)) at hsum
  rw [hz fr a b] at hsum
  set K : ℂ := A * Complex.exp (φ * Complex.I) with hK
  refine settles_of (squeeze_zero_norm (a := fun n : ℕ => ‖∑ k ∈ Finset.range (n + 1), (g k : ℂ) * (circle fr)⁻¹ ^ k - H fr‖ * ‖K‖)
    (fun n => ?_) ?_)
  · have e : y n = ((∑ k ∈ Finset.range (n + 1), (g k : ℂ) * (circle fr)⁻¹ ^ k) * K * circle fr ^ n).re := by
      rw [(hr _ _).1 hy, convolve, Finset.sum_mul, Finset.sum_mul, Complex.re_sum]
      refine Finset.sum_congr rfl fun k hk => ?_
      have hk : k ≤ n := Nat.lt_succ_iff.1 (Finset.mem_range.1 hk)
      rw [cos_eq_re, ← Complex.re_ofReal_mul]
      congr 1
      have hc := circle_ne_zero fr
      rw [show circle fr ^ n = circle fr ^ k * circle fr ^ (n - k) by rw [← pow_add, Nat.add_sub_cancel' hk], inv_pow, ← hK]
      field_simp
    rw [e, ← Complex.sub_re, Real.norm_eq_abs, ← sub_mul, ← sub_mul]
    refine (Complex.abs_re_le_norm _).trans_eq ?_
    rw [norm_mul, norm_mul, norm_pow, norm_circle, one_pow, _root_.mul_one]
  · have := ((hsum.sub_const (H fr)).norm.mul_const ‖K‖)
    simpa using this

/-- **C102**: the peak gain is the sum of the absolute values of the answer to an impulse, and at least the gain at every
frequency. -/
theorem C102_peak (h : Network run H) : ∃ y P, run impulse y ∧ HasSum (fun n => |y n|) P ∧ PeakGain run P ∧
    ∀ fr, 0 < fr → fr < 1 / 2 → ‖H fr‖ ≤ P := by
  obtain ⟨g, hs, hr, hz⟩ := h.linear
  refine ⟨g, _, (hr _ _).2 (conv_impulse g).symm, hs.hasSum, ⟨fun x y hy M hx n => ?_, fun B hB M hM => ?_⟩, fun fr a b => ?_⟩
  · rw [(hr _ _).1 hy, convolve]
    have M0 : 0 ≤ M := (abs_nonneg _).trans (hx 0)
    calc |∑ k ∈ Finset.range (n + 1), g k * x (n - k)| ≤ ∑ k ∈ Finset.range (n + 1), |g k * x (n - k)| :=
          Finset.abs_sum_le_sum_abs _ _
      _ ≤ ∑ k ∈ Finset.range (n + 1), |g k| * M := Finset.sum_le_sum fun k _ => by
          rw [abs_mul]; exact mul_le_mul_of_nonneg_left (hx _) (abs_nonneg _)
      _ = (∑ k ∈ Finset.range (n + 1), |g k|) * M := by rw [Finset.sum_mul]
      _ ≤ _ := mul_le_mul_of_nonneg_right (hs.sum_le_tsum _ fun _ _ => abs_nonneg _) M0
  · have t := hs.hasSum.tendsto_sum_nat
    obtain ⟨N, hN⟩ := (t.eventually_const_lt hB).exists_forall_of_atTop
    have hN := hN (N + 1) (Nat.le_succ N)
    set x : ℕ → ℝ := fun m => if 0 ≤ g (N - m) then M else -M with hx
    refine ⟨x, _, N, fun m => ?_, (hr _ _).2 rfl, ?_⟩
    · simp only [hx]; split
      · exact .inl rfl
      · exact .inr rfl
    · rw [convolve]
      refine (mul_lt_mul_of_pos_right hN hM).trans_le ((le_of_eq ?_).trans (le_abs_self _))
      rw [Finset.sum_mul]
      refine Finset.sum_congr rfl fun k hk => ?_
      have hk : k ≤ N := Nat.lt_succ_iff.1 (Finset.mem_range.1 hk)
      simp only [hx, show N - (N - k) = k by omega]
      split_ifs with c
      · rw [abs_of_nonneg c]
      · rw [abs_of_neg (not_le.1 c)]; ring
  · have := power_le hs fr
    rw [power, hz fr a b] at this
    exact le_of_sq_le_sq this (tsum_nonneg fun _ => abs_nonneg _)

/-! ## Cases -/

section
variable {S : Type → Type} [StateType S XR] [DelayLine XR S] {T : Type} [Sample T XR]

/-- a Chebyshev II high pass of order 2 mixed with half of a delayed RBJ low pass -/
example : ∃ H, Network (fun x y => ∃ u v, SetupRuns S T 2 (.setupN (.c2HighPass (fin (1 / 4)) (fin 60))) x u ∧
    (∃ w, RBJRuns (.lowPass (fin (1 / 8)) (fin 2)) x w ∧ v = delayed 1 w) ∧ ∀ n, y n = (1 : ℝ) * u n + (1 / 2 : ℝ) * v n) H := by
  obtain ⟨H, hH⟩ := C100_device_rbj (.lowPass (1 / 8) 2) ⟨by norm_num, by norm_num, two_pos⟩
  obtain ⟨G, hG⟩ := C100_device (S := S) (T := T) (call := .setupN (.c2HighPass (fin (1 / 4)) (fin 60))) (n := 2) (o := 2)
    (d := .c2HighPass (fin (1 / 4)) (fin 60)) ⟨rfl, rfl, by norm_num, le_rfl, by norm_num⟩
    ⟨⟨by norm_num, by norm_num⟩, by norm_num⟩
  exact ⟨_, .mix 1 (1 / 2) (.device hG) (.series (.device hH) .delay)⟩

/-- it does not matter whether a signal is delayed before or after a network -/
example (h : Network run H) (x y : ℕ → ℝ) : (∃ u, u = delayed 1 x ∧ run u y) ↔ ∃ u, run x u ∧ y = delayed 1 u :=
  (C102_response (.series .delay h) (.series h .delay)).1 (fun _ _ _ => _root_.mul_comm _ _) x y

/-- a signal and the same signal delayed, added -/
example : ∃ P, PeakGain (fun x y => ∃ u v, u = x ∧ v = delayed 1 x ∧ ∀ n, y n = (1 : ℝ) * u n + (1 : ℝ) * v n) P := by
  obtain ⟨-, P, -, -, h, -⟩ := C102_peak (.mix 1 1 .wire .delay)
  exact ⟨P, h⟩

end

end Iir
