import Verif.Spec.Headroom
import Verif.Lemmas.Headroom
import Verif.Props.Knobs
import Verif.Props.Mirror
import Verif.Props.Ripple
import Verif.Props.Objects
import Verif.Props.PoleAccuracy

/-! # C98: how loud the output can get

The absolute values of the impulse answer of a stable filter sum to a number `P`; samples between -1 and 1 are answered
by samples between `-P` and `P`, and inputs of samples 1 and -1 come as near to `P` as one likes.  The gain is never more
than `P`, but `P` is more than the greatest gain for the maximally flat designs: their output leaves [-1, 1] for some
inputs in [-1, 1] although they amplify no frequency. -/

set_option linter.unusedSectionVars false

namespace Iir
open Spec XR Filter Topology

/-! ## Tools -/

theorem zT_impulse (w : ℂ) : zT impulse w = 1 := by
  rw [zT, tsum_eq_single 0 fun n hn => by simp [impulse, hn]]; simp [impulse]

section known
variable {run : (ℕ → ℝ) → (ℕ → ℝ) → Prop} {H : ℝ → ℂ}

/-- the answer to an impulse and the peak gain of a stable chain -/
theorem Known.peak (k : Known run H) : ∃ h, run impulse h ∧ (∀ h', run impulse h' → h' = h) ∧
    Summable (fun n => |h n|) ∧ PeakGain run (∑' n, |h n|) ∧
    ∀ fr, 0 < fr → fr < 1 / 2 → zT h (circle fr)⁻¹ = H fr := by
  obtain ⟨ks, h1, h2, h3, h4⟩ := k
  obtain ⟨hs, hz⟩ := chain_spectrum h1 h2 (x := impulse) (N := 1) fun n hn => by
    simp [impulse, Nat.one_le_iff_ne_zero.1 hn]
  set h := chainOut (ks.map Coeffs.norm) (rest ks.length) impulse with hh
  have conv : ∀ x y, run x y → ∀ n, y n = ∑ k ∈ Finset.range (n + 1), h k * x (n - k) := fun x y hy n =>
    chain_conv h1 (chain_diffChain ks impulse) ((h4 _ _).1 hy ▸ chain_diffChain ks x) n
  refine ⟨h, (h4 _ _).2 rfl, fun h' e => (h4 _ _).1 e, hs, ⟨fun x y hy M hx n => ?_, fun B hB M hM => ?_⟩, fun fr a b => ?_⟩
  · rw [conv x y hy n]
    have M0 : 0 ≤ M := (abs_nonneg _).trans (hx 0)
    calc |∑ k ∈ Finset.range (n + 1), h k * x (n - k)| ≤ ∑ k ∈ Finset.range (n + 1), |h k * x (n - k)| :=
          Finset.abs_sum_le_sum_abs _ _
      _ ≤ ∑ k ∈ Finset.range (n + 1), |h k| * M := Finset.sum_le_sum fun k _ => by
          rw [abs_mul]; exact mul_le_mul_of_nonneg_left (hx _) (abs_nonneg _)
      _ = (∑ k ∈ Finset.range (n + 1), |h k|) * M := by rw [Finset.sum_mul]
      _ ≤ _ := mul_le_mul_of_nonneg_right (hs.sum_le_tsum _ fun _ _ => abs_nonneg _) M0
  · have t := hs.hasSum.tendsto_sum_nat
    obtain ⟨N, hN⟩ := (t.eventually_const_lt hB).exists_forall_of_atTop
    have hN := hN (N + 1) (Nat.le_succ N)
    set x : ℕ → ℝ := fun m => if 0 ≤ h (N - m) then M else -M with hx
    refine ⟨x, _, N, fun m => ?_, (h4 _ _).2 rfl, ?_⟩
    · simp only [hx]; split
      · exact .inl rfl
      · exact .inr rfl
    · rw [conv x _ ((h4 _ _).2 rfl) N]
      refine (mul_lt_mul_of_pos_right hN hM).trans_le ((le_of_eq ?_).trans (le_abs_self _))
      rw [Finset.sum_mul]
      refine Finset.sum_congr rfl fun k hk => ?_
      have hk : k ≤ N := Nat.lt_succ_iff.1 (Finset.mem_range.1 hk)
      simp only [hx, show N - (N - k) = k by omega]
      split_ifs with c
      · rw [abs_of_nonneg c]
      · rw [abs_of_neg (not_le.1 c)]; ring
  · rw [hz fr, zT_impulse, _root_.mul_one, h3 fr a b]

/-- the output is the convolution of the input with the answer to an impulse -/
theorem Known.conv (k : Known run H) {h x y : ℕ → ℝ} (hh : run impulse h) (hy : run x y) (n : ℕ) :
    y n = ∑ k ∈ Finset.range (n + 1), h k * x (n - k) := by
  obtain ⟨ks, h1, -, -, h4⟩ := k
  exact chain_conv h1 ((h4 _ _).1 hh ▸ chain_diffChain ks impulse) ((h4 _ _).1 hy ▸ chain_diffChain ks x) n

/-- an input of full scale whose answer goes beyond a level of flat gain -/
theorem Known.overshoots (k : Known run H) {f0 L C : ℝ} (hL : 0 < L) (h0 : 0 ≤ f0) (h1 : f0 < 1 / 2)
    (hb : ∀ᶠ δ in 𝓝[>] (0 : ℝ), L ^ 2 - ‖H (f0 + δ)‖ ^ 2 ≤ C * δ ^ 4)
    (hne : ∃ fr, 0 < fr ∧ fr < 1 / 2 ∧ ‖H fr‖ ^ 2 ≠ L ^ 2) : Overshoots L run := by
  obtain ⟨h, -, -, hs, hp, hz⟩ := k.peak
  have hw : ∀ fr, 0 < fr → fr < 1 / 2 → power h fr = ‖H fr‖ ^ 2 := fun fr a b => by rw [power, hz fr a b]
  obtain ⟨fr, a, b, e⟩ := hne
  refine hp.sharp L (flat_overshoot hs (f0 := f0) (C := C) hL ?_ ⟨fr, by rwa [hw fr a b]⟩)
  filter_upwards [hb, Ioo_mem_nhdsGT (show (0 : ℝ) < 1 / 2 - f0 by linarith)] with δ hδ hm
  rwa [hw _ (by linarith [hm.1]) (by linarith [hm.2])]

end known

variable {S S' : Type → Type} [StateType S XR] [DelayLine XR S] [StateType S' XR] [DelayLine XR S'] {T T' : Type}
  [Sample T XR] [Sample T' XR] {n o : ℕ} {call : Call XR} {fc fw g r : ℝ}

/-- a valid design, its response and its gain -/
theorem known_gain {d : Design XR} (h : Asks call n o d) (hv : Valid o d) :
    ∃ H, Known (SetupRuns S T n call) H ∧
      ∀ fr v, 0 < fr → fr < 1 / 2 → AfterSetup S T n call (GainSq · fr v) → ‖H fr‖ ^ 2 = v := by
  obtain ⟨H, hH⟩ := transfer_fun o d
  refine ⟨H, known_design h hv (hH S), fun fr v a b A => ?_⟩
  obtain ⟨f', e, -, hr, w, hw, hn⟩ := (((C66_response h hv).mono (hH S)).and A) _ .new
  have e2 : (ofC (H fr) : Cx XR) = ofC w := Res.ok.inj ((hr fr a b).symm.trans hw)
  have e3 : H fr = w := by
    simp only [ofC, Cx.mk.injEq, XR.fin.injEq] at e2
    exact Complex.ext e2.1 e2.2
  rw [e3, hn]

/-- a prewarped frequency that is 0 at `f0` -/
theorem ratio_linear {ρ : ℝ → ℝ} {ρ' f0 : ℝ} (hd : HasDerivAt ρ ρ' f0) (h0 : ρ f0 = 0) :
    ∃ K, ∀ᶠ δ in 𝓝[>] (0 : ℝ), |ρ (f0 + δ)| ≤ K * δ ∧ |ρ (f0 + δ)| ≤ 1 := by
  have hc : Tendsto (fun δ => f0 + δ) (𝓝[>] (0 : ℝ)) (𝓝 f0) := by
    have : Continuous fun δ : ℝ => f0 + δ := by fun_prop
    have t := this.tendsto 0
    rw [add_zero] at t
    exact t.mono_left nhdsWithin_le_nhds
  obtain ⟨K, hK⟩ := (hd.isBigO_sub.comp_tendsto hc).bound
  refine ⟨K, ?_⟩
  have t1 : Tendsto (fun δ => |ρ (f0 + δ)|) (𝓝[>] (0 : ℝ)) (𝓝 |ρ f0|) := ((hd.continuousAt.tendsto).comp hc).abs
  rw [h0, abs_zero] at t1
  filter_upwards [hK, t1.eventually_le_const one_pos, self_mem_nhdsWithin] with δ a b c
  have c : 0 < δ := c
  simp only [Function.comp, h0, sub_zero, add_sub_cancel_left, Real.norm_eq_abs, abs_of_pos c] at a
  exact ⟨a, b⟩

/-- the gain near a frequency where the prewarped frequency is 0 -/
theorem flat_of {Φ ρ : ℝ → ℝ} {ρ' f0 A C : ℝ} (hd : HasDerivAt ρ ρ' f0) (h0 : ρ f0 = 0) (hC : 0 ≤ C)
    (hΦ : ∀ t, |t| ≤ 1 → A - Φ t ≤ C * t ^ 4) :
    ∃ C', ∀ᶠ δ in 𝓝[>] (0 : ℝ), A - Φ (ρ (f0 + δ)) ≤ C' * δ ^ 4 := by
  obtain ⟨K, hK⟩ := ratio_linear hd h0
  refine ⟨C * K ^ 4, ?_⟩
  filter_upwards [hK] with δ hδ
  refine (hΦ _ hδ.2).trans ?_
  rw [_root_.mul_assoc, ← mul_pow]
  refine mul_le_mul_of_nonneg_left ?_ hC
  have := pow_le_pow_left₀ (abs_nonneg _) hδ.1 4
  rwa [Even.pow_abs (by decide)] at this

theorem deriv_low (fc : ℝ) : ∃ ρ', HasDerivAt (lowRatio fc) ρ' 0 := by
  have h1 : HasDerivAt (fun f : ℝ => Real.pi * f) Real.pi 0 := by simpa using (hasDerivAt_id (0 : ℝ)).const_mul Real.pi
  have h2 : HasDerivAt Real.tan (1 / Real.cos (Real.pi * 0) ^ 2) (Real.pi * 0) := Real.hasDerivAt_tan (by simp)
  exact ⟨_, (h2.comp (0 : ℝ) h1).div_const _⟩

section band
variable {f1 f2 : ℝ}

theorem Band.sin_pos' (h : Band f1 f2) : 0 < Real.sin (Real.pi * (f2 - f1)) := by
  have := Real.pi_pos
  have h1 := h.pos; have h2 := h.lt; have h3 := h.half
  exact Real.sin_pos_of_pos_of_lt_pi (by nlinarith) (by nlinarith)

theorem Band.deriv_mid (h : Band f1 f2) : ∃ ρ', HasDerivAt (bandRatio f1 f2) ρ' (bandMid f1 f2) := by
  have hm := h.mid_mem
  have hpi := Real.pi_pos
  have hs : Real.sin (2 * Real.pi * bandMid f1 f2) ≠ 0 :=
    (Real.sin_pos_of_pos_of_lt_pi (by nlinarith) (by nlinarith)).ne'
  have : DifferentiableAt ℝ (bandRatio f1 f2) (bandMid f1 f2) := by
    unfold bandRatio
    exact DifferentiableAt.div (by fun_prop) (by fun_prop) (mul_ne_zero h.sin_pos'.ne' hs)
  exact ⟨_, this.hasDerivAt⟩

theorem Band.deriv_zero (h : Band f1 f2) : ∃ ρ', HasDerivAt (fun f => (bandRatio f1 f2 f)⁻¹) ρ' 0 := by
  have : DifferentiableAt ℝ (fun f => (bandRatio f1 f2 f)⁻¹) 0 := by
    rw [show (fun f => (bandRatio f1 f2 f)⁻¹) = _ from funext (bandRatio_inv f1 f2)]
    refine DifferentiableAt.div (by fun_prop) (by fun_prop) ?_
    exact h.num_ne le_rfl (by norm_num) (.inl h.pos.le)
  exact ⟨_, this.hasDerivAt⟩

end band

/-! ### The flat responses -/

theorem bw_flat (ho : 2 ≤ o) (t : ℝ) (ht : |t| ≤ 1) : (1 : ℝ) ^ 2 - 1 / (1 + t ^ (2 * o)) ≤ 1 * t ^ 4 := by
  rw [one_pow]
  have h0 : 0 ≤ t ^ (2 * o) := (even_two_mul o).pow_nonneg t
  have h1 : t ^ (2 * o) ≤ t ^ 4 := by
    rw [← (even_two_mul o).pow_abs, ← Even.pow_abs (n := 4) (by decide)]
    exact pow_le_pow_of_le_one (abs_nonneg _) ht (by omega)
  have e : (1 : ℝ) - 1 / (1 + t ^ (2 * o)) = t ^ (2 * o) / (1 + t ^ (2 * o)) := by field_simp; ring
  rw [e, _root_.one_mul]
  exact (div_le_self h0 (by linarith)).trans h1

theorem cheb_grow (ho : 2 ≤ o) {x : ℝ} (hx : 1 ≤ |x|) : x ^ 4 ≤ chebT o x ^ 2 := by
  have key : ∀ x : ℝ, 1 ≤ x → x ^ 4 ≤ chebT o x ^ 2 := fun x hx => by
    have e2 : chebT 2 x = 2 * x ^ 2 - 1 := by
      show (Polynomial.Chebyshev.T ℝ ((2 : ℕ) : ℤ)).eval x = _
      rw [show ((2 : ℕ) : ℤ) = 2 from rfl, Polynomial.Chebyshev.T_two]; simp
    have h2 : x ^ 4 ≤ chebT 2 x ^ 2 := by rw [e2]; nlinarith [sq_nonneg (x ^ 2 - 1), one_le_pow₀ hx (n := 2)]
    rcases hx.eq_or_lt with rfl | hx
    · simp [Polynomial.Chebyshev.T_eval_one]
    · rcases ho.eq_or_lt with rfl | ho
      · exact h2
      · exact h2.trans (chebT_sq_order ho hx).le
  rcases le_abs.1 hx with h | h
  · exact key x h
  · have := key (-x) h
    rwa [chebT_neg_sq, Even.neg_pow (by decide)] at this

theorem cheb2_flat (ho : 2 ≤ o) (hr : 0 < r) {x : ℝ} (hx : 1 ≤ |x|) :
    1 - cheb2 o r x ≤ ((10 : ℝ) ^ (r / 10) - 1) * (1 / x) ^ 4 := by
  have hE := eps_pos hr
  have h4 := cheb_grow ho hx
  have x0 : 0 < x ^ 4 := by
    rw [← Even.pow_abs (n := 4) (by decide)]; exact pow_pos (by linarith) 4
  have hT : 0 < chebT o x ^ 2 := x0.trans_le h4
  have e : 1 - cheb2 o r x = ((10 : ℝ) ^ (r / 10) - 1) / (chebT o x ^ 2 + ((10 : ℝ) ^ (r / 10) - 1)) := by
    rw [cheb2]; field_simp; ring
  rw [e, one_div, inv_pow, ← div_eq_mul_inv]
  exact div_le_div_of_nonneg_left hE.le x0 (by linarith)

theorem cheb2_flat' (ho : 2 ≤ o) (hr : 0 < r) (t : ℝ) (ht : |t| ≤ 1) :
    1 ^ 2 - (if t = 0 then 1 else cheb2 o r (1 / t)) ≤ ((10 : ℝ) ^ (r / 10) - 1) * t ^ 4 := by
  rw [one_pow]
  split_ifs with c
  · simp [c]
  · have : 1 ≤ |1 / t| := by
      rw [abs_div, abs_one, le_div_iff₀ (abs_pos.2 c)]; linarith
    have := cheb2_flat ho hr this
    rwa [one_div_one_div] at this

theorem bwShelf_flat (ho : 2 ≤ o) (hg : 0 < g) (t : ℝ) (ht : |t| ≤ 1) :
    ofDb g ^ 2 - bwShelf o g t ≤ ofDb g * (ofDb g ^ 2 - 1) * t ^ 4 := by
  have hG : 1 < ofDb g := Real.one_lt_rpow (by norm_num) (by positivity)
  have h0 : 0 ≤ t ^ (2 * o) := (even_two_mul o).pow_nonneg t
  have h1 : t ^ (2 * o) ≤ t ^ 4 := by
    rw [← (even_two_mul o).pow_abs, ← Even.pow_abs (n := 4) (by decide)]
    exact pow_le_pow_of_le_one (abs_nonneg _) ht (by omega)
  have hG1 : 0 ≤ ofDb g * (ofDb g ^ 2 - 1) := mul_nonneg (by linarith) (by nlinarith)
  have hG0 : 0 < ofDb g := by linarith
  refine le_trans ?_ (mul_le_mul_of_nonneg_left h1 hG1)
  rw [bwShelf]
  generalize ofDb g = G at *
  generalize t ^ (2 * o) = u at *
  have e : G ^ 2 - (u + G) / (u + 1 / G) = G * (G ^ 2 - 1) * u / (1 + G * u) := by field_simp; ring
  rw [e]
  exact div_le_self (mul_nonneg hG1 h0) (by nlinarith [mul_nonneg hG0.le h0])

theorem ofDb_cut (hg : g < 0) : ofDb g < 1 := Real.rpow_lt_one_of_one_lt_of_neg (by norm_num) (by linarith)

theorem shelf_const (hg : g < 0) : 0 ≤ 1 / ofDb g - ofDb g := by
  have h1 := ofDb_cut hg
  have h0 := ofDb_pos g
  rw [sub_nonneg, le_div_iff₀ h0]; nlinarith

theorem bwShelf_flat_inv (ho : 2 ≤ o) (hg : g < 0) (t : ℝ) (ht : |t| ≤ 1) :
    1 ^ 2 - (if t = 0 then 1 else bwShelf o g t⁻¹) ≤ (1 / ofDb g - ofDb g) * t ^ 4 := by
  have hG0 := ofDb_pos g
  have hc := shelf_const hg
  split_ifs with t0
  · simp [t0]
  have h0 : 0 < t ^ (2 * o) := (even_two_mul o).pow_pos t0
  have h1 : t ^ (2 * o) ≤ t ^ 4 := by
    rw [← (even_two_mul o).pow_abs, ← Even.pow_abs (n := 4) (by decide)]
    exact pow_le_pow_of_le_one (abs_nonneg _) ht (by omega)
  refine le_trans ?_ (mul_le_mul_of_nonneg_left h1 hc)
  rw [bwShelf, inv_pow]
  generalize ofDb g = G at *
  generalize t ^ (2 * o) = u at *
  have e : 1 ^ 2 - (u⁻¹ + G) / (u⁻¹ + 1 / G) = (1 / G - G) * u / (1 + u / G) := by field_simp; ring
  rw [e]
  exact div_le_self (mul_nonneg hc h0.le) (by have := div_pos h0 hG0; linarith)

/-! ## The peak gain -/

/-- **C98**: a reachable stable pole filter: the absolute values of its answer to an impulse sum to a number `P`, its peak
gain; no gain that `response ()` reports is greater. -/
theorem C98_filter {c : Cls} (hn1 : 1 ≤ n) (hn : n < 2 ^ 30) {f : PoleFilter S XR} (h : Reach S T c n f)
    (hst : StableFilter f) : ∃ y P, Runs f impulse y ∧ HasSum (fun n => |y n|) P ∧ PeakGain (Runs f) P ∧
      ∀ fr v, 0 < fr → fr < 1 / 2 → GainSq f fr v → v ≤ P ^ 2 := by
  obtain ⟨ks, hks, hs⟩ := sections_of_stable hst
  have hR : ∀ fr, 0 < fr → fr < 1 / 2 → Response f fr (((ks.map Coeffs.norm).map (secH · (circle fr))).prod) :=
    fun fr a b => h.response_prod hn1 hn hks hs a.le b.le
  obtain ⟨y, hy, -, hsum, hp, hw⟩ := (known_pole hn1 hn h hst hR).peak
  refine ⟨y, _, hy, hsum.hasSum, hp, fun fr v a b hv => ?_⟩
  have e := gainSq_prod hn1 hn h hks hs a.le b.le hv
  have := power_le hsum fr
  rw [power, hw fr a b] at this
  rwa [e] at this

/-- **C98**: the same for every valid design, whatever was done with the object before. -/
theorem C98_design {d : Design XR} (h : Asks call n o d) (hv : Valid o d) :
    ∃ y P, SetupRuns S T n call impulse y ∧ HasSum (fun n => |y n|) P ∧ PeakGain (SetupRuns S T n call) P ∧
      ∀ fr v, 0 < fr → fr < 1 / 2 → AfterSetup S T n call (GainSq · fr v) → v ≤ P ^ 2 := by
  obtain ⟨H, k, hH⟩ := known_gain (S := S) (T := T) h hv
  obtain ⟨y, hy, -, hsum, hp, hw⟩ := k.peak
  refine ⟨y, _, hy, hsum.hasSum, hp, fun fr v a b A => ?_⟩
  rw [← hH fr v a b A, ← hw fr a b, ← power]
  exact power_le hsum fr

theorem rbj_fun (d : RBJ.Design ℝ) : ∃ H : ℝ → ℂ, ∀ b, HasPrototype d b → ∀ fr, 0 < fr → fr < 1 / 2 →
    SectionResponse b fr (H fr) := by
  cases d <;> first | exact ⟨_, fun b hb fr a c => hb.1 fr a.le c⟩ | exact ⟨_, fun b hb fr a c => hb fr a.le c.le⟩

/-- **C98**: the same for every RBJ filter with valid parameters. -/
theorem C98_rbj (d : RBJ.Design ℝ) (hv : ValidRBJ d) : ∃ y P, RBJRuns (finRBJ d) impulse y ∧
    HasSum (fun n => |y n|) P ∧ PeakGain (RBJRuns (finRBJ d)) P ∧
      ∀ fr v, 0 < fr → fr < 1 / 2 → AfterRBJ (finRBJ d) (Gain · fr v) → v ≤ P := by
  obtain ⟨H, hH⟩ := rbj_fun d
  obtain ⟨y, hy, -, hsum, hp, hw⟩ := (known_rbj_design hv hH).peak
  refine ⟨y, _, hy, hsum.hasSum, hp, fun fr v a b A => ?_⟩
  obtain ⟨f', e, -, w, hw', hn⟩ := A RBJ.Filter.init
  obtain ⟨f2, e2, -, hp2⟩ := C66_rbj d hv RBJ.Filter.init
  obtain rfl : f' = f2 := congrArg Prod.snd (e.symm.trans e2)
  have e2 : (ofC (H fr) : Cx XR) = ofC w := Res.ok.inj ((hH _ hp2 fr a b).symm.trans hw')
  have e3 : H fr = w := by
    simp only [ofC, Cx.mk.injEq, XR.fin.injEq] at e2
    exact Complex.ext e2.1 e2.2
  have := power_le hsum fr
  rw [power, hw fr a b, e3, hn] at this
  exact le_of_sq_le_sq this (tsum_nonneg fun _ => abs_nonneg _)

/-- stable sections one after the other -/
theorem known_sections {ks : List Coeffs} (h0 : ∀ k ∈ ks, k.a0 ≠ 0) (hst : ∀ k ∈ ks, k.Stable) :
    Known (DiffChain ks) fun fr => ((ks.map Coeffs.norm).map (secH · (circle fr))).prod :=
  ⟨ks, h0, hst, fun _ _ _ => rfl, fun x _ => ⟨fun h => h.unique (chain_diffChain ks x), fun h => h ▸ chain_diffChain ks x⟩⟩

/-- **C98** for cascades with given coefficients. -/
theorem C98_sos {f : Custom.SOS S XR} (h : SosReach S T n f) {ks : List Coeffs} (hks : HasSections f.stages ks)
    (hst : ∀ k ∈ ks, k.Stable) :
    ∃ y P, Produces (Custom.SOS.filter (T := XR)) (Custom.SOS.reset f).2 impulse y ∧ HasSum (fun n => |y n|) P ∧
      PeakGain (Produces (Custom.SOS.filter (T := XR)) (Custom.SOS.reset f).2) P := by
  have e : Produces (Custom.SOS.filter (T := XR)) (Custom.SOS.reset f).2 = DiffChain ks :=
    funext fun x => funext fun y => propext (C01_sos h hks x y)
  obtain ⟨y, hy, -, hsum, hp, -⟩ := (known_sections (hasSections_iff.1 hks).2 hst).peak
  rw [e]
  exact ⟨y, _, hy, hsum.hasSum, hp⟩

/-! ## Overshoot -/

theorem overshoots_of {d : Design XR} (h : Asks call n o d) (hv : Valid o d) {P : PoleFilter S XR → Prop}
    (A : AfterSetup S T n call P) {Φ ρ : ℝ → ℝ} (hP : ∀ f, P f → ∀ fr, 0 < fr → fr < 1 / 2 → GainSq f fr (Φ (ρ fr)))
    {f0 L : ℝ} (hL : 0 < L) (h0 : 0 ≤ f0) (h1 : f0 < 1 / 2)
    (hf : ∃ C, ∀ᶠ δ in 𝓝[>] (0 : ℝ), L ^ 2 - Φ (ρ (f0 + δ)) ≤ C * δ ^ 4)
    (hne : ∃ fr, 0 < fr ∧ fr < 1 / 2 ∧ Φ (ρ fr) ≠ L ^ 2) : Overshoots L (SetupRuns S T n call) := by
  obtain ⟨H, k, hH⟩ := known_gain (S := S) (T := T) h hv
  have hv : ∀ fr, 0 < fr → fr < 1 / 2 → ‖H fr‖ ^ 2 = Φ (ρ fr) := fun fr a b =>
    hH fr _ a b (A.mono fun f hf => hP f hf fr a b)
  obtain ⟨C, hC⟩ := hf
  obtain ⟨fr, a, b, e⟩ := hne
  refine k.overshoots (C := C) hL h0 h1 ?_ ⟨fr, a, b, by rwa [hv fr a b]⟩
  filter_upwards [hC, Ioo_mem_nhdsGT (show (0 : ℝ) < 1 / 2 - f0 by linarith)] with δ hδ hm
  rwa [hv _ (by linarith [hm.1]) (by linarith [hm.2])]

theorem overshoots_mirror {d d' : Design XR} {n' : ℕ} {call' : Call XR} (h : Asks call n o d) (h' : Asks call' n' o d')
    (hd : Mirrored d d') (hv : Valid o d) (hv' : Valid o d') {L : ℝ} (k : Overshoots L (SetupRuns S T n call)) :
    Overshoots L (SetupRuns S' T' n' call') := by
  intro M hM
  obtain ⟨x, y, m, hx, hr, hm⟩ := k M hM
  refine ⟨alternate x, alternate y, m, fun i => ?_, (C70_mirror h h' hd hv hv' x y).1 hr, ?_⟩
  · rcases neg_one_pow_eq_or ℝ i with e | e <;> rcases hx i with e' | e' <;> simp [alternate, e, e']
  · rw [alternate, abs_mul, abs_pow, abs_neg, abs_one, one_pow, _root_.one_mul]; exact hm

theorem overshoots_mirror' {d d' : Design XR} {n' : ℕ} {call' : Call XR} (h : Asks call n o d) (h' : Asks call' n' o d')
    (hd : Mirrored d d') (hv : Valid o d) (hv' : Valid o d') {L : ℝ} (k : Overshoots L (SetupRuns S' T' n' call')) :
    Overshoots L (SetupRuns S T n call) := by
  intro M hM
  obtain ⟨x, y, m, hx, hr, hm⟩ := k M hM
  refine ⟨alternate x, alternate y, m, fun i => ?_, (C70_mirror h h' hd hv hv' _ _).2 (by
    rwa [alternate_alternate, alternate_alternate]), ?_⟩
  · rcases neg_one_pow_eq_or ℝ i with e | e <;> rcases hx i with e' | e' <;> simp [alternate, e, e']
  · rw [alternate, abs_mul, abs_pow, abs_neg, abs_one, one_pow, _root_.one_mul]; exact hm

theorem one_sq {x : ℝ} (h : x ≠ 1) : x ≠ 1 ^ 2 := by rwa [one_pow]

/-- **C98**, Butterworth low pass of order 2 or more: some input of samples 1 and -1 is answered by a sample beyond 1,
although no frequency is amplified; for every cutoff. -/
theorem C98_bw_low (h : Asks call n o (.bwLowPass (fin fc))) (ho : 2 ≤ o) (h0 : 0 < fc) (h1 : fc < 1 / 2) :
    Overshoots 1 (SetupRuns S T n call) := by
  obtain ⟨ρ', hd⟩ := deriv_low fc
  refine overshoots_of h ⟨h0, h1⟩ (C30_lowpass h h0 h1) (Φ := fun t => 1 / (1 + t ^ (2 * o))) (ρ := lowRatio fc)
    (fun f k fr a b => k.1.gain fr a.le b) one_pos le_rfl (by norm_num)
    (flat_of hd (lowRatio_zero fc) zero_le_one (bw_flat ho)) ⟨fc, h0, h1, ?_⟩
  simp only [lowRatio_self h0 h1]; norm_num

/-- **C98**, Butterworth high pass -/
theorem C98_bw_high (h : Asks call n o (.bwHighPass (fin fc))) (ho : 2 ≤ o) (h0 : 0 < fc) (h1 : fc < 1 / 2) :
    Overshoots 1 (SetupRuns S T n call) := by
  have hl : Asks (.setupNReq o (.bwLowPass (fin (1 / 2 - fc)))) n o (.bwLowPass (fin (1 / 2 - fc))) :=
    ⟨rfl, rfl, h.pos, h.le, h.small⟩
  have hd := Mirrored.bw (1 / 2 - fc)
  rw [sub_sub_cancel] at hd
  exact overshoots_mirror hl h hd ⟨by linarith, by linarith⟩ ⟨h0, h1⟩
    (C98_bw_low (S := S) (T := T) hl ho (by linarith) (by linarith))

/-- **C98**, Butterworth band pass -/
theorem C98_bw_band (h : Asks call n o (.bwBandPass (fin fc) (fin fw))) (ho : 2 ≤ o)
    (hv : Valid o (.bwBandPass (fin fc) (fin fw))) : Overshoots 1 (SetupRuns S T n call) := by
  have hB := band_of hv.2.2.1
  obtain ⟨ρ', hd⟩ := hB.deriv_mid
  refine overshoots_of h hv (C32_bandpass h hv.1 hv.2.1 hv.2.2.1 fun e => quarter_ne (hv.2.2.2 e))
    (Φ := fun t => 1 / (1 + t ^ (2 * o))) (fun f k fr a b => k.1.gain fr a b) one_pos hB.mid_mem.1.le hB.mid_mem.2
    (flat_of hd hB.ratio_mid zero_le_one (bw_flat ho))
    ⟨_, hB.pos.trans hB.lt, hB.half, ?_⟩
  simp only [hB.ratio_hi]; norm_num

/-- **C98**, Butterworth band stop -/
theorem C98_bw_stop (h : Asks call n o (.bwBandStop (fin fc) (fin fw))) (ho : 2 ≤ o)
    (hv : Valid o (.bwBandStop (fin fc) (fin fw))) : Overshoots 1 (SetupRuns S T n call) := by
  have hB := band_of hv.2.2.1
  obtain ⟨ρ', hd⟩ := hB.deriv_zero
  obtain ⟨C, hC⟩ := flat_of hd (by rw [bandRatio_zero, inv_zero]) zero_le_one (bw_flat ho)
  refine overshoots_of h hv (C33_bandstop h hv.1 hv.2.1 hv.2.2.1 fun e => quarter_ne (hv.2.2.2 e))
    (Φ := fun t => t ^ (2 * o) / (1 + t ^ (2 * o))) (fun f k fr a b => k.1.gain fr a b) one_pos le_rfl (by norm_num)
    ⟨C, ?_⟩ ⟨_, hB.pos.trans hB.lt, hB.half, ?_⟩
  · filter_upwards [hC, Ioo_mem_nhdsGT hB.pos] with δ hδ hm
    refine le_trans (le_of_eq ?_) hδ
    have := hB.ratio_ne hm.1 (hm.2.trans (hB.lt.trans hB.half)) (.inl hm.2.le)
    simp only [zero_add] at this ⊢
    have hp : 0 < bandRatio (bandLo fc fw) (bandHi fc fw) δ ^ (2 * o) := (even_two_mul o).pow_pos this
    rw [inv_pow, one_pow]
    generalize bandRatio (bandLo fc fw) (bandHi fc fw) δ ^ (2 * o) = u at hp
    field_simp
    ring
  · simp only [hB.ratio_hi]; norm_num

/-- **C98**, Chebyshev II low pass -/
theorem C98_c2_low (h : Asks call n o (.c2LowPass (fin fc) (fin r))) (ho : 2 ≤ o) (h0 : 0 < fc) (h1 : fc < 1 / 2)
    (hr : 0 < r) : Overshoots 1 (SetupRuns S T n call) := by
  obtain ⟨ρ', hd⟩ := deriv_low fc
  refine overshoots_of h ⟨⟨h0, h1⟩, hr⟩ (C36_lowpass h h0 h1 hr) (Φ := fun t => if t = 0 then 1 else cheb2 o r (1 / t))
    (ρ := lowRatio fc) (fun f k fr a b => k.1.gain fr a.le b) one_pos le_rfl (by norm_num)
    (flat_of hd (lowRatio_zero fc) (eps_pos hr).le (cheb2_flat' ho hr))
    ⟨fc, h0, h1, ?_⟩
  simp only [lowRatio_self h0 h1, one_ne_zero, if_false]
  exact one_sq (cheb2_lt_one hr _).ne

/-- **C98**, Chebyshev II high pass -/
theorem C98_c2_high (h : Asks call n o (.c2HighPass (fin fc) (fin r))) (ho : 2 ≤ o) (h0 : 0 < fc) (h1 : fc < 1 / 2)
    (hr : 0 < r) : Overshoots 1 (SetupRuns S T n call) := by
  have hl : Asks (.setupNReq o (.c2LowPass (fin (1 / 2 - fc)) (fin r))) n o (.c2LowPass (fin (1 / 2 - fc)) (fin r)) :=
    ⟨rfl, rfl, h.pos, h.le, h.small⟩
  have hd := Mirrored.c2 (1 / 2 - fc) r
  rw [sub_sub_cancel] at hd
  exact overshoots_mirror hl h hd ⟨⟨by linarith, by linarith⟩, hr⟩ ⟨⟨h0, h1⟩, hr⟩
    (C98_c2_low (S := S) (T := T) hl ho (by linarith) (by linarith) hr)

/-- **C98**, Chebyshev II band pass -/
theorem C98_c2_band (h : Asks call n o (.c2BandPass (fin fc) (fin fw) (fin r))) (ho : 2 ≤ o)
    (hv : Valid o (.c2BandPass (fin fc) (fin fw) (fin r))) : Overshoots 1 (SetupRuns S T n call) := by
  have hB := band_of hv.1.2.2.1
  obtain ⟨ρ', hd⟩ := hB.deriv_mid
  refine overshoots_of h hv (C36_bandpass h hv.1.1 hv.1.2.1 hv.2 hv.1.2.2.1 fun e => ?_)
    (Φ := fun t => if t = 0 then 1 else cheb2 o r (1 / t)) (fun f k fr a b => k.1.gain fr a b) one_pos hB.mid_mem.1.le
    hB.mid_mem.2
    (flat_of hd hB.ratio_mid (eps_pos hv.2).le (cheb2_flat' ho hv.2))
    ⟨_, hB.pos.trans hB.lt, hB.half, ?_⟩
  · have h2 := hv.1.2.2.2 e
    simpa only [List.mem_cons, List.not_mem_nil, or_false] using h2
  · simp only [hB.ratio_hi, one_ne_zero, if_false]
    exact one_sq (cheb2_lt_one hv.2 _).ne

/-- **C98**, Chebyshev II band stop -/
theorem C98_c2_stop (h : Asks call n o (.c2BandStop (fin fc) (fin fw) (fin r))) (ho : 2 ≤ o)
    (hv : Valid o (.c2BandStop (fin fc) (fin fw) (fin r))) : Overshoots 1 (SetupRuns S T n call) := by
  have hB := band_of hv.1.2.2.1
  obtain ⟨ρ', hd⟩ := hB.deriv_zero
  obtain ⟨C, hC⟩ := flat_of hd (by rw [bandRatio_zero, inv_zero]) (eps_pos hv.2).le (cheb2_flat' ho hv.2)
  refine overshoots_of h hv (C36_bandstop h hv.1.1 hv.1.2.1 hv.2 hv.1.2.2.1 fun e => ?_)
    (Φ := cheb2 o r) (fun f k fr a b => k.1.gain fr a b) one_pos le_rfl (by norm_num)
    ⟨C, ?_⟩ ⟨_, hB.pos.trans hB.lt, hB.half, ?_⟩
  · have h2 := hv.1.2.2.2 e
    simp only [List.mem_cons, List.not_mem_nil, or_false] at h2
    exact mul_ne_one h2
  · filter_upwards [hC, Ioo_mem_nhdsGT hB.pos] with δ hδ hm
    have := hB.ratio_ne hm.1 (hm.2.trans (hB.lt.trans hB.half)) (.inl hm.2.le)
    simp only [zero_add] at this hδ ⊢
    rw [if_neg (inv_ne_zero this), one_div, inv_inv] at hδ
    exact hδ
  · exact one_sq (cheb2_lt_one hv.2 _).ne

theorem low_shelf_up (h : Asks call n o (.bwLowShelf (fin fc) (fin g))) (ho : 2 ≤ o) (h0 : 0 < fc) (h1 : fc < 1 / 2)
    (hg : 0 < g) : Overshoots (ofDb g) (SetupRuns S T n call) := by
  obtain ⟨ρ', hd⟩ := deriv_low fc
  have hG : 1 < ofDb g := Real.one_lt_rpow (by norm_num) (by positivity)
  refine overshoots_of h ⟨h0, h1⟩ (C34_lowshelf h h0 h1) (Φ := bwShelf o g) (ρ := lowRatio fc)
    (fun f k fr a b => k.1.gain fr a.le b) (ofDb_pos g) le_rfl (by norm_num)
    (flat_of hd (lowRatio_zero fc) (mul_nonneg (by linarith) (by nlinarith)) (bwShelf_flat ho hg)) ⟨fc, h0, h1, ?_⟩
  rw [lowRatio_self h0 h1, bwShelf_one]
  intro e; nlinarith

theorem high_shelf_down (h : Asks call n o (.bwHighShelf (fin fc) (fin g))) (ho : 2 ≤ o) (h0 : 0 < fc) (h1 : fc < 1 / 2)
    (hg : g < 0) : Overshoots 1 (SetupRuns S T n call) := by
  obtain ⟨ρ', hd⟩ := deriv_low fc
  have hG : ofDb g < 1 := ofDb_cut hg
  have hG0 := ofDb_pos g
  obtain ⟨C, hC⟩ := flat_of hd (lowRatio_zero fc) (shelf_const hg) (bwShelf_flat_inv ho hg)
  refine overshoots_of h ⟨h0, h1⟩ (C34_highshelf h h0 h1) (Φ := bwShelf o g) (ρ := highRatio fc)
    (fun f k fr a b => k.1.gain fr a b) one_pos le_rfl (by norm_num) ⟨C, ?_⟩ ⟨fc, h0, h1, ?_⟩
  · filter_upwards [hC, Ioo_mem_nhdsGT (show (0 : ℝ) < 1 / 2 by norm_num)] with δ hδ hm
    rw [zero_add] at hδ ⊢
    rwa [if_neg (lowRatio_pos h0 h1 hm.1 hm.2).ne', ← highRatio_eq_inv] at hδ
  · rw [highRatio_self h0 h1, bwShelf_one]
    exact one_sq hG.ne

/-- **C98**, Butterworth low shelf: beyond the greatest gain, that of the shelf or 1 -/
theorem C98_bw_low_shelf (h : Asks call n o (.bwLowShelf (fin fc) (fin g))) (ho : 2 ≤ o) (h0 : 0 < fc) (h1 : fc < 1 / 2)
    (hg : g ≠ 0) : Overshoots (max 1 (ofDb g)) (SetupRuns S T n call) := by
  rcases lt_or_gt_of_ne hg with hg | hg
  · rw [max_eq_left (ofDb_cut hg).le]
    have hl : Asks (.setupNReq o (.bwHighShelf (fin (1 / 2 - fc)) (fin g))) n o (.bwHighShelf (fin (1 / 2 - fc)) (fin g)) :=
      ⟨rfl, rfl, h.pos, h.le, h.small⟩
    exact overshoots_mirror' h hl (Mirrored.bwShelf fc g) ⟨h0, h1⟩ ⟨by linarith, by linarith⟩
      (high_shelf_down (S := S) (T := T) hl ho (by linarith) (by linarith) hg)
  · have hG : 1 < ofDb g := Real.one_lt_rpow (by norm_num) (by positivity)
    rw [max_eq_right hG.le]
    exact low_shelf_up h ho h0 h1 hg

/-- **C98**, Butterworth high shelf -/
theorem C98_bw_high_shelf (h : Asks call n o (.bwHighShelf (fin fc) (fin g))) (ho : 2 ≤ o) (h0 : 0 < fc)
    (h1 : fc < 1 / 2) (hg : g ≠ 0) : Overshoots (max 1 (ofDb g)) (SetupRuns S T n call) := by
  have hl : Asks (.setupNReq o (.bwLowShelf (fin (1 / 2 - fc)) (fin g))) n o (.bwLowShelf (fin (1 / 2 - fc)) (fin g)) :=
    ⟨rfl, rfl, h.pos, h.le, h.small⟩
  have hd := Mirrored.bwShelf (1 / 2 - fc) g
  rw [sub_sub_cancel] at hd
  exact overshoots_mirror hl h hd ⟨by linarith, by linarith⟩ ⟨h0, h1⟩
    (C98_bw_low_shelf (S := S) (T := T) hl ho (by linarith) (by linarith) hg)

/-- **C98**, Butterworth band shelf -/
theorem C98_bw_band_shelf (h : Asks call n o (.bwBandShelf (fin fc) (fin fw) (fin g))) (ho : 2 ≤ o)
    (hv : Valid o (.bwBandShelf (fin fc) (fin fw) (fin g))) (hg : g ≠ 0) :
    Overshoots (max 1 (ofDb g)) (SetupRuns S T n call) := by
  have hB := band_of hv.2.2.1
  have A : AfterSetup S T n call fun f => BandShape (bwShelf o g) 1 o (bandLo fc fw) (bandHi fc fw) f := by
    refine (C34_bandshelf h hv.1 hv.2.1 hv.2.2.1 fun e => ?_).mono fun _ h => h.1
    have h2 := hv.2.2.2 e
    simp only [List.mem_cons, List.not_mem_nil, or_false, not_or] at h2
    refine ⟨pow_ne (tan_band_pos hv.2.2.1) h.pos h2.1, ?_⟩
    rw [← ofDb_neg_inv]
    exact pow_ne (tan_band_pos hv.2.2.1) h.pos (by rw [neg_div]; exact h2.2)
  rcases lt_or_gt_of_ne hg with hg | hg
  · rw [max_eq_left (ofDb_cut hg).le]
    obtain ⟨ρ', hd⟩ := hB.deriv_zero
    obtain ⟨C, hC⟩ := flat_of hd (by rw [bandRatio_zero, inv_zero]) (shelf_const hg) (bwShelf_flat_inv ho hg)
    refine overshoots_of h hv A (Φ := bwShelf o g) (fun f k fr a b => k.gain fr a b) one_pos le_rfl (by norm_num) ⟨C, ?_⟩
      ⟨_, hB.pos.trans hB.lt, hB.half, ?_⟩
    · filter_upwards [hC, Ioo_mem_nhdsGT hB.pos] with δ hδ hm
      have := hB.ratio_ne hm.1 (hm.2.trans (hB.lt.trans hB.half)) (.inl hm.2.le)
      rw [zero_add] at hδ ⊢
      rwa [if_neg (inv_ne_zero this), inv_inv] at hδ
    · rw [hB.ratio_hi, bwShelf_one]; exact one_sq (ofDb_cut hg).ne
  · have hG : 1 < ofDb g := Real.one_lt_rpow (by norm_num) (by positivity)
    rw [max_eq_right hG.le]
    obtain ⟨ρ', hd⟩ := hB.deriv_mid
    refine overshoots_of h hv A (Φ := bwShelf o g) (fun f k fr a b => k.gain fr a b) (ofDb_pos g) hB.mid_mem.1.le
      hB.mid_mem.2 (flat_of hd hB.ratio_mid (mul_nonneg (by linarith) (by nlinarith)) (bwShelf_flat ho hg))
      ⟨_, hB.pos.trans hB.lt, hB.half, ?_⟩
    rw [hB.ratio_hi, bwShelf_one]
    intro e; nlinarith

/-! ## Order 1 -/

/-- the answer of the Butterworth low pass of order 1 to an impulse, `K = tan πfc` -/
noncomputable def firstAnswer (K : ℝ) : ℕ → ℝ
  | 0 => K / (1 + K)
  | m + 1 => K / (1 + K) * (1 + (1 - K) / (1 + K)) * ((1 - K) / (1 + K)) ^ m

theorem first_pole {K : ℝ} (hK : 0 < K) : |(1 - K) / (1 + K)| < 1 := by
  rw [abs_div, abs_of_pos (show 0 < 1 + K by linarith), div_lt_one (by linarith), abs_lt]
  constructor <;> linarith

theorem firstAnswer_abs {K : ℝ} (hK : 0 < K) : HasSum (fun n => |firstAnswer K n|) (max 1 (2 * K / (1 + K))) := by
  have ha := first_pole hK
  have g := (hasSum_geometric_of_lt_one (abs_nonneg _) ha).mul_left |K / (1 + K) * (1 + (1 - K) / (1 + K))|
  have k1 : 0 < 1 + K := by linarith
  have := (hasSum_nat_add_iff (f := fun n => |firstAnswer K n|) 1).1 (by
    simpa only [firstAnswer, abs_mul, abs_pow] using g)
  rw [← abs_mul, Finset.sum_range_one, firstAnswer, abs_of_pos (show 0 < K / (1 + K) by positivity)] at this
  refine (congrArg (HasSum fun n => |firstAnswer K n|) ?_).mpr this
  have e1 : K / (1 + K) * (1 + (1 - K) / (1 + K)) = 2 * K / (1 + K) ^ 2 := by field_simp; ring
  rw [e1, abs_of_pos (by positivity)]
  rcases le_total K 1 with h | h
  · rw [abs_of_nonneg (div_nonneg (by linarith) k1.le), max_eq_left (by rw [div_le_one k1]; linarith)]
    have e2 : 1 - (1 - K) / (1 + K) = 2 * K / (1 + K) := by field_simp; ring
    rw [e2]; field_simp
  · rw [abs_of_nonpos (div_nonpos_of_nonpos_of_nonneg (by linarith) k1.le),
      max_eq_right (by rw [le_div_iff₀ k1]; linarith)]
    have e2 : 1 - -((1 - K) / (1 + K)) = 2 / (1 + K) := by field_simp; ring
    rw [e2]; field_simp; ring

theorem zT_first {K : ℝ} (hK : 0 < K) {w : ℂ} (hw : ‖w‖ = 1) :
    zT (firstAnswer K) w * (1 + K - (1 - K) * w) = K * (1 + w) := by
  have ha := first_pole hK
  have hs := zT_summable (firstAnswer_abs hK).summable hw
  have k1 : (1 + K : ℂ) ≠ 0 := by exact_mod_cast (show 1 + K ≠ 0 by linarith)
  have hr : ‖((1 - K) / (1 + K) : ℂ) * w‖ < 1 := by
    rw [norm_mul, hw, _root_.mul_one]
    have : ((1 - K) / (1 + K) : ℂ) = (((1 - K) / (1 + K) : ℝ) : ℂ) := by push_cast; rfl
    rw [this, Complex.norm_real, Real.norm_eq_abs]; exact ha
  have g := tsum_geometric_of_norm_lt_one hr
  have hd : (1 : ℂ) - (1 - K) / (1 + K) * w ≠ 0 := by
    intro e
    rw [← sub_eq_zero.1 e, norm_one] at hr
    exact lt_irrefl _ hr
  rw [zT, hs.tsum_eq_zero_add]
  have e1 : ∀ m, (firstAnswer K (m + 1) : ℂ) * w ^ (m + 1) =
      K / (1 + K) * (1 + (1 - K) / (1 + K)) * w * ((1 - K) / (1 + K) * w) ^ m := fun m => by
    rw [firstAnswer, mul_pow]; push_cast; ring
  rw [tsum_congr e1, tsum_mul_left, g, show firstAnswer K 0 = K / (1 + K) from rfl]
  push_cast
  have e3 : (1 + K - (1 - K) * w : ℂ) = (1 + K) * (1 - (1 - K) / (1 + K) * w) := by field_simp
  have e4 : ((1 - K) / (1 + K) * w : ℂ) = 1 - (1 - (1 - K) / (1 + K) * w) := by ring
  rw [e3]
  generalize (1 : ℂ) - (1 - K) / (1 + K) * w = D at hd e3 e4
  have e5 : (1 - K : ℂ) * w = (1 + K) * (1 - D) := by rw [← e4]; field_simp
  field_simp
  linear_combination (K : ℂ) * e5

/-- its answer to an impulse -/
theorem first_impulse (h : Asks call n 1 (.bwLowPass (fin fc))) (h0 : 0 < fc) (h1 : fc < 1 / 2) :
    ∃ H, Known (SetupRuns S T n call) H ∧ SetupRuns S T n call impulse (firstAnswer (Real.tan (Real.pi * fc))) ∧
      PeakGain (SetupRuns S T n call) (∑' m, |firstAnswer (Real.tan (Real.pi * fc)) m|) := by
  have hK := tanpi_pos h0 h1
  have hk := known_design (S := S) (T := T) (H := fun fr => bwLow 1 (Complex.I * lowRatio fc fr)) h
    ⟨h0, h1⟩ fun f hf fr a b => hf.value fr a.le b
  obtain ⟨y, hy, -, hs, hp, hz⟩ := hk.peak
  have hf := firstAnswer_abs hK
  have e : y = firstAnswer (Real.tan (Real.pi * fc)) := eq_of_spectrum hs hf.summable fun fr a b => by
    rw [hz fr a b, bwLow_one]
    have hw := norm_circle_inv fr
    have key := zT_first hK hw
    obtain ⟨c1, c2⟩ := circle_tan a b
    generalize (circle fr)⁻¹ = w at *
    rw [lowRatio]
    push_cast at key c1 ⊢
    have hK' : ((Real.tan (Real.pi * fc) : ℝ) : ℂ) ≠ 0 := by exact_mod_cast hK.ne'
    push_cast at hK'
    generalize (Complex.tan (Real.pi * fc)) = K at *
    generalize (Complex.tan (Real.pi * fr)) = t at *
    generalize zT (firstAnswer _) w = Z at *
    have e1 : Z * (K + Complex.I * t) = K := by
      refine mul_right_cancel₀ c2 ?_
      linear_combination key + Z * (-c1)
    have e2 : K + Complex.I * t ≠ 0 := fun e => hK' (by rw [← e1, e, MulZeroClass.mul_zero])
    have e3 : Complex.I * (t / K) + 1 = (K + Complex.I * t) / K := by field_simp; ring
    rw [e3, one_div_div, div_eq_iff e2, e1]
  subst e
  exact ⟨_, hk, hy, hp⟩

/-- **C98**, Butterworth low pass of order 1: the peak gain is 1 for cutoffs up to a quarter of the sampling rate and
`2 tan πfc / (1 + tan πfc)` beyond. -/
theorem C98_first_order (h : Asks call n 1 (.bwLowPass (fin fc))) (h0 : 0 < fc) (h1 : fc < 1 / 2) :
    PeakGain (SetupRuns S T n call) (max 1 (2 * Real.tan (Real.pi * fc) / (1 + Real.tan (Real.pi * fc)))) := by
  obtain ⟨-, -, -, hp⟩ := first_impulse (S := S) (T := T) h h0 h1
  rwa [(firstAnswer_abs (tanpi_pos h0 h1)).tsum_eq] at hp

/-- **C98**, Butterworth low pass of order 1 with a cutoff up to a quarter of the sampling rate: the output never leaves the
range of the input (and of 0, with which it starts). -/
theorem C98_first_order_range (h : Asks call n 1 (.bwLowPass (fin fc))) (h0 : 0 < fc) (h1 : fc ≤ 1 / 4) {a b : ℝ} (ha : a ≤ 0)
    (hb : 0 ≤ b) {x y : ℕ → ℝ} (hr : SetupRuns S T n call x y) (hx : ∀ m, a ≤ x m ∧ x m ≤ b) (m : ℕ) : a ≤ y m ∧ y m ≤ b := by
  obtain ⟨H, hk, hi, -⟩ := first_impulse (S := S) (T := T) h h0 (by linarith)
  have hK := tanpi_pos h0 (show fc < 1 / 2 by linarith)
  have hK1 : Real.tan (Real.pi * fc) ≤ 1 := by
    rw [← Real.tan_pi_div_four]
    rcases h1.eq_or_lt with rfl | h1
    · rw [mul_one_div]
    · have := tanpi_lt (f := fc) (f' := 1 / 4) h0.le h1 (by norm_num)
      rw [mul_one_div] at this
      exact this.le
  have hs := firstAnswer_abs hK
  rw [hk.conv hi hr m]
  generalize Real.tan (Real.pi * fc) = K at *
  rw [max_eq_left (by rw [div_le_one (by linarith)]; linarith)] at hs
  have q0 : 0 ≤ (1 - K) / (1 + K) := div_nonneg (by linarith) (by linarith)
  have p0 : ∀ k, 0 ≤ firstAnswer K k := fun k => by
    cases k with
    | zero => exact div_nonneg hK.le (by linarith)
    | succ k => exact mul_nonneg (mul_nonneg (div_nonneg hK.le (by linarith)) (by linarith)) (pow_nonneg q0 k)
  have s0 : 0 ≤ ∑ k ∈ Finset.range (m + 1), firstAnswer K k := Finset.sum_nonneg fun k _ => p0 k
  have s1 : ∑ k ∈ Finset.range (m + 1), firstAnswer K k ≤ 1 := by
    rw [show (fun n => |firstAnswer K n|) = firstAnswer K from funext fun k => abs_of_nonneg (p0 k)] at hs
    exact sum_le_hasSum _ (fun k _ => p0 k) hs
  constructor
  · calc a ≤ (∑ k ∈ Finset.range (m + 1), firstAnswer K k) * a := by nlinarith
      _ = ∑ k ∈ Finset.range (m + 1), firstAnswer K k * a := Finset.sum_mul ..
      _ ≤ _ := Finset.sum_le_sum fun k _ => mul_le_mul_of_nonneg_left (hx _).1 (p0 k)
  · calc _ ≤ ∑ k ∈ Finset.range (m + 1), firstAnswer K k * b :=
          Finset.sum_le_sum fun k _ => mul_le_mul_of_nonneg_left (hx _).2 (p0 k)
      _ = (∑ k ∈ Finset.range (m + 1), firstAnswer K k) * b := (Finset.sum_mul ..).symm
      _ ≤ b := by nlinarith

theorem peak_mirror {d d' : Design XR} {n' : ℕ} {call' : Call XR} (h : Asks call n o d) (h' : Asks call' n' o d')
    (hd : Mirrored d d') (hv : Valid o d) (hv' : Valid o d') {P : ℝ} (k : PeakGain (SetupRuns S T n call) P) :
    PeakGain (SetupRuns S' T' n' call') P where
  bound x y hr M hx m := by
    have hr := (C70_mirror (S := S) (T := T) h h' hd hv hv' (alternate x) (alternate y)).2 (by
      rwa [alternate_alternate, alternate_alternate])
    have e : ∀ z : ℕ → ℝ, ∀ i, |alternate z i| = |z i| := fun z i => by
      rw [alternate, abs_mul, abs_pow, abs_neg, abs_one, one_pow, _root_.one_mul]
    have := k.bound _ _ hr M (fun i => by rw [e]; exact hx i) m
    rwa [e] at this
  sharp B hB := overshoots_mirror h h' hd hv hv' (k.sharp B hB)

/-- **C98**, Butterworth high pass of order 1: the peak gain is 1 for cutoffs from a quarter of the sampling rate and
`2 / (1 + tan πfc)` below. -/
theorem C98_first_order_high (h : Asks call n 1 (.bwHighPass (fin fc))) (h0 : 0 < fc) (h1 : fc < 1 / 2) :
    PeakGain (SetupRuns S T n call) (max 1 (2 / (1 + Real.tan (Real.pi * fc)))) := by
  have hl : Asks (.setupNReq 1 (.bwLowPass (fin (1 / 2 - fc)))) n 1 (.bwLowPass (fin (1 / 2 - fc))) :=
    ⟨rfl, rfl, h.pos, h.le, h.small⟩
  have hd := Mirrored.bw (1 / 2 - fc)
  rw [sub_sub_cancel] at hd
  have := peak_mirror (S' := S) (T' := T) hl h hd ⟨by linarith, by linarith⟩ ⟨h0, h1⟩
    (C98_first_order (S := S) (T := T) hl (by linarith) (by linarith))
  have hK := tanpi_pos h0 h1
  rw [show Real.pi * (1 / 2 - fc) = Real.pi / 2 - Real.pi * fc by ring, Real.tan_pi_div_two_sub] at this
  generalize Real.tan (Real.pi * fc) = K at *
  have e : 2 * K⁻¹ / (1 + K⁻¹) = 2 / (1 + K) := by field_simp; ring
  rwa [e] at this

/-! ## Cases -/

/-- a third order Butterworth low pass after any history -/
example : AfterSetup S T 3 (.setupN (.bwLowPass (fin (1 / 8)))) fun f =>
    ∃ y P, Runs f impulse y ∧ HasSum (fun n => |y n|) P ∧ PeakGain (Runs f) P := by
  intro f hf
  obtain ⟨f', hset, hs, h1⟩ := C29_stable (S := S) (T := T) (o := 3) (d := .bwLowPass (fin (1 / 8)))
    (call := .setupN (.bwLowPass (fin (1 / 8)))) (n := 3) ⟨rfl, rfl, by norm_num, le_rfl, by norm_num⟩
    ⟨by norm_num, by norm_num⟩ f hf
  have hr : Reach S T .bwLowPass 3 f' := .call f f' (.setup (.setupN (.bwLowPass (fin (1 / 8))))) (.ok ()) hf rfl hset
    fun u h => by cases h
  obtain ⟨y, P, a, b, c, -⟩ := C98_filter (by norm_num) (by norm_num) hr h1
  exact ⟨f', hset, hs, y, P, a, b, c⟩

/-- its output can be louder than 1, -/
example : Overshoots 1 (SetupRuns S T 3 (.setupN (.bwLowPass (fin (1 / 8))))) :=
  C98_bw_low (o := 3) ⟨rfl, rfl, by norm_num, le_rfl, by norm_num⟩ (by norm_num) (by norm_num) (by norm_num)

/-- that of the high pass at 3/8, -/
example : Overshoots 1 (SetupRuns S T 3 (.setupN (.bwHighPass (fin (3 / 8))))) :=
  C98_bw_high (o := 3) ⟨rfl, rfl, by norm_num, le_rfl, by norm_num⟩ (by norm_num) (by norm_num) (by norm_num)

/-- of bands of order 2 -/
example : Overshoots 1 (SetupRuns S T 2 (.setupN (.bwBandPass (fin (1 / 4)) (fin (1 / 8))))) ∧
    Overshoots 1 (SetupRuns S T 2 (.setupN (.bwBandStop (fin (1 / 4)) (fin (1 / 8))))) ∧
    Overshoots 1 (SetupRuns S T 2 (.setupN (.c2BandPass (fin (1 / 4)) (fin (1 / 8)) (fin 40)))) ∧
    Overshoots 1 (SetupRuns S T 2 (.setupN (.c2BandStop (fin (1 / 4)) (fin (1 / 8)) (fin 40)))) ∧
    Overshoots (max 1 (ofDb 6)) (SetupRuns S T 2 (.setupN (.bwBandShelf (fin (1 / 4)) (fin (1 / 8)) (fin 6)))) := by
  have hb : ∀ xs, ValidBand 2 (1 / 4) (1 / 8) xs := fun xs => ⟨by norm_num, by norm_num, c95_band_ex, by norm_num⟩
  exact ⟨C98_bw_band (o := 2) ⟨rfl, rfl, by norm_num, le_rfl, by norm_num⟩ le_rfl (hb _),
    C98_bw_stop (o := 2) ⟨rfl, rfl, by norm_num, le_rfl, by norm_num⟩ le_rfl (hb _),
    C98_c2_band (o := 2) ⟨rfl, rfl, by norm_num, le_rfl, by norm_num⟩ le_rfl ⟨hb _, by norm_num⟩,
    C98_c2_stop (o := 2) ⟨rfl, rfl, by norm_num, le_rfl, by norm_num⟩ le_rfl ⟨hb _, by norm_num⟩,
    C98_bw_band_shelf (o := 2) ⟨rfl, rfl, by norm_num, le_rfl, by norm_num⟩ le_rfl (hb _) (by norm_num)⟩

/-- of Chebyshev II filters of order 5 -/
example : Overshoots 1 (SetupRuns S T 5 (.setupN (.c2LowPass (fin (1 / 8)) (fin 40)))) ∧
    Overshoots 1 (SetupRuns S T 5 (.setupN (.c2HighPass (fin (1 / 8)) (fin 40)))) :=
  ⟨C98_c2_low (o := 5) ⟨rfl, rfl, by norm_num, le_rfl, by norm_num⟩ (by norm_num) (by norm_num) (by norm_num) (by norm_num),
    C98_c2_high (o := 5) ⟨rfl, rfl, by norm_num, le_rfl, by norm_num⟩ (by norm_num) (by norm_num) (by norm_num) (by norm_num)⟩

/-- and of shelves; the first raises by 6 dB, the second lowers -/
example : Overshoots (max 1 (ofDb 6)) (SetupRuns S T 2 (.setupN (.bwLowShelf (fin (1 / 8)) (fin 6)))) ∧
    Overshoots (max 1 (ofDb (-6))) (SetupRuns S T 2 (.setupN (.bwHighShelf (fin (1 / 8)) (fin (-6))))) :=
  ⟨C98_bw_low_shelf (o := 2) ⟨rfl, rfl, by norm_num, le_rfl, by norm_num⟩ le_rfl (by norm_num) (by norm_num) (by norm_num),
    C98_bw_high_shelf (o := 2) ⟨rfl, rfl, by norm_num, le_rfl, by norm_num⟩ le_rfl (by norm_num) (by norm_num) (by norm_num)⟩

/-- a cascade of given sections, `y[n] = (x[n] + x[n-1] + y[n-1]) / 2` -/
example : ∃ (f : Custom.SOS DirectFormII XR) (P : ℝ),
    PeakGain (Produces (Custom.SOS.filter (T := XR)) (Custom.SOS.reset f).2) P := by
  obtain ⟨f, h1, h2, -⟩ := exSos
  obtain ⟨-, P, -, -, hP⟩ := C98_sos h1 h2 (by simpa using exCoeffs_stable)
  exact ⟨f, P, hP⟩

/-- the first order low pass at 1/4 never is -/
example : PeakGain (SetupRuns S T 1 (.setupN (.bwLowPass (fin (1 / 4))))) 1 := by
  have := C98_first_order (S := S) (T := T) (fc := 1 / 4) (call := .setupN (.bwLowPass (fin (1 / 4)))) (n := 1)
    ⟨rfl, rfl, le_rfl, le_rfl, by norm_num⟩ (by norm_num) (by norm_num)
  rw [show Real.pi * (1 / 4) = Real.pi / 4 by ring, Real.tan_pi_div_four] at this
  norm_num at this
  exact this

/-- an RBJ low pass -/
example : ∃ P, PeakGain (RBJRuns (.lowPass (fin (1 / 4)) (fin 1))) P := by
  obtain ⟨y, P, -, -, h, -⟩ := C98_rbj (.lowPass (1 / 4) 1) ⟨by norm_num, by norm_num, one_pos⟩
  exact ⟨P, h⟩

/-- samples between 0 and 255 stay there -/
example {x y : ℕ → ℝ} (hr : SetupRuns S T 1 (.setupN (.bwLowPass (fin (1 / 8)))) x y) (hx : ∀ m, 0 ≤ x m ∧ x m ≤ 255) (m : ℕ) :
    0 ≤ y m ∧ y m ≤ 255 :=
  C98_first_order_range (fc := 1 / 8) (call := .setupN (.bwLowPass (fin (1 / 8)))) (n := 1)
    ⟨rfl, rfl, le_rfl, le_rfl, by norm_num⟩ (by norm_num) (by norm_num) le_rfl (by norm_num) hr hx m

end Iir
