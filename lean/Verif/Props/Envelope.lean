import Verif.Spec.Envelope
import Verif.Props.Objects
import Verif.Props.Headroom
import Verif.Props.Stable
import Verif.Props.Transfer
import Mathlib.Analysis.SpecialFunctions.Trigonometric.ComplexDeriv
import Mathlib.Analysis.SpecialFunctions.Trigonometric.ArctanDeriv
import Mathlib.Analysis.SpecialFunctions.ExpDeriv
import Mathlib.Analysis.Calculus.Deriv.Mul
import Mathlib.Analysis.Calculus.Deriv.Inv

/-! # C104: envelopes come out late by the group delay -/

set_option linter.unusedSectionVars false

namespace Iir
open FArith XR Spec Exec Filter Topology

/-! ## Tools -/

/-- derivative of the response of a section, over `2 π i` -/
noncomputable def secE (b : Biquad ℝ) (z : ℂ) : ℂ :=
  (secH b z * (b.a1 * z⁻¹ + 2 * b.a2 * z⁻¹ ^ 2) - (b.b1 * z⁻¹ + 2 * b.b2 * z⁻¹ ^ 2)) /
    (1 + b.a1 * z⁻¹ + b.a2 * z⁻¹ ^ 2)

theorem sec_swell {b : Biquad ℝ} (h : SecStable b) (c : ℝ × ℝ) {z K L : ℂ} (hz : ‖z‖ = 1) {x : ℕ → ℝ}
    (hx : Tendsto (fun n : ℕ => x n - ((K * n + L) * z ^ n).re) atTop (𝓝 0)) :
    Tendsto (fun n : ℕ => secOut b c x n - ((secH b z * K * n + (secH b z * L + secE b z * K)) * z ^ n).re) atTop (𝓝 0) := by
  have hz0 : z ≠ 0 := by intro h0; simp [h0] at hz
  have hden := den_ne_zero_of_stable h hz
  refine stable_tendsto h
    (e := fun n : ℕ => secOut b c x n - ((secH b z * K * n + (secH b z * L + secE b z * K)) * z ^ n).re)
    (d := fun n : ℕ => b.b0 * (x (n + 2) - ((K * (n + 2 : ℕ) + L) * z ^ (n + 2)).re) +
      b.b1 * (x (n + 1) - ((K * (n + 1 : ℕ) + L) * z ^ (n + 1)).re) + b.b2 * (x n - ((K * n + L) * z ^ n).re)) (fun n => ?_) ?_
  · have e : secH b z * (1 + b.a1 * z⁻¹ + b.a2 * z⁻¹ ^ 2) = b.b0 + b.b1 * z⁻¹ + b.b2 * z⁻¹ ^ 2 := by
      rw [secH, div_mul_cancel₀ _ hden]
    have e2 : secE b z * (1 + b.a1 * z⁻¹ + b.a2 * z⁻¹ ^ 2) =
        secH b z * (b.a1 * z⁻¹ + 2 * b.a2 * z⁻¹ ^ 2) - (b.b1 * z⁻¹ + 2 * b.b2 * z⁻¹ ^ 2) := by
      rw [secE, div_mul_cancel₀ _ hden]
    have p1 : z ^ (n + 1) = z⁻¹ * z ^ (n + 2) := by rw [pow_succ' z (n + 1), inv_mul_cancel_left₀ hz0]
    have p0 : z ^ n = z⁻¹ ^ 2 * z ^ (n + 2) := by
      rw [pow_succ' z (n + 1), pow_succ' z n, sq]
      field_simp
    have key : (secH b z * K * (n + 2 : ℕ) + (secH b z * L + secE b z * K)) * z ^ (n + 2) +
        b.a1 * ((secH b z * K * (n + 1 : ℕ) + (secH b z * L + secE b z * K)) * z ^ (n + 1)) +
        b.a2 * ((secH b z * K * n + (secH b z * L + secE b z * K)) * z ^ n) =
        b.b0 * ((K * (n + 2 : ℕ) + L) * z ^ (n + 2)) + b.b1 * ((K * (n + 1 : ℕ) + L) * z ^ (n + 1)) +
          b.b2 * ((K * n + L) * z ^ n) := by
      rw [p1, p0]
      generalize z ^ (n + 2) = V
      push_cast
      linear_combination V * (K * (n + 2) + L) * e + V * K * e2
    have hre := congrArg Complex.re key
    simp only [Complex.add_re (_ + _), Complex.add_re (_ * z ^ (n + 2)), Complex.add_re ((b.b0 : ℂ) * _),
      Complex.re_ofReal_mul] at hre
    simp only [secOut_add_two]
    linear_combination -hre
  · have h2 := (tendsto_add_atTop_iff_nat 2).2 hx
    have h1 := (tendsto_add_atTop_iff_nat 1).2 hx
    simpa using ((h2.const_mul b.b0).add (h1.const_mul b.b1)).add (hx.const_mul b.b2)

/-- derivative of the response of a chain, over `2 π i` -/
noncomputable def chainE : List (Biquad ℝ) → ℂ → ℂ
  | [], _ => 0
  | b :: bs, z => secE b z * (bs.map (secH · z)).prod + secH b z * chainE bs z

theorem chain_swell {bs : List (Biquad ℝ)} (h : ∀ b ∈ bs, SecStable b) (cs : List (ℝ × ℝ))
    (hl : bs.length = cs.length) {z K L : ℂ} (hz : ‖z‖ = 1) {x : ℕ → ℝ}
    (hx : Tendsto (fun n : ℕ => x n - ((K * n + L) * z ^ n).re) atTop (𝓝 0)) :
    Tendsto (fun n : ℕ => chainOut bs cs x n -
      (((bs.map (secH · z)).prod * K * n + ((bs.map (secH · z)).prod * L + chainE bs z * K)) * z ^ n).re) atTop (𝓝 0) := by
  induction bs generalizing cs x K L with
  | nil =>
    cases cs with
    | nil => simpa [chainOut_nil, chainE] using hx
    | cons => simp at hl
  | cons b bs ih =>
    cases cs with
    | nil => simp at hl
    | cons c cs =>
      rw [chainOut_cons]
      have := ih (fun b hb => h b (List.mem_cons_of_mem _ hb)) cs (by simpa using hl)
        (sec_swell (h b List.mem_cons_self) c hz hx)
      refine this.congr fun n => ?_
      rw [List.map_cons, List.prod_cons, chainE]
      congr 2
      ring

theorem hasDerivAt_circle_inv (fr : ℝ) :
    HasDerivAt (fun t : ℝ => (circle t)⁻¹) (-(2 * Real.pi * Complex.I) * (circle fr)⁻¹) fr := by
  have h1 : HasDerivAt (fun t : ℝ => -(2 * Real.pi * (t : ℂ) * Complex.I)) (-(2 * Real.pi * 1 * Complex.I)) fr :=
    (((Complex.ofRealCLM.hasDerivAt (x := fr)).const_mul (2 * Real.pi : ℂ)).mul_const Complex.I).neg
  have h2 := h1.cexp
  simp only [circle, ← Complex.exp_neg]
  convert h2 using 1
  ring

theorem hasDerivAt_secH {b : Biquad ℝ} (h : SecStable b) (fr : ℝ) :
    HasDerivAt (fun t : ℝ => secH b (circle t)) (2 * Real.pi * Complex.I * secE b (circle fr)) fr := by
  have hden := den_ne_zero_of_stable h (norm_circle fr)
  have hq := hasDerivAt_circle_inv fr
  have hq2 := hq.pow 2
  have hN := ((hq.const_mul (b.b1 : ℂ)).const_add (b.b0 : ℂ)).add (hq2.const_mul (b.b2 : ℂ))
  have hD := ((hq.const_mul (b.a1 : ℂ)).const_add (1 : ℂ)).add (hq2.const_mul (b.a2 : ℂ))
  have := hN.div hD hden
  refine this.congr_deriv ?_
  simp only [secE, secH, Pi.add_apply, Pi.pow_apply]
  generalize (circle fr)⁻¹ = q at hden ⊢
  generalize (1 + (b.a1 : ℂ) * q + b.a2 * q ^ 2) = W at hden ⊢
  norm_num
  field_simp
  ring

theorem hasDerivAt_chain {bs : List (Biquad ℝ)} (h : ∀ b ∈ bs, SecStable b) (fr : ℝ) :
    HasDerivAt (fun t : ℝ => (bs.map (secH · (circle t))).prod) (2 * Real.pi * Complex.I * chainE bs (circle fr)) fr := by
  induction bs with
  | nil => simpa [chainE] using hasDerivAt_const fr (1 : ℂ)
  | cons b bs ih =>
    have := (hasDerivAt_secH (h b List.mem_cons_self) fr).mul (ih fun b hb => h b (List.mem_cons_of_mem _ hb))
    simp only [List.map_cons, List.prod_cons]
    refine this.congr_deriv ?_
    rw [chainE]; ring

theorem swelling_eq (fr A B φ : ℝ) (n : ℕ) : swelling fr A B φ n =
    ((B * Complex.exp (φ * Complex.I) * n + A * Complex.exp (φ * Complex.I)) * circle fr ^ n).re := by
  rw [swelling, cos_eq_re]
  rw [show (B * Complex.exp (φ * Complex.I) * n + A * Complex.exp (φ * Complex.I)) * circle fr ^ n =
    ((A + B * n : ℝ) : ℂ) * Complex.exp (φ * Complex.I) * circle fr ^ n by push_cast; ring]

theorem swells_of {H E : ℂ} {fr A B φ : ℝ} {y : ℕ → ℝ} (h : Tendsto (fun n : ℕ => y n -
    ((H * (B * Complex.exp (φ * Complex.I)) * n + (H * (A * Complex.exp (φ * Complex.I)) +
      E * (B * Complex.exp (φ * Complex.I)))) * circle fr ^ n).re) atTop (𝓝 0)) :
    Swells H (2 * Real.pi * Complex.I * E) fr A B φ y := by
  refine h.congr fun n => ?_
  have hp : (2 * Real.pi * Complex.I : ℂ) ≠ 0 := by
    simp [Real.pi_ne_zero]
  rw [mul_div_cancel_left₀ _ hp, add_mul _ _ Complex.I, Complex.exp_add, circle, ← Complex.exp_nat_mul]
  congr 2
  rw [show (n : ℂ) * (2 * Real.pi * fr * Complex.I) = 2 * Real.pi * fr * n * Complex.I by ring]
  ring

/-! ## C104 -/

section
variable {S : Type → Type} [StateType S XR] [DelayLine XR S] {T : Type} [Sample T XR]

/-- **C104**: a stable pole filter, whatever is in its delay lines, answers a sinusoid with the envelope `A + B n` as
`response ()` and its derivative say. -/
theorem C104_filter {c : Cls} {n : Nat} (hn1 : 1 ≤ n) (hn : n < 2 ^ 30) {f : PoleFilter S XR} (h : Reach S T c n f)
    (hst : StableFilter f) (hfin : FiniteStates f.states) :
    ∃ H D : ℝ → ℂ, (∀ fr, 0 ≤ fr → fr ≤ 1 / 2 → Response f fr (H fr)) ∧ (∀ fr, HasDerivAt H (D fr) fr) ∧
      ∀ fr A B φ, ∃ y, Produces (PoleFilter.filter (T := XR)) f (swelling fr A B φ) y ∧ Swells (H fr) (D fr) fr A B φ y := by
  obtain ⟨ks, hks, hs⟩ := sections_of_stable hst
  obtain ⟨hb, hne⟩ := hasSections_iff.1 hks
  obtain ⟨cs, hcs⟩ := Sims.of_finite (ks.map Coeffs.norm) f.states
    (by rw [h.wired hn1 hn, hks.length, List.length_map]) hfin
  refine ⟨_, _, fun fr a b => h.response_prod hn1 hn hks hs a b, fun fr => hasDerivAt_chain (stable_norms hne hs) fr,
    fun fr A B φ => ⟨_, PoleFilter.produces hb hcs _, swells_of ?_⟩⟩
  exact chain_swell (stable_norms hne hs) cs hcs.cs_length (norm_circle fr) (by
    refine tendsto_const_nhds.congr fun n => ?_
    rw [swelling_eq, sub_self])

end

/-- **C104** for RBJ filters. -/
theorem C104_rbj {f : RBJ.Filter XR} {k : Coeffs} (hk : HasCoeffs f.biquad k) (hst : k.Stable)
    (hs : ExactState.Finite f.state) :
    ∃ H D : ℝ → ℂ, (∀ fr, f.biquad.response (fin fr) = .ok (ofC (H fr))) ∧ (∀ fr, HasDerivAt H (D fr) fr) ∧
      ∀ fr A B φ, ∃ y, Produces (RBJ.Filter.filter (T := XR)) f (swelling fr A B φ) y ∧ Swells (H fr) (D fr) fr A B φ y := by
  obtain ⟨hb, hne⟩ := hasCoeffs_iff.1 hk
  obtain ⟨c, hc⟩ := ExactState.sim_of_finite k.norm f.state hs
  have h := (Coeffs.stable_norm hne).2 hst
  refine ⟨fun fr => secH k.norm (circle fr), _, fun fr => ?_, fun fr => hasDerivAt_secH h fr,
    fun fr A B φ => ⟨_, RBJ.Filter.produces hb hc _, swells_of ?_⟩⟩
  · have hresp := response_toX (b := k.norm) hne fr
    rw [← hb] at hresp
    have hden : k.norm.denQ (circle fr)⁻¹ ≠ 0 := den_ne_zero_of_stable h (norm_circle fr)
    rw [Cx.cdiv_ofC _ hden, ← secH_eq] at hresp
    exact hresp
  · exact sec_swell h c (norm_circle fr) (by
      refine tendsto_const_nhds.congr fun n => ?_
      rw [swelling_eq, sub_self])

/-- group delay: if the response is `M (fr) exp (i θ (fr))`, the envelope comes out late by `-θ' / (2 π)` samples. -/
theorem comesLate_of {H : ℝ → ℂ} {D : ℂ} {M θ : ℝ → ℝ} {m t fr : ℝ}
    (hH : ∀ᶠ u in 𝓝 fr, H u = M u * Complex.exp (θ u * Complex.I))
    (hM : HasDerivAt M m fr) (hθ : HasDerivAt θ t fr) (hD : HasDerivAt H D fr) {A B φ : ℝ} {y : ℕ → ℝ}
    (h : Swells (H fr) D fr A B φ y) : ComesLate (M fr) m (θ fr) (-t / (2 * Real.pi)) fr A B φ y := by
  have hd : HasDerivAt H (m * Complex.exp (θ fr * Complex.I) + M fr * (Complex.exp (θ fr * Complex.I) * (t * Complex.I))) fr :=
    (hM.ofReal_comp.mul (hθ.ofReal_comp.mul_const Complex.I).cexp).congr_of_eventuallyEq hH
  rw [hD.unique hd, hH.self_of_nhds] at h
  refine h.congr fun n => ?_
  congr 1
  have hp : (Real.pi : ℂ) ≠ 0 := by exact_mod_cast Real.pi_ne_zero
  have hp' := Real.pi_ne_zero
  have e : (M fr * Complex.exp (θ fr * Complex.I) * (A + B * n) + B * ((m * Complex.exp (θ fr * Complex.I) +
      M fr * (Complex.exp (θ fr * Complex.I) * (t * Complex.I))) / (2 * Real.pi * Complex.I))) *
      Complex.exp ((2 * Real.pi * fr * n + φ) * Complex.I) =
      (((M fr * (A + B * (n - -t / (2 * Real.pi))) : ℝ) : ℂ) - ((B * m / (2 * Real.pi) : ℝ) : ℂ) * Complex.I) *
        Complex.exp ((2 * Real.pi * fr * n + φ + θ fr : ℝ) * Complex.I) := by
    rw [show ((2 * Real.pi * fr * n + φ + θ fr : ℝ) : ℂ) * Complex.I =
      (2 * Real.pi * fr * n + φ) * Complex.I + θ fr * Complex.I by push_cast; ring, Complex.exp_add]
    push_cast
    field_simp
    linear_combination (B * m : ℂ) * Complex.I_sq
  rw [e]
  generalize M fr * (A + B * (n - -t / (2 * Real.pi))) = P
  generalize B * m / (2 * Real.pi) = Q
  generalize 2 * Real.pi * fr * n + φ + θ fr = ψ
  rw [_root_.sub_mul, Complex.exp_mul_I, ← Complex.ofReal_cos, ← Complex.ofReal_sin]
  simp [-Complex.ofReal_cos, -Complex.ofReal_sin]

/-- **C104**, group delay of pole filters: where `response ()` is `M (fr) exp (i θ (fr))`, with derivatives `m` and `t`, the
envelope comes out late by `-t / (2 π)` samples. -/
theorem C104_delay {S : Type → Type} [StateType S XR] [DelayLine XR S] {T : Type} [Sample T XR] {c : Cls} {n : Nat} (hn1 : 1 ≤ n)
    (hn : n < 2 ^ 30) {f : PoleFilter S XR} (h : Reach S T c n f) (hst : StableFilter f) (hfin : FiniteStates f.states)
    {M θ : ℝ → ℝ} {m t fr : ℝ} (h0 : 0 < fr) (h1 : fr < 1 / 2)
    (hH : ∀ᶠ u in 𝓝 fr, Response f u (M u * Complex.exp (θ u * Complex.I))) (hM : HasDerivAt M m fr) (hθ : HasDerivAt θ t fr)
    (A B φ : ℝ) :
    ∃ y, Produces (PoleFilter.filter (T := XR)) f (swelling fr A B φ) y ∧
      ComesLate (M fr) m (θ fr) (-t / (2 * Real.pi)) fr A B φ y := by
  obtain ⟨H, D, e, hD, hy⟩ := C104_filter hn1 hn h hst hfin
  obtain ⟨y, hy, hs⟩ := hy fr A B φ
  refine ⟨y, hy, comesLate_of ?_ hM hθ (hD fr) hs⟩
  filter_upwards [hH, Ioo_mem_nhds h0 h1] with u hu hI
  have := Res.ok.inj ((e u hI.1.le hI.2.le).symm.trans hu)
  exact ofC_inj.1 this

/-- **C104**, group delay of RBJ filters. -/
theorem C104_delay_rbj {f : RBJ.Filter XR} {k : Coeffs} (hk : HasCoeffs f.biquad k) (hst : k.Stable)
    (hs : ExactState.Finite f.state) {M θ : ℝ → ℝ} {m t fr : ℝ}
    (hH : ∀ᶠ u in 𝓝 fr, f.biquad.response (fin u) = .ok (ofC (M u * Complex.exp (θ u * Complex.I))))
    (hM : HasDerivAt M m fr) (hθ : HasDerivAt θ t fr) (A B φ : ℝ) :
    ∃ y, Produces (RBJ.Filter.filter (T := XR)) f (swelling fr A B φ) y ∧
      ComesLate (M fr) m (θ fr) (-t / (2 * Real.pi)) fr A B φ y := by
  obtain ⟨H, D, e, hD, hy⟩ := C104_rbj hk hst hs
  obtain ⟨y, hy, hs⟩ := hy fr A B φ
  refine ⟨y, hy, comesLate_of ?_ hM hθ (hD fr) hs⟩
  filter_upwards [hH] with u hu
  exact ofC_inj.1 (Res.ok.inj ((e u).symm.trans hu))

/-! ## Ramps -/

theorem bwPole_ne (o k : ℕ) : bwPole o k ≠ 0 := Complex.exp_ne_zero _

theorem bwPole_inv_sum {o : ℕ} (ho : 1 ≤ o) :
    ∑ k ∈ Finset.range o, (bwPole o k)⁻¹ = -(1 / Real.sin (Real.pi / (2 * o)) : ℝ) := by
  have ho' : (o : ℂ) ≠ 0 := by exact_mod_cast (by omega : o ≠ 0)
  have hor : (0 : ℝ) < o := by exact_mod_cast ho
  set x : ℝ := Real.pi / (2 * o) with hx
  have hs : 0 < Real.sin x := Real.sin_pos_of_pos_of_lt_pi (by positivity) (by
    rw [hx, div_lt_iff₀ (by positivity)]
    have : (1 : ℝ) ≤ o := by exact_mod_cast ho
    nlinarith [Real.pi_pos])
  have hsc : (Real.sin x : ℂ) ≠ 0 := by exact_mod_cast hs.ne'
  set u : ℂ := Complex.exp (-(x * Complex.I)) with hu
  have hxc : (x : ℂ) = Real.pi / (2 * o) := by rw [hx]; push_cast; ring
  have e : ∀ k ∈ Finset.range o, (bwPole o k)⁻¹ = -(Complex.I * u) * (u ^ 2) ^ k := fun k _ => by
    rw [hu, ← Complex.exp_nat_mul, ← Complex.exp_nat_mul, bwPole, ← Complex.exp_neg,
      show -(Complex.I * Complex.exp (-(x * Complex.I))) = Complex.exp (-(Real.pi / 2 * Complex.I)) * Complex.exp (-(x * Complex.I)) by
        rw [Complex.exp_neg (Real.pi / 2 * Complex.I), Complex.exp_pi_div_two_mul_I, Complex.inv_I]; ring,
      ← Complex.exp_add, ← Complex.exp_add, hxc]
    congr 1
    push_cast
    field_simp
    ring
  have u2 : (u ^ 2) ^ o = -1 := by
    rw [← pow_mul, hu, ← Complex.exp_nat_mul, hxc, show ((2 * o : ℕ) : ℂ) * -(Real.pi / (2 * o) * Complex.I) = -(Real.pi * Complex.I) by
      push_cast; field_simp, Complex.exp_neg, Complex.exp_pi_mul_I]
    norm_num
  have hd : u ^ 2 - 1 = -(2 * Complex.I * Real.sin x) * u := by
    have h1 : u = Real.cos x - Real.sin x * Complex.I := by
      rw [hu, show -((x : ℂ) * Complex.I) = ((-x : ℝ) : ℂ) * Complex.I by push_cast; ring, Complex.exp_mul_I,
        ← Complex.ofReal_cos, ← Complex.ofReal_sin, Real.cos_neg, Real.sin_neg]
      push_cast; ring
    have h2 : (Real.sin x : ℂ) ^ 2 + (Real.cos x : ℂ) ^ 2 = 1 := by exact_mod_cast Real.sin_sq_add_cos_sq x
    rw [h1]
    linear_combination (-(Real.sin x : ℂ) ^ 2) * Complex.I_sq + h2
  have hu0 : u ≠ 0 := Complex.exp_ne_zero _
  have hne : u ^ 2 ≠ 1 := by
    intro h
    rw [h, sub_self] at hd
    have := mul_ne_zero (neg_ne_zero.2 (mul_ne_zero (mul_ne_zero two_ne_zero Complex.I_ne_zero) hsc)) hu0
    exact this hd.symm
  rw [Finset.sum_congr rfl e, ← Finset.mul_sum, geom_sum_eq hne, u2, hd]
  push_cast
  have hI := Complex.I_ne_zero
  have hsc' : Complex.sin x ≠ 0 := by simpa using hsc
  field_simp
  norm_num

theorem hasDerivAt_bwLow {o : ℕ} (ho : 1 ≤ o) (fc : ℝ) :
    HasDerivAt (fun fr : ℝ => bwLow o (Complex.I * lowRatio fc fr))
      (2 * Real.pi * Complex.I * -(1 / (2 * Real.tan (Real.pi * fc) * Real.sin (Real.pi / (2 * o))) : ℝ)) 0 := by
  have h1 : HasDerivAt (fun fr : ℝ => lowRatio fc fr) (Real.pi / Real.tan (Real.pi * fc)) 0 := by
    have ht : HasDerivAt (fun fr : ℝ => Real.tan (Real.pi * fr)) (1 / Real.cos (Real.pi * 0) ^ 2 * (Real.pi * 1)) 0 :=
      (Real.hasDerivAt_tan (by simp)).comp (0 : ℝ) ((hasDerivAt_id (0 : ℝ)).const_mul Real.pi)
    refine (ht.div_const (Real.tan (Real.pi * fc))).congr_deriv ?_
    simp
  have h2 : HasDerivAt (fun fr : ℝ => Complex.I * (lowRatio fc fr : ℂ)) (Complex.I * ((Real.pi / Real.tan (Real.pi * fc) : ℝ) : ℂ)) 0 :=
    h1.ofReal_comp.const_mul _
  have z : lowRatio fc 0 = 0 := by simp [lowRatio]
  have h3 : ∀ k ∈ Finset.range o, HasDerivAt (fun fr : ℝ => -bwPole o k / (Complex.I * (lowRatio fc fr : ℂ) - bwPole o k))
      (Complex.I * ((Real.pi / Real.tan (Real.pi * fc) : ℝ) : ℂ) * (bwPole o k)⁻¹) 0 := fun k _ => by
    have hp := bwPole_ne o k
    refine ((hasDerivAt_const (0 : ℝ) (-bwPole o k)).div (h2.sub_const (bwPole o k)) (by simpa [z] using hp)).congr_deriv ?_
    rw [z]
    simp
    field_simp
  have h4 := HasDerivAt.fun_finsetProd h3
  refine h4.congr_deriv ?_
  have e : ∀ k ∈ Finset.range o, (∏ j ∈ (Finset.range o).erase k, -bwPole o j / (Complex.I * (lowRatio fc 0 : ℂ) - bwPole o j)) •
      (Complex.I * ((Real.pi / Real.tan (Real.pi * fc) : ℝ) : ℂ) * (bwPole o k)⁻¹) =
      Complex.I * ((Real.pi / Real.tan (Real.pi * fc) : ℝ) : ℂ) * (bwPole o k)⁻¹ := fun k _ => by
    rw [Finset.prod_eq_one fun j _ => ?_, one_smul]
    rw [z, Complex.ofReal_zero, MulZeroClass.mul_zero, zero_sub, div_self (neg_ne_zero.2 (bwPole_ne o j))]
  rw [Finset.sum_congr rfl e, ← Finset.mul_sum, bwPole_inv_sum ho]
  push_cast
  ring

section
variable {S : Type → Type} [StateType S XR] [DelayLine XR S] {T : Type} [Sample T XR]

/-- **C104**, Butterworth low passes: a ramp comes out as the same ramp, `1 / (2 tan (π fc) sin (π / (2 o)))` samples late, whatever
is in the delay lines. -/
theorem C104_ramp {n o : ℕ} {call : Call XR} {fc : ℝ} (h : Asks call n o (.bwLowPass (fin fc))) (h0 : 0 < fc) (h1 : fc < 1 / 2) :
    AfterSetup S T n call fun f => FiniteStates f.states → ∀ A B, ∃ y,
      Produces (PoleFilter.filter (T := XR)) f (fun k => A + B * k) y ∧
        Tendsto (fun k : ℕ => y k - (A + B * (k - 1 / (2 * Real.tan (Real.pi * fc) * Real.sin (Real.pi / (2 * o)))))) atTop (𝓝 0) := by
  intro f hf
  obtain ⟨f', e, hs, hT, hst⟩ := ((C66_response (S := S) (T := T) h ⟨h0, h1⟩).and (C29_stable h ⟨h0, h1⟩)) f hf
  refine ⟨f', e, hs, fun hfin A B => ?_⟩
  have hr : Reach S T call.design.cls n f' := .call f f' (.setup call) (.ok ()) hf rfl e fun u h => by cases h
  obtain ⟨H, D, hH, hD, hy⟩ := C104_filter (h.pos.trans h.le) h.small hr hst hfin
  obtain ⟨y, hy, hw⟩ := hy 0 A B 0
  have hv : ∀ fr, 0 ≤ fr → fr < 1 / 2 → H fr = bwLow o (Complex.I * lowRatio fc fr) := fun fr a b =>
    ofC_inj.1 (Res.ok.inj ((hH fr a b.le).symm.trans (hT.value fr a b)))
  have hD0 : D 0 = 2 * Real.pi * Complex.I * -(1 / (2 * Real.tan (Real.pi * fc) * Real.sin (Real.pi / (2 * o))) : ℝ) := by
    refine (uniqueDiffWithinAt_Ici (0 : ℝ)).eq_deriv _ (hD 0).hasDerivWithinAt
      ((hasDerivAt_bwLow h.pos fc).hasDerivWithinAt.congr_of_eventuallyEq ?_ (hv 0 le_rfl (by norm_num)))
    filter_upwards [Ico_mem_nhdsGE (show (0 : ℝ) < 1 / 2 by norm_num)] with u hu using hv u hu.1 hu.2
  have hH0 : H 0 = 1 := by
    rw [hv 0 le_rfl (by norm_num), bwLow]
    refine Finset.prod_eq_one fun k _ => ?_
    rw [show lowRatio fc 0 = 0 by simp [lowRatio], Complex.ofReal_zero, MulZeroClass.mul_zero, zero_sub,
      div_self (neg_ne_zero.2 (bwPole_ne o k))]
  refine ⟨y, ?_, ?_⟩
  · have : swelling 0 A B 0 = fun k : ℕ => A + B * k := by
      funext k; simp [swelling]
    rwa [this] at hy
  · rw [hD0, hH0] at hw
    refine hw.congr fun k => ?_
    have hp : (2 * Real.pi * Complex.I : ℂ) ≠ 0 := by simp [Real.pi_ne_zero]
    rw [mul_div_cancel_left₀ _ hp]
    generalize 1 / (2 * Real.tan (Real.pi * fc) * Real.sin (Real.pi / (2 * o))) = τ
    congr 1
    rw [show ((1 : ℂ) * (A + B * k) + B * -(τ : ℂ)) * Complex.exp ((2 * Real.pi * (0 : ℝ) * k + (0 : ℝ)) * Complex.I) =
      ((A + B * (k - τ) : ℝ) : ℂ) by simp; ring, Complex.ofReal_re]

end

theorem hasDerivAt_lowRatio (fc : ℝ) : HasDerivAt (fun fr : ℝ => Complex.I * (lowRatio fc fr : ℂ))
    (Complex.I * ((Real.pi / Real.tan (Real.pi * fc) : ℝ) : ℂ)) 0 := by
  have ht : HasDerivAt (fun fr : ℝ => Real.tan (Real.pi * fr)) (1 / Real.cos (Real.pi * 0) ^ 2 * (Real.pi * 1)) 0 :=
    (Real.hasDerivAt_tan (by simp)).comp (0 : ℝ) ((hasDerivAt_id (0 : ℝ)).const_mul Real.pi)
  have h1 : HasDerivAt (fun fr : ℝ => lowRatio fc fr) (Real.pi / Real.tan (Real.pi * fc)) 0 := by
    refine (ht.div_const (Real.tan (Real.pi * fc))).congr_deriv ?_
    simp
  exact h1.ofReal_comp.const_mul _

theorem quad_ramp {f : RBJ.Filter XR} {k : Coeffs} (hk : HasCoeffs f.biquad k) (hst : k.Stable) (hs : ExactState.Finite f.state)
    {f0 n2 n1 n0 d2 d1 d0 : ℝ} (hQ : QuadResponse f0 n2 n1 n0 d2 d1 d0 f.biquad) (hd : d0 ≠ 0) {g δ : ℝ} (hg : n0 / d0 = g)
    (hδ : (n0 * d1 - n1 * d0) / d0 ^ 2 = δ) (A B : ℝ) :
    ∃ y, Produces (RBJ.Filter.filter (T := XR)) f (fun k => A + B * k) y ∧
      Tendsto (fun k : ℕ => y k - (g * (A + B * k) - B * δ / (2 * Real.tan (Real.pi * f0)))) atTop (𝓝 0) := by
  obtain ⟨H, D, hH, hD, hy⟩ := C104_rbj hk hst hs
  obtain ⟨y, hy, hw⟩ := hy 0 A B 0
  have hd' : (d0 : ℂ) ≠ 0 := by exact_mod_cast hd
  have hv : ∀ fr, 0 ≤ fr → fr < 1 / 2 → H fr = (n2 * (Complex.I * lowRatio f0 fr) ^ 2 + n1 * (Complex.I * lowRatio f0 fr) + n0) /
      (d2 * (Complex.I * lowRatio f0 fr) ^ 2 + d1 * (Complex.I * lowRatio f0 fr) + d0) := fun fr a b =>
    ofC_inj.1 (Res.ok.inj ((hH fr).symm.trans (hQ.1 fr a b)))
  have z : lowRatio f0 0 = 0 := by simp [lowRatio]
  have hF : HasDerivAt (fun fr : ℝ => (n2 * (Complex.I * lowRatio f0 fr) ^ 2 + n1 * (Complex.I * lowRatio f0 fr) + n0) /
      (d2 * (Complex.I * lowRatio f0 fr) ^ 2 + d1 * (Complex.I * lowRatio f0 fr) + d0) : ℝ → ℂ)
      (2 * Real.pi * Complex.I * -(δ / (2 * Real.tan (Real.pi * f0)) : ℝ)) 0 := by
    have h2 := hasDerivAt_lowRatio f0
    have hn := (((h2.fun_pow 2).const_mul (n2 : ℂ)).add (h2.const_mul (n1 : ℂ))).add_const (n0 : ℂ)
    have hdn := (((h2.fun_pow 2).const_mul (d2 : ℂ)).add (h2.const_mul (d1 : ℂ))).add_const (d0 : ℂ)
    refine (hn.div hdn (by simpa [z] using hd')).congr_deriv ?_
    rw [← hδ]
    simp only [Pi.add_apply, z]
    simp
    field_simp
    ring
  have hD0 : D 0 = 2 * Real.pi * Complex.I * -(δ / (2 * Real.tan (Real.pi * f0)) : ℝ) := by
    refine (uniqueDiffWithinAt_Ici (0 : ℝ)).eq_deriv _ (hD 0).hasDerivWithinAt
      (hF.hasDerivWithinAt.congr_of_eventuallyEq ?_ (hv 0 le_rfl (by norm_num)))
    filter_upwards [Ico_mem_nhdsGE (show (0 : ℝ) < 1 / 2 by norm_num)] with u hu using hv u hu.1 hu.2
  have hH0 : H 0 = (g : ℝ) := by
    rw [hv 0 le_rfl (by norm_num), z, ← hg]
    simp
  refine ⟨y, ?_, ?_⟩
  · have : swelling 0 A B 0 = fun k : ℕ => A + B * k := by
      funext k; simp [swelling]
    rwa [this] at hy
  · rw [hD0, hH0] at hw
    refine hw.congr fun k => ?_
    have hp : (2 * Real.pi * Complex.I : ℂ) ≠ 0 := by simp [Real.pi_ne_zero]
    rw [mul_div_cancel_left₀ _ hp, mul_div_assoc B]
    generalize δ / (2 * Real.tan (Real.pi * f0)) = τ
    congr 1
    rw [show ((g : ℂ) * (A + B * k) + B * -(τ : ℂ)) * Complex.exp ((2 * Real.pi * (0 : ℝ) * k + (0 : ℝ)) * Complex.I) =
      ((g * (A + B * k) - B * τ : ℝ) : ℂ) by simp; ring, Complex.ofReal_re]

/-- **C104**, RBJ filters: what becomes of a ramp, whatever is in the delay line. -/
theorem C104_ramp_rbj (d : RBJ.Design ℝ) (hv : ValidRBJ d) {f0 g δ : ℝ} (hd : rampOf d = some (f0, g, δ)) (f : RBJ.Filter XR)
    (hs : ExactState.Finite f.state) (A B : ℝ) :
    ∃ f' y, RBJ.Filter.setupN (finRBJ d) f = (.ok (), f') ∧ Produces (RBJ.Filter.filter (T := XR)) f' (fun k => A + B * k) y ∧
      Tendsto (fun k : ℕ => y k - (g * (A + B * k) - B * δ / (2 * Real.tan (Real.pi * f0)))) atTop (𝓝 0) := by
  obtain ⟨f', e, hs', hp⟩ := C66_rbj d hv f
  obtain ⟨f2, e2, -, k, hk, hst⟩ := C42_stable d hv f
  obtain rfl : f' = f2 := congrArg Prod.snd (e.symm.trans e2)
  rw [← hs'] at hs
  have key : ∀ {n2 n1 n0 d2 d1 d0 : ℝ}, QuadResponse f0 n2 n1 n0 d2 d1 d0 f'.biquad → d0 ≠ 0 → n0 / d0 = g →
      (n0 * d1 - n1 * d0) / d0 ^ 2 = δ → ∃ f' y, RBJ.Filter.setupN (finRBJ d) f = (.ok (), f') ∧
        Produces (RBJ.Filter.filter (T := XR)) f' (fun k => A + B * k) y ∧
          Tendsto (fun k : ℕ => y k - (g * (A + B * k) - B * δ / (2 * Real.tan (Real.pi * f0)))) atTop (𝓝 0) :=
    fun hQ h0 hg hδ => by
      obtain ⟨y, hy⟩ := quad_ramp hk hst hs hQ h0 hg hδ A B
      exact ⟨f', y, e, hy⟩
  cases d <;> simp only [rampOf, Option.some.injEq, Prod.mk.injEq, reduceCtorEq] at hd <;> obtain ⟨rfl, rfl, rfl⟩ := hd
  case lowPass => exact key hp one_ne_zero (by norm_num) (by ring)
  case highPass => exact key hp one_ne_zero (by norm_num) (by ring)
  case bandPass1 => exact key hp one_ne_zero (by norm_num) (by ring)
  case bandPass2 => exact key hp one_ne_zero (by norm_num) (by ring)
  case bandStop => exact key hp one_ne_zero (by norm_num) (by ring)
  case allPass => exact key hp one_ne_zero (by norm_num) (by ring)
  case bandShelf => exact key hp one_ne_zero (by norm_num) (by ring)
  case lowShelf => exact key hp one_ne_zero (by ring) (by ring)
  case highShelf f0 gain s =>
    have hA := (ofDb_pos (gain / 2)).ne'
    exact key hp hA (div_self hA) (by field_simp)

/-! ## Cases -/

/-- Butterworth low pass of order 2 at a quarter of the sampling rate, new: the ramp `n` comes out `1/√2` samples late -/
example {S : Type → Type} [StateType S XR] [DelayLine XR S] : ∃ f' : PoleFilter S XR, ∃ y,
    PoleFilter.setup 2 (.setupN (.bwLowPass (fin (1 / 4)))) (PoleFilter.init S .bwLowPass 2) = (.ok (), f') ∧
      Produces (PoleFilter.filter (T := XR)) f' (fun k => (0 : ℝ) + 1 * k) y ∧
        Tendsto (fun k : ℕ => y k - (0 + 1 * (k - 1 / √2))) atTop (𝓝 0) := by
  obtain ⟨f', e, hs, h⟩ := C104_ramp (S := S) (T := XR) (n := 2) (o := 2) (call := .setupN (.bwLowPass (fin (1 / 4))))
    (fc := 1 / 4) ⟨rfl, rfl, by norm_num, le_rfl, by norm_num⟩ (by norm_num) (by norm_num) _ .new
  obtain ⟨y, hy, ht⟩ := h (fun s hs' => by
    rw [hs] at hs'
    obtain ⟨s', -, rfl⟩ := List.mem_map.1 hs'
    rw [LawfulState.reset_eq]
    exact ExactState.finite_init) 0 1
  refine ⟨f', y, e, hy, ht.congr fun k => ?_⟩
  have h2 : √2 * √2 = (2 : ℝ) := Real.mul_self_sqrt (by norm_num)
  have h0 : √2 ≠ (0 : ℝ) := by positivity
  rw [show Real.pi * (1 / 4) = Real.pi / 4 by ring, Real.tan_pi_div_four,
    show Real.pi / (2 * (2 : ℕ)) = Real.pi / 4 by push_cast; ring, Real.sin_pi_div_four]
  congr 4
  field_simp

/-- the mean of the last two samples -/
noncomputable def exMean : Coeffs := { a0 := 1, a1 := 0, a2 := 0, b0 := 1 / 2, b1 := 1 / 2, b2 := 0 }

/-- an object with these coefficients, whose response is `cos (π fr) exp (-i π fr)`: everything comes half a sample late -/
example {f : RBJ.Filter XR} (hk : HasCoeffs f.biquad exMean) (hs : ExactState.Finite f.state) (fr A B φ : ℝ) :
    ∃ y, Produces (RBJ.Filter.filter (T := XR)) f (swelling fr A B φ) y ∧
      ComesLate (Real.cos (Real.pi * fr)) (-Real.sin (Real.pi * fr) * Real.pi) (-Real.pi * fr) (1 / 2) fr A B φ y := by
  have hst : exMean.Stable := by
    intro z hz
    simp [exMean] at hz
    simp [hz]
  have hne : exMean.a0 ≠ 0 := by simp [exMean]
  have hresp : ∀ u, f.biquad.response (fin u) = .ok (ofC (Real.cos (Real.pi * u) * Complex.exp ((-Real.pi * u : ℝ) * Complex.I))) := by
    intro u
    have hr := response_toX (b := exMean.norm) hne u
    rw [← (hasCoeffs_iff.1 hk).1] at hr
    have hden : exMean.norm.denQ (circle u)⁻¹ ≠ 0 := den_ne_zero_of_stable ((Coeffs.stable_norm hne).2 hst) (norm_circle u)
    rw [Cx.cdiv_ofC _ hden, ← secH_eq] at hr
    rw [hr]
    congr 2
    rw [secH, circle, ← Complex.exp_neg, Complex.ofReal_cos, Complex.cos]
    simp only [Coeffs.norm, exMean]
    push_cast
    set w := Complex.exp (Real.pi * u * Complex.I) with hw
    have hw0 : w ≠ 0 := Complex.exp_ne_zero _
    have e1 : Complex.exp (-(2 * Real.pi * u * Complex.I)) = w⁻¹ ^ 2 := by
      rw [hw, ← Complex.exp_neg, ← Complex.exp_nat_mul]; congr 1; push_cast; ring
    have e2 : Complex.exp (-(Real.pi * u) * Complex.I) = w⁻¹ := by rw [hw, ← Complex.exp_neg]; congr 1; ring
    have e3 : Complex.exp (-Real.pi * u * Complex.I) = w⁻¹ := by rw [hw, ← Complex.exp_neg]; congr 1; ring
    rw [e1, e2, e3]
    field_simp
    ring
  have h1 : HasDerivAt (fun u : ℝ => Real.cos (Real.pi * u)) (-Real.sin (Real.pi * fr) * Real.pi) fr := by
    simpa using ((hasDerivAt_id fr).const_mul Real.pi).cos
  have h2 : HasDerivAt (fun u : ℝ => -Real.pi * u) (-Real.pi) fr := by
    simpa using (hasDerivAt_id fr).const_mul (-Real.pi)
  have := C104_delay_rbj hk hst hs (Filter.Eventually.of_forall hresp) h1 h2 A B φ
  rwa [show -(-Real.pi) / (2 * Real.pi) = 1 / 2 by
    have := Real.pi_ne_zero
    field_simp] at this

/-- Butterworth low pass of order 1 at a quarter of the sampling rate, new: every envelope comes out half a sample late -/
example {S : Type → Type} [StateType S XR] [DelayLine XR S] {fr : ℝ} (h0 : 0 < fr) (h1 : fr < 1 / 2) (A B φ : ℝ) :
    ∃ f' : PoleFilter S XR, ∃ y,
      PoleFilter.setup 1 (.setupN (.bwLowPass (fin (1 / 4)))) (PoleFilter.init S .bwLowPass 1) = (.ok (), f') ∧
        Produces (PoleFilter.filter (T := XR)) f' (swelling fr A B φ) y ∧
          ComesLate (Real.cos (Real.pi * fr)) (-Real.sin (Real.pi * fr) * Real.pi) (-Real.pi * fr) (1 / 2) fr A B φ y := by
  have a : Asks (.setupN (.bwLowPass (fin (1 / 4)))) 1 1 (.bwLowPass (fin (1 / 4))) := ⟨rfl, rfl, le_rfl, le_rfl, by norm_num⟩
  have v : Valid 1 (.bwLowPass (fin (1 / 4))) := ⟨by norm_num, by norm_num⟩
  obtain ⟨f', e, hs, hT, hst⟩ := ((C66_response (S := S) (T := XR) a v).and (C29_stable a v)) _ .new
  have hr : Reach S XR .bwLowPass 1 f' := .call _ f' (.setup (.setupN (.bwLowPass (fin (1 / 4))))) (.ok ()) .new rfl e fun u h => by cases h
  have hfin : FiniteStates f'.states := fun s hs' => by
    rw [hs] at hs'
    obtain ⟨s', -, rfl⟩ := List.mem_map.1 hs'
    rw [LawfulState.reset_eq]
    exact ExactState.finite_init
  have hH : ∀ᶠ u in 𝓝 fr, Response f' u (Real.cos (Real.pi * u) * Complex.exp ((-Real.pi * u : ℝ) * Complex.I)) := by
    filter_upwards [Ioo_mem_nhds h0 h1] with u hu
    have := hT.value u hu.1.le hu.2
    have hc : Real.cos (Real.pi * u) ≠ 0 := (Real.cos_pos_of_mem_Ioo
      ⟨by nlinarith [Real.pi_pos, hu.1], by nlinarith [Real.pi_pos, hu.2]⟩).ne'
    have hcc : (Real.cos (Real.pi * u) : ℂ) ≠ 0 := by exact_mod_cast hc
    have hE := Complex.exp_ne_zero (Real.pi * u * Complex.I)
    have hE' : Complex.exp (Real.pi * u * Complex.I) = Real.cos (Real.pi * u) + Real.sin (Real.pi * u) * Complex.I := by
      rw [Complex.ofReal_cos, Complex.ofReal_sin, ← Complex.exp_mul_I]; push_cast; rfl
    have e2 : bwLow 1 (Complex.I * lowRatio (1 / 4) u) =
        Real.cos (Real.pi * u) * Complex.exp ((-Real.pi * u : ℝ) * Complex.I) := by
      rw [bwLow_one, lowRatio, show Real.pi * (1 / 4) = Real.pi / 4 by ring, Real.tan_pi_div_four, _root_.div_one, Real.tan_eq_sin_div_cos,
        show ((-Real.pi * u : ℝ) : ℂ) * Complex.I = -(Real.pi * u * Complex.I) by push_cast; ring, Complex.exp_neg]
      rw [hE'] at hE ⊢
      rw [Complex.ofReal_div]
      generalize (Real.cos (Real.pi * u) : ℂ) = C at *
      generalize (Real.sin (Real.pi * u) : ℂ) = Z at *
      rw [show Complex.I * (Z / C) + 1 = (C + Z * Complex.I) / C by field_simp; ring, one_div_div, div_eq_mul_inv]
    rwa [e2] at this
  have d1 : HasDerivAt (fun u : ℝ => Real.cos (Real.pi * u)) (-Real.sin (Real.pi * fr) * Real.pi) fr := by
    simpa using ((hasDerivAt_id fr).const_mul Real.pi).cos
  have d2 : HasDerivAt (fun u : ℝ => -Real.pi * u) (-Real.pi) fr := by
    simpa using (hasDerivAt_id fr).const_mul (-Real.pi)
  obtain ⟨y, hy, hl⟩ := C104_delay le_rfl (by norm_num) hr hst hfin h0 h1 hH d1 d2 A B φ
  rw [show -(-Real.pi) / (2 * Real.pi) = 1 / 2 by
    have := Real.pi_ne_zero
    field_simp] at hl
  exact ⟨f', y, e, hy, hl⟩

/-- an RBJ all pass at a quarter of the sampling rate with quality 1: a ramp comes out one sample late -/
example (A B : ℝ) : ∃ f' y, RBJ.Filter.setupN (.allPass (fin (1 / 4)) (fin 1)) RBJ.Filter.init = (.ok (), f') ∧
    Produces (RBJ.Filter.filter (T := XR)) f' (fun k => A + B * k) y ∧
      Tendsto (fun k : ℕ => y k - (A + B * (k - 1))) atTop (𝓝 0) := by
  obtain ⟨f', y, e, hy, ht⟩ := C104_ramp_rbj (.allPass (1 / 4) 1) ⟨by norm_num, by norm_num, one_pos⟩ rfl RBJ.Filter.init
    ExactState.finite_init A B
  refine ⟨f', y, e, hy, ht.congr fun k => ?_⟩
  rw [show Real.pi * (1 / 4) = Real.pi / 4 by ring, Real.tan_pi_div_four]
  ring

/-- **C104**, any stable section: a ramp goes on as `g (A + B n) - B δ`, `g` being the gain at frequency 0 and `δ` read off the
coefficients. -/
theorem C104_ramp_section {f : RBJ.Filter XR} {k : Coeffs} (hk : HasCoeffs f.biquad k) (hst : k.Stable)
    (hs : ExactState.Finite f.state) (A B : ℝ) : k.a0 + k.a1 + k.a2 ≠ 0 ∧ ∃ y,
      Produces (RBJ.Filter.filter (T := XR)) f (fun j => A + B * j) y ∧
        ∀ g δ, g * (k.a0 + k.a1 + k.a2) = k.b0 + k.b1 + k.b2 →
          δ * (k.a0 + k.a1 + k.a2) = k.b1 + 2 * k.b2 - g * (k.a1 + 2 * k.a2) →
            Tendsto (fun j : ℕ => y j - (g * (A + B * j) - B * δ)) atTop (𝓝 0) := by
  obtain ⟨hb, hne⟩ := hasCoeffs_iff.1 hk
  obtain ⟨c, hc⟩ := ExactState.sim_of_finite k.norm f.state hs
  have h := (Coeffs.stable_norm hne).2 hst
  have hd := den_ne_zero_of_stable h (z := 1) (by simp)
  have hd' : 1 + k.norm.a1 + k.norm.a2 ≠ 0 := by
    intro h0
    apply hd
    rw [inv_one]
    have : ((1 + k.norm.a1 + k.norm.a2 : ℝ) : ℂ) = 0 := by rw [h0]; simp
    push_cast at this
    linear_combination this
  have hW : k.a0 + k.a1 + k.a2 ≠ 0 := by
    intro h0
    apply hd'
    simp only [Coeffs.norm]
    field_simp
    rw [h0, MulZeroClass.mul_zero]
  refine ⟨hW, _, RBJ.Filter.produces hb hc _, fun g δ hg hδ => ?_⟩
  have key := sec_swell h c (z := 1) (K := B) (L := A) (x := fun j : ℕ => A + B * j) (by simp) (by
    refine tendsto_const_nhds.congr fun n => ?_
    rw [one_pow, mul_one, show ((B : ℂ) * n + A) = ((A + B * n : ℝ) : ℂ) by push_cast; ring, Complex.ofReal_re, sub_self])
  have eH : secH k.norm 1 = (g : ℝ) := by
    rw [secH, inv_one, one_pow, mul_one, mul_one, mul_one, mul_one]
    have : (k.norm.b0 + k.norm.b1 + k.norm.b2) / (1 + k.norm.a1 + k.norm.a2) = g := by
      rw [div_eq_iff hd']
      simp only [Coeffs.norm]
      field_simp
      linarith
    rw [← this]; push_cast; rfl
  have eE : secE k.norm 1 = ((-δ : ℝ) : ℂ) := by
    rw [secE, eH, inv_one, one_pow]
    simp only [_root_.mul_one]
    have : (g * (k.norm.a1 + 2 * k.norm.a2) - (k.norm.b1 + 2 * k.norm.b2)) / (1 + k.norm.a1 + k.norm.a2) = -δ := by
      rw [div_eq_iff hd']
      simp only [Coeffs.norm]
      field_simp
      linarith
    rw [← this]; push_cast; rfl
  refine key.congr fun j => ?_
  rw [eH, eE, one_pow, mul_one, show ((g : ℂ) * B * j + (g * A + ((-δ : ℝ) : ℂ) * B)) = ((g * (A + B * j) - B * δ : ℝ) : ℂ) by
    push_cast; ring, Complex.ofReal_re]

/-- **C104**, RBJ notch: a ramp comes out scaled by the gain at frequency 0 and `(1 - r²) / (1 - 2 r cos w + r²)` samples late,
`r` being the radius of the poles and `w` their angle. -/
theorem C104_ramp_notch {f0 q : ℝ} (h0 : 0 < f0) (h1 : f0 < 1 / 2) (hq : 0 < q) (f : RBJ.Filter XR)
    (hs : ExactState.Finite f.state) (A B : ℝ) :
    let c := Real.cos (2 * Real.pi * f0)
    let r := Real.exp (-(Real.pi * f0) / q)
    ∃ f' y, RBJ.Filter.setupN (.iirNotch (fin f0) (fin q)) f = (.ok (), f') ∧
      Produces (RBJ.Filter.filter (T := XR)) f' (fun j => A + B * j) y ∧
        Tendsto (fun j : ℕ => y j - 2 * (1 - c) / (1 - 2 * r * c + r ^ 2) * (A + B * (j - (1 - r ^ 2) / (1 - 2 * r * c + r ^ 2))))
          atTop (𝓝 0) := by
  intro c r
  have hr : r = Real.exp (-(2 * Real.pi * f0 / 2) / q) := by
    simp only [r]; congr 2; ring
  have hK : AfterRBJ (.iirNotch (fin f0) (fin q)) fun b => HasCoeffs b ⟨1, -2 * r * c, r * r, 1, -2 * c, 1⟩ :=
    afterRBJ_of ⟨_, _, _, _, _, _⟩ (by simp) (fun b => by rw [hr]; exact iirNotch_setup hq b) fun b hb => hb
  obtain ⟨f', e, hs', hk⟩ := hK f
  have hst : Coeffs.Stable ⟨1, -2 * r * c, r * r, 1, -2 * c, 1⟩ := by
    obtain ⟨hsn, hc1, hc2⟩ := trig_facts h0 h1
    obtain ⟨hr0, hr1⟩ := notch_r h0 hq
    rw [← hr] at hr0 hr1
    change -1 < c at hc2
    change c < 1 at hc1
    apply Coeffs.stable_of_jury <;> simp only <;> nlinarith
  rw [← hs'] at hs
  obtain ⟨hW, y, hy, ht⟩ := C104_ramp_section hk hst hs A B
  simp only at hW ht
  have hW' : 1 - 2 * r * c + r ^ 2 ≠ 0 := fun h => hW (by linarith)
  refine ⟨f', y, e, hy, (ht (2 * (1 - c) / (1 - 2 * r * c + r ^ 2))
    (2 * (1 - c) / (1 - 2 * r * c + r ^ 2) * ((1 - r ^ 2) / (1 - 2 * r * c + r ^ 2))) ?_ ?_).congr fun j => ?_⟩
  · rw [div_mul_eq_mul_div, div_eq_iff hW']; ring
  · rw [show 1 + -2 * r * c + r * r = 1 - 2 * r * c + r ^ 2 by ring]
    obtain ⟨W, hw⟩ : ∃ W, W = 1 - 2 * r * c + r ^ 2 := ⟨_, rfl⟩
    rw [← hw] at hW' ⊢
    field_simp
    rw [hw]
    ring
  · ring

/-- a new notch at a quarter of the sampling rate -/
example (A B : ℝ) : let r := Real.exp (-(Real.pi / 4))
    ∃ f' y, RBJ.Filter.setupN (.iirNotch (fin (1 / 4)) (fin 1)) RBJ.Filter.init = (.ok (), f') ∧
      Produces (RBJ.Filter.filter (T := XR)) f' (fun j => A + B * j) y ∧
        Tendsto (fun j : ℕ => y j - 2 / (1 + r ^ 2) * (A + B * (j - (1 - r ^ 2) / (1 + r ^ 2)))) atTop (𝓝 0) := by
  have := C104_ramp_notch (f0 := 1 / 4) (q := 1) (by norm_num) (by norm_num) one_pos RBJ.Filter.init ExactState.finite_init A B
  rw [show 2 * Real.pi * (1 / 4) = Real.pi / 2 by ring, Real.cos_pi_div_two,
    show -(Real.pi * (1 / 4)) / 1 = -(Real.pi / 4) by ring] at this
  simpa using this

/-- the running mean of two samples: half a sample late, by its coefficients -/
example {f : RBJ.Filter XR} (hk : HasCoeffs f.biquad ⟨2, 0, 0, 1, 1, 0⟩) (hs : ExactState.Finite f.state) (A B : ℝ) :
    ∃ y, Produces (RBJ.Filter.filter (T := XR)) f (fun j => A + B * j) y ∧
      Tendsto (fun j : ℕ => y j - (1 * (A + B * j) - B * (1 / 2))) atTop (𝓝 0) := by
  obtain ⟨-, y, hy, h⟩ := C104_ramp_section hk (Coeffs.stable_of_jury (by norm_num) (by norm_num) (by norm_num) (by norm_num)) hs A B
  exact ⟨y, hy, h 1 (1 / 2) (by norm_num) (by norm_num)⟩

end Iir
