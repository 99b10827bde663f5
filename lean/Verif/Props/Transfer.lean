import Verif.Exact.Transfer

/-! # C66: the complex frequency response of every design

C30 to C37 speak of the gain only; here the phase is included. -/

set_option linter.unusedSectionVars false

namespace Iir
open Spec XR

variable {S : Type → Type} [StateType S XR] {T : Type} [Sample T XR] {n o : ℕ} {call : Call XR}

theorem noReal_bp {fc fw x : ℝ} {p : Prop} (h : p → Real.tan (Real.pi * (bandHi fc fw - bandLo fc fw)) ≠ 1 / x) :
    p → 1 / Real.tan (edgeHalf fc fw) ≠ x := by
  intro hp e
  refine h hp ?_
  rw [← e, one_div_one_div, edgeHalf_eq]

/-- **C66**: for all 21 filter classes, all orders and valid parameters, and whatever was done with the object before,
`response` is the transfer function of the textbook, phase included. -/
theorem C66_response {d : Design XR} (h : Asks call n o d) (hv : Valid o d) :
    AfterSetup S T n call (HasTransfer o d) := by
  have ho := h.pos
  unfold Valid at hv
  split at hv
  · exact transfer_low (bw_transfer ho) h (Design.proto_bw _ h.pos h.le h.small rfl lay0_bw.1 lay0_bw.2)
      (butterworth_shape ho).ne rfl rfl hv
  · exact transfer_high (bw_transfer ho) h (Design.proto_bw _ h.pos h.le h.small rfl lay0_bw.1 lay0_bw.2)
      (butterworth_shape ho).ne rfl rfl hv
  · obtain ⟨h0, h1, he, hodd⟩ := hv
    refine transfer_bandPass (bw_transfer ho) h (Design.proto_bw _ h.pos h.le h.small rfl lay0_bw.1 lay0_bw.2)
      (butterworth_shape ho).ne rfl rfl h0 h1 he (bw_noReal (noReal_bp fun e => ?_))
    have h2 := hodd e
    simpa using h2
  · obtain ⟨h0, h1, he, hodd⟩ := hv
    refine transfer_bandStop (bw_transfer ho) h (Design.proto_bw _ h.pos h.le h.small rfl lay0_bw.1 lay0_bw.2)
      (butterworth_shape ho).ne rfl rfl h0 h1 he (bw_noReal fun e => ?_)
    have h2 := hodd e
    rw [edgeHalf_eq]
    simpa using h2
  · exact transfer_low (bwShelf_transfer ho _) h
      (Design.proto_bwShelf _ _ h.pos h.le h.small rfl lay0_bwShelf.1 lay0_bwShelf.2)
      (butterworthShelf_shape ho _).ne rfl rfl hv
  · exact transfer_high (bwShelf_transfer ho _) h
      (Design.proto_bwShelf _ _ h.pos h.le h.small rfl lay0_bwShelf.1 lay0_bwShelf.2)
      (butterworthShelf_shape ho _).ne rfl rfl hv
  · obtain ⟨h0, h1, he, hodd⟩ := hv
    refine transfer_bandShelf (bwShelf_transfer ho _) h
      (Design.proto_bwShelf _ _ h.pos h.le h.small rfl lay0_bwShelf.1 lay0_bwShelf.2)
      (butterworthShelf_shape ho _).ne rfl rfl h0 h1 he (bwShelf_noReal fun e => ?_)
    have h2 := hodd e
    simp only [List.mem_cons, List.not_mem_nil, or_false, not_or, ofDb_neg_inv] at h2
    rw [bwShelfRoot_eq ho]
    refine ⟨noReal_bp (fun _ => h2.2) e, noReal_bp (fun _ => ?_) e⟩
    rw [one_div_one_div]; exact h2.1
  · exact transfer_low (c1_transfer ho _) h (Design.proto_c1 _ hv.2 h.pos h.le h.small rfl)
      (chebyshevI_shape ho hv.2).ne rfl rfl hv.1
  · exact transfer_high (c1_transfer ho _) h (Design.proto_c1 _ hv.2 h.pos h.le h.small rfl)
      (chebyshevI_shape ho hv.2).ne rfl rfl hv.1
  · obtain ⟨⟨h0, h1, he, hodd⟩, hr⟩ := hv
    refine transfer_bandPass (c1_transfer ho _) h (Design.proto_c1 _ hr h.pos h.le h.small rfl)
      (chebyshevI_shape ho hr).ne rfl rfl h0 h1 he (c1_noReal (noReal_bp fun e => ?_))
    have h2 := hodd e
    simpa only [List.mem_cons, List.not_mem_nil, or_false] using h2
  · obtain ⟨⟨h0, h1, he, hodd⟩, hr⟩ := hv
    refine transfer_bandStop (c1_transfer ho _) h (Design.proto_c1 _ hr h.pos h.le h.small rfl)
      (chebyshevI_shape ho hr).ne rfl rfl h0 h1 he (c1_noReal fun e => ?_)
    have h2 := hodd e
    rw [edgeHalf_eq]
    simpa only [List.mem_cons, List.not_mem_nil, or_false] using h2
  · exact transfer_low (c2_transfer ho hv.2) h
      (Design.proto_c2 _ hv.2 h.pos h.le h.small rfl lay0_c2.1 lay0_c2.2)
      (chebyshevII_shape ho hv.2).ne rfl rfl hv.1
  · exact transfer_high (c2_transfer ho hv.2) h
      (Design.proto_c2 _ hv.2 h.pos h.le h.small rfl lay0_c2.1 lay0_c2.2)
      (chebyshevII_shape ho hv.2).ne rfl rfl hv.1
  · obtain ⟨⟨h0, h1, he, hodd⟩, hr⟩ := hv
    refine transfer_bandPass (c2_transfer ho hr) h
      (Design.proto_c2 _ hr h.pos h.le h.small rfl lay0_c2.1 lay0_c2.2)
      (chebyshevII_shape ho hr).ne rfl rfl h0 h1 he (c2_noReal (fun e h2 => ?_) hr)
    have h3 := hodd e
    simp only [List.mem_cons, List.not_mem_nil, or_false] at h3
    rw [← edgeHalf_eq] at h3
    rw [one_div, inv_mul_eq_one₀ (tan_edgeHalf_pos (edge_lt he)).ne'] at h2
    exact h3 h2
  · obtain ⟨⟨h0, h1, he, hodd⟩, hr⟩ := hv
    refine transfer_bandStop (c2_transfer ho hr) h
      (Design.proto_c2 _ hr h.pos h.le h.small rfl lay0_c2.1 lay0_c2.2)
      (chebyshevII_shape ho hr).ne rfl rfl h0 h1 he (c2_noReal (fun e => ?_) hr)
    have h3 := hodd e
    simp only [List.mem_cons, List.not_mem_nil, or_false] at h3
    rw [edgeHalf_eq]
    exact mul_ne_one h3
  · exact transfer_low (chebShelf_transfer hv.2.1 hv.2.2) h
      (Design.proto_chebShelf _ hv.2.1 hv.2.2 h.pos h.le h.small rfl lay0_c1Shelf.1 lay0_c1Shelf.2)
      (chebyshevShelf_shape ho hv.2.1 hv.2.2).ne rfl rfl hv.1
  · exact transfer_high (chebShelf_transfer hv.2.1 hv.2.2) h
      (Design.proto_chebShelf _ hv.2.1 hv.2.2 h.pos h.le h.small rfl lay0_c1Shelf.1 lay0_c1Shelf.2)
      (chebyshevShelf_shape ho hv.2.1 hv.2.2).ne rfl rfl hv.1
  · exact transfer_low (chebShelf_transfer hv.2.1 hv.2.2) h
      (Design.proto_chebShelf _ hv.2.1 hv.2.2 h.pos h.le h.small rfl lay0_c1Shelf.1 lay0_c1Shelf.2)
      (chebyshevShelf_shape ho hv.2.1 hv.2.2).ne rfl rfl hv.1
  · exact transfer_high (chebShelf_transfer hv.2.1 hv.2.2) h
      (Design.proto_chebShelf _ hv.2.1 hv.2.2 h.pos h.le h.small rfl lay0_c1Shelf.1 lay0_c1Shelf.2)
      (chebyshevShelf_shape ho hv.2.1 hv.2.2).ne rfl rfl hv.1
  · obtain ⟨⟨h0, h1, he, hodd⟩, hr, hG⟩ := hv
    refine transfer_bandShelf (chebShelf_transfer hr hG) h
      (Design.proto_chebShelf _ hr hG h.pos h.le h.small rfl lay0_c1Shelf.1 lay0_c1Shelf.2)
      (chebyshevShelf_shape ho hr hG).ne rfl rfl h0 h1 he (shelf_noReal hr hG fun e => ?_)
    have h2 := hodd e
    simp only [List.mem_cons, List.not_mem_nil, or_false, not_or] at h2
    exact ⟨noReal_bp (fun _ => h2.1) e, noReal_bp (fun _ => h2.2) e⟩
  · obtain ⟨⟨h0, h1, he, hodd⟩, hr, hG⟩ := hv
    refine transfer_bandShelf (chebShelf_transfer hr hG) h
      (Design.proto_chebShelf _ hr hG h.pos h.le h.small rfl lay0_c1Shelf.1 lay0_c1Shelf.2)
      (chebyshevShelf_shape ho hr hG).ne rfl rfl h0 h1 he (shelf_noReal hr hG fun e => ?_)
    have h2 := hodd e
    simp only [List.mem_cons, List.not_mem_nil, or_false, not_or] at h2
    exact ⟨noReal_bp (fun _ => h2.1) e, noReal_bp (fun _ => h2.2) e⟩
  · exact hv.elim

theorem Spec.AfterSetup.and {P Q : PoleFilter S XR → Prop} (h : AfterSetup S T n call P)
    (h' : AfterSetup S T n call Q) : AfterSetup S T n call fun f => P f ∧ Q f := by
  intro f hf
  obtain ⟨g, e, es, hp⟩ := h f hf
  obtain ⟨g', e', -, hq⟩ := h' f hf
  obtain rfl : g = g' := congrArg Prod.snd (e.symm.trans e')
  exact ⟨g, e, es, hp, hq⟩

/-- one factor of a Butterworth low pass at the cutoff frequency -/
theorem bwPole_factor {k : ℕ} (hk : k < o) :
    -bwPole o k / (Complex.I - bwPole o k) =
      Complex.exp (((Real.pi * (2 * k + 1) / (4 * o) - Real.pi / 2 : ℝ) : ℂ) * Complex.I) /
        ((2 * Real.sin (Real.pi * (2 * k + 1) / (4 * o)) : ℝ) : ℂ) := by
  have ho : (o : ℂ) ≠ 0 := by exact_mod_cast (by omega : o ≠ 0)
  set x : ℝ := Real.pi * (2 * k + 1) / (4 * o) with hx
  set u : ℂ := Complex.exp (x * Complex.I) with hu
  have hu0 : u ≠ 0 := Complex.exp_ne_zero _
  have hp : bwPole o k = Complex.I * u ^ 2 := by
    have e2 : Complex.exp (Real.pi / 2 * Complex.I) = Complex.I := Complex.exp_pi_div_two_mul_I
    refine Eq.trans ?_ (congrArg (· * u ^ 2) e2)
    simp only [hu]
    rw [← Complex.exp_nat_mul, ← Complex.exp_add, bwPole, hx]
    congr 1
    push_cast
    field_simp
    ring
  have he : Complex.exp (((x - Real.pi / 2 : ℝ) : ℂ) * Complex.I) = u * -Complex.I := by
    rw [Complex.ofReal_sub, sub_mul, Complex.exp_sub, ← hu]
    have e2 : Complex.exp (((Real.pi / 2 : ℝ) : ℂ) * Complex.I) = Complex.I := by
      push_cast; exact Complex.exp_pi_div_two_mul_I
    rw [e2, div_eq_mul_inv, Complex.inv_I]
  have hs : ((2 * Real.sin x : ℝ) : ℂ) = Complex.I * (u⁻¹ - u) := by
    rw [hu, ← Complex.exp_neg, ← neg_mul, Complex.exp_mul_I, Complex.exp_mul_I, Complex.cos_neg, Complex.sin_neg]
    push_cast
    linear_combination (2 * Complex.sin x) * Complex.I_sq
  rw [hp, he, hs]
  have hI := Complex.I_ne_zero
  rw [show Complex.I - Complex.I * u ^ 2 = u * (Complex.I * (u⁻¹ - u)) by field_simp,
    show -(Complex.I * u ^ 2) = u * (u * -Complex.I) by ring, mul_div_mul_left _ _ hu0]

/-- **C66**, Butterworth low pass: at the cutoff frequency the phase is exactly `-45° · o`. -/
theorem C66_bw_phase {fc : ℝ} (h : Asks call n o (.bwLowPass (fin fc))) (h0 : 0 < fc) (h1 : fc < 1 / 2) :
    AfterSetup S T n call fun f =>
      Response f fc (Complex.exp (((-(o * (Real.pi / 4)) : ℝ) : ℂ) * Complex.I) / (√2 : ℝ)) := by
  have ho := h.pos
  have ho' : (0 : ℝ) < o := by exact_mod_cast ho
  refine ((C66_response h ⟨h0, h1⟩).and (C30_lowpass h h0 h1)).mono fun f hf => ?_
  have hv := hf.1.value fc h0.le h1
  have hg := hf.2.2.2.1
  rw [lowRatio_self h0 h1, Complex.ofReal_one, mul_one, bwLow,
    Finset.prod_congr rfl fun k hk => bwPole_factor (Finset.mem_range.1 hk), Finset.prod_div_distrib,
    ← Complex.exp_sum, ← Finset.sum_mul, ← Complex.ofReal_sum, ← Complex.ofReal_prod] at hv
  have hsum : ∑ k ∈ Finset.range o, (Real.pi * (2 * k + 1) / (4 * o) - Real.pi / 2) = -(o * (Real.pi / 4)) := by
    have e : ∀ m : ℕ, ∑ k ∈ Finset.range m, (Real.pi * (2 * k + 1) / (4 * o) - Real.pi / 2) =
        Real.pi * m ^ 2 / (4 * o) - m * (Real.pi / 2) := by
      intro m
      induction m with
      | zero => simp
      | succ m ih => rw [Finset.sum_range_succ, ih]; push_cast; ring
    rw [e]; field_simp; ring
  rw [hsum] at hv
  have hpos : 0 < ∏ k ∈ Finset.range o, (2 * Real.sin (Real.pi * (2 * k + 1) / (4 * o))) := by
    refine Finset.prod_pos fun k hk => ?_
    have hk' : (k : ℝ) + 1 ≤ o := by exact_mod_cast Finset.mem_range.1 hk
    have hpi := Real.pi_pos
    refine mul_pos two_pos (Real.sin_pos_of_pos_of_lt_pi (by positivity) ?_)
    rw [div_lt_iff₀ (by positivity)]
    nlinarith
  generalize (∏ k ∈ Finset.range o, (2 * Real.sin (Real.pi * (2 * k + 1) / (4 * o)))) = r at hv hpos
  have h2 : GainSq f fc (‖Complex.exp (((-(o * (Real.pi / 4)) : ℝ) : ℂ) * Complex.I) / (r : ℂ)‖ ^ 2) := ⟨_, hv, rfl⟩
  have h3 := h2.unique hg
  rw [norm_div, Complex.norm_exp_ofReal_mul_I, Complex.norm_real, Real.norm_of_nonneg hpos.le, div_pow, one_pow,
    one_div, one_div, inv_inj] at h3
  have h4 : √2 = r := by rw [← h3, Real.sqrt_sq hpos.le]
  rw [h4]; exact hv

/-- a case: order 2 gives `-i/√2`, a quarter of a period late -/
example : AfterSetup S T 2 (.setup (fin 48000) (.bwLowPass (fin 1000))) fun f =>
    Response f (1000 / 48000) (-Complex.I / (√2 : ℝ)) := by
  refine (C66_bw_phase (o := 2) (fc := 1000 / 48000) ⟨rfl, congrArg _ (fin_div _ (by norm_num)), by norm_num,
    by norm_num, by norm_num⟩ (by norm_num) (by norm_num)).mono fun f hf => ?_
  have e : Complex.exp (((-((2 : ℕ) * (Real.pi / 4)) : ℝ) : ℂ) * Complex.I) = -Complex.I := by
    rw [show (-((2 : ℕ) * (Real.pi / 4)) : ℝ) = -(Real.pi / 2) by push_cast; ring, Complex.ofReal_neg, neg_mul,
      Complex.exp_neg, Complex.ofReal_div, Complex.ofReal_ofNat, Complex.exp_pi_div_two_mul_I, Complex.inv_I]
  rw [e] at hf
  exact hf

/-- a case of `C66_response`: `ChebyshevI::BandStop<6>` of order 4 with 1 dB ripple loses 1 dB at frequency 0, without
change of sign -/
example : AfterSetup S T 6 (.setupNReq 4 (.c1BandStop (fin (1 / 4)) (fin (1 / 8)) (fin 1))) fun f =>
    Response f 0 (ofDb (-1)) := by
  refine (C66_response (o := 4) (d := .c1BandStop (fin (1 / 4)) (fin (1 / 8)) (fin 1))
    ⟨rfl, rfl, by norm_num, by norm_num, by norm_num⟩
    ⟨⟨by norm_num, by norm_num, by rw [band_ex.1, band_ex.2]; norm_num, fun h => by norm_num at h⟩,
      by norm_num⟩).mono fun f hf => ?_
  have := hf.dc
  rw [c1Low, Finset.prod_eq_one fun k hk => ?_] at this
  · simpa using this
  · rw [zero_sub]
    refine div_self (neg_ne_zero.2 ?_)
    rw [ellipse_eq]
    refine re_neg_ne (chebPole_re_neg (Finset.mem_range.1 hk) ?_)
    rw [show c1V 4 1 = chebV 4 (chebEps 1) from rfl]
    exact chebV_pos (by norm_num) (chebEps_pos one_pos)

/-! ## RBJ filters -/

/-- numerator or denominator on the circle, as a form in `i sin πf` and `cos πf` -/
theorem quad_circle (b0 b1 b2 f : ℝ) :
    (b0 : ℂ) + b1 * (circle f)⁻¹ + b2 * (circle f)⁻¹ ^ 2 =
      (circle f)⁻¹ * (((b0 + b1 + b2 : ℝ) : ℂ) * (Real.cos (Real.pi * f) : ℂ) ^ 2 +
        ((2 * (b0 - b2) : ℝ) : ℂ) * (Complex.I * Real.sin (Real.pi * f)) * Real.cos (Real.pi * f) +
        ((b0 + b2 - b1 : ℝ) : ℂ) * (Complex.I * Real.sin (Real.pi * f)) ^ 2) := by
  set E : ℂ := Complex.exp ((Real.pi * f : ℝ) * Complex.I) with hE
  have hE0 : E ≠ 0 := Complex.exp_ne_zero _
  have hz : circle f = E ^ 2 := by
    rw [circle, hE, ← Complex.exp_nat_mul]; congr 1; push_cast; ring
  have h1 : E = Real.cos (Real.pi * f) + Real.sin (Real.pi * f) * Complex.I := by
    rw [hE, Complex.exp_mul_I, Complex.ofReal_cos, Complex.ofReal_sin]
  have h2 : E⁻¹ = Real.cos (Real.pi * f) - Real.sin (Real.pi * f) * Complex.I := by
    rw [hE, ← Complex.exp_neg, ← neg_mul, Complex.exp_mul_I, Complex.cos_neg, Complex.sin_neg,
      Complex.ofReal_cos, Complex.ofReal_sin]
    ring
  have hc : (Real.cos (Real.pi * f) : ℂ) = (E + E⁻¹) / 2 := by rw [h2, h1]; ring
  have hs : Complex.I * (Real.sin (Real.pi * f) : ℂ) = (E - E⁻¹) / 2 := by rw [h2, h1]; ring
  rw [hc, hs, hz]
  push_cast
  field_simp
  ring

section proto
variable {f0 n2 n1 n0 d2 d1 d0 K : ℝ} {b : Biquad XR} {k : Coeffs}

theorem quadResponse_of (hb : HasCoeffs b k) (h0 : 0 < f0) (h1 : f0 < 1 / 2) (hK : K ≠ 0)
    (p2 : 0 < d2) (p1 : 0 < d1) (p0 : 0 < d0)
    (eb0 : k.b0 + k.b1 + k.b2 = K * n0 * Real.sin (Real.pi * f0) ^ 2)
    (eb1 : 2 * (k.b0 - k.b2) = K * n1 * (Real.sin (Real.pi * f0) * Real.cos (Real.pi * f0)))
    (eb2 : k.b0 + k.b2 - k.b1 = K * n2 * Real.cos (Real.pi * f0) ^ 2)
    (ea0 : k.a0 + k.a1 + k.a2 = K * d0 * Real.sin (Real.pi * f0) ^ 2)
    (ea1 : 2 * (k.a0 - k.a2) = K * d1 * (Real.sin (Real.pi * f0) * Real.cos (Real.pi * f0)))
    (ea2 : k.a0 + k.a2 - k.a1 = K * d2 * Real.cos (Real.pi * f0) ^ 2) :
    QuadResponse f0 n2 n1 n0 d2 d1 d0 b := by
  have hC := cos_pi_pos h0.le h1
  have hS : 0 < Real.sin (Real.pi * f0) := by
    have := tan_pi_pos h0 h1
    rw [Real.tan_eq_sin_div_cos] at this
    exact (div_pos_iff_of_pos_right hC).1 this
  -- forms in `X = i sin πf cos πf0`, `Y = cos πf sin πf0`
  have form : ∀ (e2 e1 e0 b0 b1 b2 f : ℝ), b0 + b1 + b2 = K * e0 * Real.sin (Real.pi * f0) ^ 2 →
      2 * (b0 - b2) = K * e1 * (Real.sin (Real.pi * f0) * Real.cos (Real.pi * f0)) →
      b0 + b2 - b1 = K * e2 * Real.cos (Real.pi * f0) ^ 2 →
      (b0 : ℂ) + b1 * (circle f)⁻¹ + b2 * (circle f)⁻¹ ^ 2 = (circle f)⁻¹ * K *
        (e2 * (Complex.I * (Real.sin (Real.pi * f) * Real.cos (Real.pi * f0))) ^ 2 +
          e1 * (Complex.I * (Real.sin (Real.pi * f) * Real.cos (Real.pi * f0))) *
            (Real.cos (Real.pi * f) * Real.sin (Real.pi * f0)) +
          e0 * (Real.cos (Real.pi * f) * Real.sin (Real.pi * f0)) ^ 2) := by
    intro e2 e1 e0 b0 b1 b2 f x0 x1 x2
    rw [quad_circle, x0, x1, x2]
    generalize (circle f)⁻¹ = q
    generalize Real.sin (Real.pi * f) = s
    generalize Real.cos (Real.pi * f) = c
    generalize Real.sin (Real.pi * f0) = s0
    generalize Real.cos (Real.pi * f0) = c0
    push_cast
    ring
  have hq : ∀ f, (circle f)⁻¹ * (K : ℂ) ≠ 0 := fun f =>
    mul_ne_zero (inv_ne_zero (Complex.exp_ne_zero _)) (by exact_mod_cast hK)
  have key : ∀ f, ((d2 : ℂ) * (Complex.I * (Real.sin (Real.pi * f) * Real.cos (Real.pi * f0))) ^ 2 +
          d1 * (Complex.I * (Real.sin (Real.pi * f) * Real.cos (Real.pi * f0))) *
            (Real.cos (Real.pi * f) * Real.sin (Real.pi * f0)) +
          d0 * (Real.cos (Real.pi * f) * Real.sin (Real.pi * f0)) ^ 2 ≠ 0) ∧ SectionResponse b f
      ((n2 * (Complex.I * (Real.sin (Real.pi * f) * Real.cos (Real.pi * f0))) ^ 2 +
          n1 * (Complex.I * (Real.sin (Real.pi * f) * Real.cos (Real.pi * f0))) *
            (Real.cos (Real.pi * f) * Real.sin (Real.pi * f0)) +
          n0 * (Real.cos (Real.pi * f) * Real.sin (Real.pi * f0)) ^ 2) /
        (d2 * (Complex.I * (Real.sin (Real.pi * f) * Real.cos (Real.pi * f0))) ^ 2 +
          d1 * (Complex.I * (Real.sin (Real.pi * f) * Real.cos (Real.pi * f0))) *
            (Real.cos (Real.pi * f) * Real.sin (Real.pi * f0)) +
          d0 * (Real.cos (Real.pi * f) * Real.sin (Real.pi * f0)) ^ 2)) := by
    intro f
    have hden : ((d2 : ℂ) * (Complex.I * (Real.sin (Real.pi * f) * Real.cos (Real.pi * f0))) ^ 2 +
          d1 * (Complex.I * (Real.sin (Real.pi * f) * Real.cos (Real.pi * f0))) *
            (Real.cos (Real.pi * f) * Real.sin (Real.pi * f0)) +
          d0 * (Real.cos (Real.pi * f) * Real.sin (Real.pi * f0)) ^ 2 ≠ 0) := by
      intro h
      have hsc := Real.sin_sq_add_cos_sq (Real.pi * f)
      generalize Real.sin (Real.pi * f) = s at *
      generalize Real.cos (Real.pi * f) = c at *
      generalize Real.sin (Real.pi * f0) = s0 at *
      generalize Real.cos (Real.pi * f0) = c0 at *
      have e : (((d0 * (c * s0) ^ 2 - d2 * (s * c0) ^ 2 : ℝ) : ℂ) + ((d1 * (s * c0) * (c * s0) : ℝ) : ℂ) * Complex.I) = 0 := by
        rw [← h]; push_cast; linear_combination (-(d2 : ℂ) * (s * c0) ^ 2) * Complex.I_sq
      have hre := congrArg Complex.re e
      have him := congrArg Complex.im e
      simp only [Complex.add_re, Complex.add_im, Complex.ofReal_re, Complex.ofReal_im, Complex.re_ofReal_mul,
        Complex.im_ofReal_mul, Complex.I_re, Complex.I_im, mul_zero, mul_one, add_zero, zero_add, Complex.zero_re,
        Complex.zero_im] at hre him
      have h3 : s * c = 0 := by
        have : d1 * c0 * s0 * (s * c) = 0 := by linarith
        exact (mul_eq_zero.1 this).resolve_left (by positivity)
      rcases mul_eq_zero.1 h3 with h3 | h3
      · rw [h3] at hre hsc
        have : d0 * s0 ^ 2 * c ^ 2 = 0 := by linarith
        have := (mul_eq_zero.1 this).resolve_left (by positivity)
        rw [this] at hsc; norm_num at hsc
      · rw [h3] at hre hsc
        have : d2 * c0 ^ 2 * s ^ 2 = 0 := by linarith
        have := (mul_eq_zero.1 this).resolve_left (by positivity)
        rw [this] at hsc; norm_num at hsc
    refine ⟨hden, ?_⟩
    have hd := form d2 d1 d0 k.a0 k.a1 k.a2 f ea0 ea1 ea2
    have hn := form n2 n1 n0 k.b0 k.b1 k.b2 f eb0 eb1 eb2
    have hr := C25_response hb f (by rw [hd]; exact mul_ne_zero (hq f) hden)
    rw [Coeffs.transfer, hd, hn, mul_div_mul_left _ _ (hq f)] at hr
    exact hr
  refine ⟨fun f a c => ?_, ?_⟩
  · obtain ⟨-, h⟩ := key f
    have hc := cos_pi_pos a c
    have hY : ((Real.cos (Real.pi * f) : ℂ) * Real.sin (Real.pi * f0)) ^ 2 ≠ 0 := by
      refine pow_ne_zero _ ?_
      exact_mod_cast (mul_pos hc hS).ne'
    have hx : Complex.I * ((Real.sin (Real.pi * f) : ℂ) * Real.cos (Real.pi * f0)) =
        Complex.I * lowRatio f0 f * (Real.cos (Real.pi * f) * Real.sin (Real.pi * f0)) := by
      rw [lowRatio, Real.tan_eq_sin_div_cos, Real.tan_eq_sin_div_cos]
      have x1 : (Real.cos (Real.pi * f) : ℂ) ≠ 0 := by exact_mod_cast hc.ne'
      have x2 : (Real.sin (Real.pi * f0) : ℂ) ≠ 0 := by exact_mod_cast hS.ne'
      have x3 : (Real.cos (Real.pi * f0) : ℂ) ≠ 0 := by exact_mod_cast hC.ne'
      simp only [Complex.ofReal_div]
      field_simp
    rw [hx] at h
    rw [← mul_div_mul_right _ _ hY]
    convert h using 2 <;> ring
  · obtain ⟨-, h⟩ := key (1 / 2)
    have x3 : (Complex.I * (Real.cos (Real.pi * f0) : ℂ)) ^ 2 ≠ 0 :=
      pow_ne_zero _ (mul_ne_zero Complex.I_ne_zero (by exact_mod_cast hC.ne'))
    rw [show Real.pi * (1 / 2) = Real.pi / 2 by ring, Real.sin_pi_div_two, Real.cos_pi_div_two] at h
    simp only [Complex.ofReal_zero, Complex.ofReal_one, one_mul, MulZeroClass.zero_mul, mul_zero, ne_eq,
      OfNat.ofNat_ne_zero, not_false_eq_true, zero_pow, add_zero] at h
    rw [mul_div_mul_right _ _ x3] at h
    exact h

end proto

theorem pow40_eq (g : ℝ) : (10 : ℝ) ^ (g / 40) = ofDb (g / 2) := by rw [ofDb]; congr 1; ring


theorem cos_dbl (f0 : ℝ) : Real.cos (2 * Real.pi * f0) = Real.cos (Real.pi * f0) ^ 2 - Real.sin (Real.pi * f0) ^ 2 := by
  rw [mul_assoc, Real.cos_two_mul']

theorem sin_dbl (f0 : ℝ) : Real.sin (2 * Real.pi * f0) = 2 * Real.sin (Real.pi * f0) * Real.cos (Real.pi * f0) := by
  rw [mul_assoc, Real.sin_two_mul]

/-- **C66**, RBJ filters: `response` is the transfer function of the cookbook, phase included. -/
theorem C66_rbj (d : RBJ.Design ℝ) (h : ValidRBJ d) : AfterRBJ (finRBJ d) (HasPrototype d) := by
  cases d with
  | lowPass f0 q =>
    obtain ⟨h0, h1, hq⟩ := h
    obtain ⟨hs, hc1, hc2⟩ := trig_facts h0 h1
    have hal : 0 < Real.sin (2 * Real.pi * f0) / (2 * q) := by positivity
    have h4 := Real.sin_sq_add_cos_sq (Real.pi * f0)
    refine afterRBJ_of ⟨_, _, _, _, _, _⟩ (by simp only; linarith) (lowPass_setup hq) fun b hb =>
      quadResponse_of (K := 4) hb h0 h1 (by norm_num) one_pos (by positivity) one_pos ?_ ?_ ?_ ?_ ?_ ?_ <;>
    simp only [cos_dbl, sin_dbl]
    · linear_combination -2 * h4
    · ring
    · ring
    · linear_combination -2 * h4
    · field_simp; ring
    · linear_combination -2 * h4
  | highPass f0 q =>
    obtain ⟨h0, h1, hq⟩ := h
    obtain ⟨hs, hc1, hc2⟩ := trig_facts h0 h1
    have hal : 0 < Real.sin (2 * Real.pi * f0) / (2 * q) := by positivity
    have h4 := Real.sin_sq_add_cos_sq (Real.pi * f0)
    refine afterRBJ_of ⟨_, _, _, _, _, _⟩ (by simp only; linarith) (highPass_setup hq) fun b hb =>
      quadResponse_of (K := 4) hb h0 h1 (by norm_num) one_pos (by positivity) one_pos ?_ ?_ ?_ ?_ ?_ ?_ <;>
    simp only [cos_dbl, sin_dbl]
    · ring
    · ring
    · linear_combination -2 * h4
    · linear_combination -2 * h4
    · field_simp; ring
    · linear_combination -2 * h4
  | bandPass1 f0 q =>
    obtain ⟨h0, h1, hq⟩ := h
    obtain ⟨hs, hc1, hc2⟩ := trig_facts h0 h1
    have hal : 0 < Real.sin (2 * Real.pi * f0) / (2 * q) := by positivity
    have h4 := Real.sin_sq_add_cos_sq (Real.pi * f0)
    refine afterRBJ_of ⟨_, _, _, _, _, _⟩ (by simp only; linarith) (bandPass1_setup hq) fun b hb =>
      quadResponse_of (K := 4) hb h0 h1 (by norm_num) one_pos (by positivity) one_pos ?_ ?_ ?_ ?_ ?_ ?_ <;>
    simp only [cos_dbl, sin_dbl]
    · ring
    · field_simp; ring
    · ring
    · linear_combination -2 * h4
    · field_simp; ring
    · linear_combination -2 * h4
  | bandPass2 f0 q =>
    obtain ⟨h0, h1, hq⟩ := h
    obtain ⟨hs, hc1, hc2⟩ := trig_facts h0 h1
    have hal : 0 < Real.sin (2 * Real.pi * f0) / (2 * q) := by positivity
    have h4 := Real.sin_sq_add_cos_sq (Real.pi * f0)
    refine afterRBJ_of ⟨_, _, _, _, _, _⟩ (by simp only; linarith) (bandPass2_setup hq) fun b hb =>
      quadResponse_of (K := 4) hb h0 h1 (by norm_num) one_pos (by positivity) one_pos ?_ ?_ ?_ ?_ ?_ ?_ <;>
    simp only [cos_dbl, sin_dbl]
    · ring
    · field_simp; ring
    · ring
    · linear_combination -2 * h4
    · field_simp; ring
    · linear_combination -2 * h4
  | bandStop f0 q =>
    obtain ⟨h0, h1, hq⟩ := h
    obtain ⟨hs, hc1, hc2⟩ := trig_facts h0 h1
    have hal : 0 < Real.sin (2 * Real.pi * f0) / (2 * q) := by positivity
    have h4 := Real.sin_sq_add_cos_sq (Real.pi * f0)
    refine afterRBJ_of ⟨_, _, _, _, _, _⟩ (by simp only; linarith) (bandStop_setup hq) fun b hb =>
      quadResponse_of (K := 4) hb h0 h1 (by norm_num) one_pos (by positivity) one_pos ?_ ?_ ?_ ?_ ?_ ?_ <;>
    simp only [cos_dbl, sin_dbl]
    · linear_combination -2 * h4
    · ring
    · linear_combination -2 * h4
    · linear_combination -2 * h4
    · field_simp; ring
    · linear_combination -2 * h4
  | allPass f0 q =>
    obtain ⟨h0, h1, hq⟩ := h
    obtain ⟨hs, hc1, hc2⟩ := trig_facts h0 h1
    have hal : 0 < Real.sin (2 * Real.pi * f0) / (2 * q) := by positivity
    have h4 := Real.sin_sq_add_cos_sq (Real.pi * f0)
    refine afterRBJ_of ⟨_, _, _, _, _, _⟩ (by simp only; linarith) (allPass_setup hq) fun b hb =>
      quadResponse_of (K := 4) hb h0 h1 (by norm_num) one_pos (by positivity) one_pos ?_ ?_ ?_ ?_ ?_ ?_ <;>
    simp only [cos_dbl, sin_dbl]
    · linear_combination -2 * h4
    · field_simp; ring
    · linear_combination -2 * h4
    · linear_combination -2 * h4
    · field_simp; ring
    · linear_combination -2 * h4
  | bandShelf f0 g w =>
    obtain ⟨h0, h1, hw⟩ := h
    obtain ⟨hs, hc1, hc2⟩ := trig_facts h0 h1
    have hal := bandShelf_al h0 h1 hw
    have hA : 0 < (10 : ℝ) ^ (g / 40) := by positivity
    have h4 := Real.sin_sq_add_cos_sq (Real.pi * f0)
    have hi : 0 < invQ f0 w := by
      have := (pos_iff_pos_of_mul_pos hal).1 hs
      unfold invQ; linarith
    have hA' : 0 < ofDb (g / 2) := ofDb_pos _
    refine afterRBJ_of ⟨_, _, _, _, _, _⟩ (by simp only; positivity) (bandShelf_setup hs w) fun b hb =>
      quadResponse_of (K := 4) hb h0 h1 (by norm_num) one_pos (by positivity) one_pos ?_ ?_ ?_ ?_ ?_ ?_ <;>
    simp only [pow40_eq, invQ] <;>
    generalize Real.sinh _ = sh <;>
    simp only [cos_dbl, sin_dbl]
    · linear_combination -2 * h4
    · ring
    · linear_combination -2 * h4
    · linear_combination -2 * h4
    · field_simp; ring
    · linear_combination -2 * h4
  | lowShelf f0 g S =>
    obtain ⟨h0, h1, hS0, hS1⟩ := h
    obtain ⟨hs, hc1, hc2⟩ := trig_facts h0 h1
    have hA : 0 < (10 : ℝ) ^ (g / 40) := by positivity
    have hr := Real.sqrt_pos.2 (shelf_rad hA hS0 hS1)
    have h4 := Real.sin_sq_add_cos_sq (Real.pi * f0)
    have h3 : 0 < 2 * √((10 : ℝ) ^ (g / 40)) * (Real.sin (2 * Real.pi * f0) / 2 *
      √(((10 : ℝ) ^ (g / 40) + 1 / (10 : ℝ) ^ (g / 40)) * (1 / S - 1) + 2)) := by positivity
    have h5 : 0 < (10 : ℝ) ^ (g / 40) + 1 + ((10 : ℝ) ^ (g / 40) - 1) * Real.cos (2 * Real.pi * f0) := by nlinarith
    have hA' : 0 < ofDb (g / 2) := ofDb_pos _
    rw [pow40_eq] at hr
    refine afterRBJ_of ⟨_, _, _, _, _, _⟩ (by simp only; linarith) (lowShelf_setup hS0 hS1) fun b hb =>
      quadResponse_of (K := 8) hb h0 h1 (by norm_num) hA' (by positivity) one_pos ?_ ?_ ?_ ?_ ?_ ?_ <;>
    simp only [pow40_eq] <;>
    generalize √((ofDb (g / 2) + 1 / ofDb (g / 2)) * (1 / S - 1) + 2) = sr <;>
    generalize √(ofDb (g / 2)) = sA <;>
    generalize ofDb (g / 2) = A <;>
    simp only [cos_dbl, sin_dbl]
    · linear_combination (-4 * A ^ 2) * h4
    · ring
    · linear_combination (-4 * A) * h4
    · linear_combination -4 * h4
    · ring
    · linear_combination (-4 * A) * h4
  | highShelf f0 g S =>
    obtain ⟨h0, h1, hS0, hS1⟩ := h
    obtain ⟨hs, hc1, hc2⟩ := trig_facts h0 h1
    have hA : 0 < (10 : ℝ) ^ (g / 40) := by positivity
    have hr := Real.sqrt_pos.2 (shelf_rad hA hS0 hS1)
    have h4 := Real.sin_sq_add_cos_sq (Real.pi * f0)
    have h3 : 0 < 2 * √((10 : ℝ) ^ (g / 40)) * (Real.sin (2 * Real.pi * f0) / 2 *
      √(((10 : ℝ) ^ (g / 40) + 1 / (10 : ℝ) ^ (g / 40)) * (1 / S - 1) + 2)) := by positivity
    have h5 : 0 < (10 : ℝ) ^ (g / 40) + 1 - ((10 : ℝ) ^ (g / 40) - 1) * Real.cos (2 * Real.pi * f0) := by nlinarith
    have hA' : 0 < ofDb (g / 2) := ofDb_pos _
    rw [pow40_eq] at hr
    refine afterRBJ_of ⟨_, _, _, _, _, _⟩ (by simp only; linarith) (highShelf_setup hS0 hS1) fun b hb =>
      quadResponse_of (K := 8) hb h0 h1 (by norm_num) one_pos (by positivity) hA' ?_ ?_ ?_ ?_ ?_ ?_ <;>
    simp only [pow40_eq] <;>
    generalize √((ofDb (g / 2) + 1 / ofDb (g / 2)) * (1 / S - 1) + 2) = sr <;>
    generalize √(ofDb (g / 2)) = sA <;>
    generalize ofDb (g / 2) = A <;>
    simp only [cos_dbl, sin_dbl]
    · linear_combination (-4 * A) * h4
    · ring
    · linear_combination (-4 * A ^ 2) * h4
    · linear_combination (-4 * A) * h4
    · ring
    · linear_combination -4 * h4
  | iirNotch f0 q =>
    obtain ⟨h0, h1, hq⟩ := h
    obtain ⟨hr0, hr1⟩ := notch_r h0 hq
    have er : Real.exp (-(2 * Real.pi * f0 / 2) / q) = Real.exp (-(Real.pi * f0 / q)) := by congr 1; ring
    refine afterRBJ_of ⟨_, _, _, _, _, _⟩ (by simp) (iirNotch_setup hq) fun b hb fr _ _ => ?_
    have hz : ‖Complex.exp (2 * Real.pi * fr * Complex.I)‖ = 1 := norm_circle fr
    have hw : ‖Complex.exp (2 * Real.pi * f0 * Complex.I)‖ = 1 := norm_circle f0
    have hcos : ((2 * Real.cos (2 * Real.pi * f0) : ℝ) : ℂ) =
        Complex.exp (2 * Real.pi * f0 * Complex.I) + (Complex.exp (2 * Real.pi * f0 * Complex.I))⁻¹ := by
      rw [← Complex.exp_neg, ← neg_mul, Complex.exp_mul_I, Complex.exp_mul_I, Complex.cos_neg, Complex.sin_neg]
      push_cast; ring
    rw [er] at hb hr0 hr1
    have hz0 := Complex.exp_ne_zero (2 * Real.pi * fr * Complex.I)
    have hw0 := Complex.exp_ne_zero (2 * Real.pi * f0 * Complex.I)
    have hn : ∀ a : ℝ, (1 : ℂ) + ((-2 * a * Real.cos (2 * Real.pi * f0) : ℝ) : ℂ) * (circle fr)⁻¹ +
        ((a * a : ℝ) : ℂ) * (circle fr)⁻¹ ^ 2 = (Complex.exp (2 * Real.pi * fr * Complex.I))⁻¹ ^ 2 *
        ((Complex.exp (2 * Real.pi * fr * Complex.I) - a * Complex.exp (2 * Real.pi * f0 * Complex.I)) *
        (Complex.exp (2 * Real.pi * fr * Complex.I) - a * (Complex.exp (2 * Real.pi * f0 * Complex.I))⁻¹)) := by
      intro a
      rw [show (-2 * a * Real.cos (2 * Real.pi * f0) : ℝ) = -a * (2 * Real.cos (2 * Real.pi * f0)) by ring,
        Complex.ofReal_mul, hcos, circle]
      generalize Complex.exp (2 * Real.pi * fr * Complex.I) = z at *
      generalize Complex.exp (2 * Real.pi * f0 * Complex.I) = w at *
      push_cast
      field_simp
      ring
    have hdne : ∀ v : ℂ, ‖v‖ = 1 → Complex.exp (2 * Real.pi * fr * Complex.I) -
        (Real.exp (-(Real.pi * f0 / q)) : ℝ) * v ≠ 0 := by
      intro v hv e
      have := congrArg norm (sub_eq_zero.1 e)
      rw [hz, norm_mul, hv, mul_one, Complex.norm_real, Real.norm_of_nonneg hr0.le] at this
      linarith
    have h2 : (Complex.exp (2 * Real.pi * fr * Complex.I))⁻¹ ^ 2 ≠ 0 := pow_ne_zero _ (inv_ne_zero hz0)
    have hd := hn (Real.exp (-(Real.pi * f0 / q)))
    have hb' := hn 1
    have hr := C25_response hb fr (by
      simp only [Complex.ofReal_one]
      rw [hd]
      exact mul_ne_zero h2 (mul_ne_zero (hdne _ hw) (hdne _ (by rw [norm_inv, hw, inv_one]))))
    simp only [Coeffs.transfer, Complex.ofReal_one] at hr
    rw [hd] at hr
    simp only [mul_one, one_mul, Complex.ofReal_one] at hb'
    rw [one_mul, hb', mul_div_mul_left _ _ h2] at hr
    exact hr

/-- a case: a low pass with quality `q` has response `-i q` at its cutoff frequency -/
example : AfterRBJ (.lowPass (fin (1 / 10)) (fin 3)) fun b => SectionResponse b (1 / 10) (-3 * Complex.I) := by
  intro f
  obtain ⟨f', e, es, hp⟩ := C66_rbj (.lowPass (1 / 10) 3) ⟨by norm_num, by norm_num, by norm_num⟩ f
  refine ⟨f', e, es, ?_⟩
  have := hp.1 (1 / 10) (by norm_num) (by norm_num)
  rw [lowRatio_self (by norm_num) (by norm_num)] at this
  convert this using 1
  simp only [Complex.ofReal_zero, Complex.ofReal_one, mul_one, Complex.I_sq]
  push_cast
  rw [eq_div_iff]
  · ring_nf; simp
  · simp

end Iir
