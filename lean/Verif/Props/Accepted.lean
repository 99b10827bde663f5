import Verif.Exact.Reversed
import Verif.Props.Stable

/-! # C52: setups that succeed and give unstable filters -/

set_option linter.unusedSectionVars false

namespace Iir
open Spec XR

variable {S : Type → Type} [StateType S XR] [DelayLine XR S] {T : Type} [Sample T XR] {n o : ℕ} {call : Call XR}

/-! ## Roots of the prototypes on the negative real axis -/

theorem Analog.Left.bandRoots_neg {A : Analog} (h : A.Left) {b : ℝ} (hp : ∀ k < A.n, A.pole k ≠ (b : ℂ))
    (hz : ∀ k < A.n, A.zero k ≠ some (b : ℂ)) : A.BandRoots b where
  pole k hk := by
    have := h.pole k hk
    exact ⟨fun e => by rw [Option.some.inj e] at this; norm_num at this, fun e => hp k hk (Option.some.inj e)⟩
  zero k hk := by
    refine ⟨fun e => ?_, hz k hk⟩
    have := h.zero k hk _ e
    norm_num at this

theorem bw_pole_im (k : ℕ) : ((butterworth o).pole k).im = Real.cos (angle o k) := by
  simp only [butterworth]
  rw [Complex.exp_ofReal_mul_I_im, add_comm, Real.sin_add_pi_div_two]

theorem bw_pole_real {k : ℕ} (hk : k < o) {b : ℝ} (e : (butterworth o).pole k = (b : ℂ)) : o % 2 = 1 ∧ b = -1 := by
  have hi : ((butterworth o).pole k).im = 0 := by rw [e, Complex.ofReal_im]
  rw [bw_pole_im] at hi
  have hmid : 2 * k + 1 = o := by
    by_contra h
    exact cos_angle_ne hk h hi
  have ho : o % 2 = 1 := by omega
  have : k = o / 2 := by omega
  rw [this, bw_pole_mid ho] at e
  exact ⟨ho, by exact_mod_cast e.symm⟩

theorem cheb_pole_real {k : ℕ} (hk : k < o) {u b : ℝ} (e : chebPole o u k = (b : ℂ)) :
    o % 2 = 1 ∧ b = -Real.sinh u := by
  have hi : (chebPole o u k).im = 0 := by rw [e, Complex.ofReal_im]
  simp only [chebPole] at hi
  have hmid : 2 * k + 1 = o := by
    by_contra h
    exact mul_ne_zero (Real.cosh_pos u).ne' (cos_angle_ne hk h) hi
  have ho : o % 2 = 1 := by omega
  have : k = o / 2 := by omega
  rw [this, chebPole_mid ho] at e
  exact ⟨ho, by exact_mod_cast e.symm⟩

theorem bw_bandRoots {b : ℝ} (h : o % 2 = 1 → b ≠ -1) : (butterworth o).BandRoots b :=
  (butterworth_left o).bandRoots_neg (fun _ hk e => h (bw_pole_real hk e).1 (bw_pole_real hk e).2)
    fun _ _ e => by cases e

theorem bw_apart : (butterworth o).Apart := fun _ _ _ _ e => by cases e

theorem bwShelf_bandRoots {g b : ℝ} (hg : 0 < g) (h : o % 2 = 1 → b ≠ -g ∧ b ≠ -(1 / g)) :
    (butterworthShelf o g).BandRoots b := by
  have key : ∀ k < o, ∀ x : ℝ, 0 < x → starRingEnd ℂ ((butterworth o).pole k) * (x : ℂ) = b → o % 2 = 1 ∧ b = -x := by
    intro k hk x hx e
    have hxC : (x : ℂ) ≠ 0 := by exact_mod_cast hx.ne'
    have e1 : (butterworth o).pole k = ((b / x : ℝ) : ℂ) := by
      have := congrArg (starRingEnd ℂ) (eq_div_of_mul_eq hxC e)
      rw [Complex.conj_conj] at this
      rw [this]; push_cast
      rw [map_div₀, Complex.conj_ofReal, Complex.conj_ofReal]
    obtain ⟨h1, h2⟩ := bw_pole_real hk e1
    exact ⟨h1, by field_simp at h2; linarith⟩
  refine (butterworthShelf_left o hg).bandRoots_neg (fun k hk e => ?_) fun k hk e => ?_
  · obtain ⟨h1, h2⟩ := key k hk (1 / g) (by positivity) e
    exact (h h1).2 h2
  · obtain ⟨h1, h2⟩ := key k hk g hg (Option.some.inj e)
    exact (h h1).1 h2

theorem bw_pole_norm (k : ℕ) : ‖(butterworth o).pole k‖ = 1 := Complex.norm_exp_ofReal_mul_I _

theorem bwShelf_apart {g : ℝ} (hg : 0 < g) (h1 : g ≠ 1) : (butterworthShelf o g).Apart := by
  intro k _ j _ e
  have e' : starRingEnd ℂ ((butterworth o).pole j) * (g : ℝ) = starRingEnd ℂ ((butterworth o).pole k) * (1 / g : ℝ) :=
    Option.some.inj e
  have := congrArg norm e'
  rw [norm_mul, norm_mul, Complex.norm_conj, Complex.norm_conj, bw_pole_norm, bw_pole_norm, Complex.norm_real,
    Complex.norm_real, Real.norm_of_nonneg hg.le, Real.norm_of_nonneg (by positivity), one_mul, one_mul] at this
  rw [eq_div_iff hg.ne'] at this
  exact h1 (by nlinarith)

theorem c1_bandRoots {v b : ℝ} (hv : 0 < v) (h : o % 2 = 1 → b ≠ -Real.sinh v) : (chebyshevI o v).BandRoots b := by
  refine (chebyshevI_left o hv).bandRoots_neg (fun k hk e => ?_) fun _ _ e => by cases e
  have e' : starRingEnd ℂ (chebPole o v k) = b := e
  have := congrArg (starRingEnd ℂ) e'
  rw [Complex.conj_conj, Complex.conj_ofReal] at this
  exact h (cheb_pole_real hk this).1 (cheb_pole_real hk this).2

theorem c1_apart {v : ℝ} : (chebyshevI o v).Apart := fun _ _ _ _ e => by cases e

theorem c2_zero_re {v : ℝ} {k : ℕ} {z : ℂ} (e : (chebyshevII o v).zero k = some z) : z.re = 0 := by
  have e' : (if 2 * k + 1 = o then none else some (Complex.I * (1 / Real.cos (angle o k) : ℝ))) = some z := e
  split_ifs at e' with h
  rw [← Option.some.inj e']
  simp only [Complex.mul_re, Complex.I_re, Complex.I_im, Complex.ofReal_im, zero_mul, mul_zero, sub_zero]

theorem c2_bandRoots {v b : ℝ} (hv : 0 < v) (hb : b < 0) (h : o % 2 = 1 → b ≠ -(1 / Real.sinh v)) :
    (chebyshevII o v).BandRoots b := by
  refine (chebyshevII_left o hv).bandRoots_neg (fun k hk e => ?_) fun k _ e => ?_
  · have e' : (chebPole o v k)⁻¹ = b := e
    have e2 : chebPole o v k = ((b⁻¹ : ℝ) : ℂ) := by rw [← inv_inv (chebPole o v k), e']; push_cast; rfl
    obtain ⟨h1, h2⟩ := cheb_pole_real hk e2
    apply h h1
    rw [← inv_inv b, h2, inv_neg, one_div]
  · have := c2_zero_re e
    rw [Complex.ofReal_re] at this
    exact hb.ne this

theorem c2_apart {v : ℝ} (hv : 0 < v) : (chebyshevII o v).Apart := by
  intro k hk j _ e
  have h1 := (chebyshevII_left o hv).pole k hk
  exact h1.ne (c2_zero_re e)

theorem chebShelf_bandRoots {u v b : ℝ} (hu : 0 < u) (hv : 0 < v)
    (h : o % 2 = 1 → b ≠ -Real.sinh u ∧ b ≠ -Real.sinh v) : (chebyshevShelf o u v).BandRoots b := by
  refine (chebyshevShelf_left o hu hv).bandRoots_neg (fun k hk e => ?_) fun k hk e => ?_
  · exact (h (cheb_pole_real hk e).1).1 (cheb_pole_real hk e).2
  · have e := Option.some.inj e
    exact (h (cheb_pole_real hk e).1).2 (cheb_pole_real hk e).2

/-- Points on ellipses with the same foci. -/
theorem chebPole_inj {u v : ℝ} (hu : 0 < u) (hv : 0 < v) {j k : ℕ} (hk : k < o)
    (e : chebPole o v j = chebPole o u k) : u = v := by
  have h1 := congrArg Complex.re e
  have h2 := congrArg Complex.im e
  simp only [chebPole, neg_inj] at h1 h2
  have hs := sin_angle_pos hk
  have s1 := Real.sin_sq_add_cos_sq (angle o k)
  have s2 := Real.sin_sq_add_cos_sq (angle o j)
  have c1 := Real.cosh_sq u
  have c2 := Real.cosh_sq v
  have hu' := Real.sinh_pos_iff.2 hu
  have hv' := Real.sinh_pos_iff.2 hv
  have hcu := Real.cosh_pos u
  have hcv := Real.cosh_pos v
  rw [← Real.sinh_injective.eq_iff]
  generalize Real.sinh u = a at *
  generalize Real.sinh v = b at *
  generalize Real.cosh u = c at *
  generalize Real.cosh v = d at *
  generalize Real.sin (angle o k) = s at *
  generalize Real.cos (angle o k) = t at *
  generalize Real.sin (angle o j) = s' at *
  generalize Real.cos (angle o j) = t' at *
  have e1 : b ^ 2 * s' ^ 2 = a ^ 2 * s ^ 2 := by rw [← mul_pow, ← mul_pow, h1]
  have e2 : d ^ 2 * t' ^ 2 = c ^ 2 * t ^ 2 := by rw [← mul_pow, ← mul_pow, h2]
  have e3 : (a ^ 2 - b ^ 2) * (b ^ 2 + s ^ 2 ) = 0 := by
    rw [c1, c2] at e2
    have t1 : t ^ 2 = 1 - s ^ 2 := by linarith
    have t2 : t' ^ 2 = 1 - s' ^ 2 := by linarith
    rw [t1, t2] at e2
    linear_combination b ^ 2 * e2 * (-1) - (b ^ 2 + 1) * e1
  have : a ^ 2 - b ^ 2 = 0 := (mul_eq_zero.1 e3).resolve_right (by positivity)
  exact (pow_left_inj₀ hu'.le hv'.le two_ne_zero).1 (by linarith)

theorem chebShelf_apart {u v : ℝ} (hu : 0 < u) (hv : 0 < v) (h : u ≠ v) : (chebyshevShelf o u v).Apart :=
  fun _ hk _ _ e => h (chebPole_inj hu hv hk (Option.some.inj e))

/-! ## Negative width -/

/-- Band of negative width; for odd orders `tan (π |width|)` is not one of `xs` (`C51_refused`). -/
def Spec.ReversedAt (o : ℕ) (fc fw : ℝ) (xs : List ℝ) : Prop :=
  ReversedBand fc fw ∧ (o % 2 = 1 → Real.tan (Real.pi * -fw) ∉ xs)

/-- Band filters with a negative width; all other parameters are as in `Spec.Valid`. -/
def Spec.Reversed (o : ℕ) : Design XR → Prop
  | .bwBandPass (fin fc) (fin fw) | .bwBandStop (fin fc) (fin fw) => ReversedAt o fc fw [1]
  | .bwBandShelf (fin fc) (fin fw) (fin g) =>
    ReversedAt o fc fw [ofDb (g / (2 * o)), ofDb (-(g / (2 * o)))] ∧ g ≠ 0
  | .c1BandPass (fin fc) (fin fw) (fin r) => ReversedAt o fc fw [1 / cheb1Pole o r] ∧ 0 < r
  | .c1BandStop (fin fc) (fin fw) (fin r) => ReversedAt o fc fw [cheb1Pole o r] ∧ 0 < r
  | .c2BandPass (fin fc) (fin fw) (fin r) => ReversedAt o fc fw [cheb2Pole o r] ∧ 0 < r
  | .c2BandStop (fin fc) (fin fw) (fin r) => ReversedAt o fc fw [1 / cheb2Pole o r] ∧ 0 < r
  | .c1BandShelf (fin fc) (fin fw) (fin g) (fin r) | .c2BandShelf (fin fc) (fin fw) (fin g) (fin r) =>
    ReversedAt o fc fw [1 / shelfPole o g r, 1 / shelfZero o g r] ∧ 0 < r ∧ r < |g|
  | _ => False

theorem Spec.ReversedBand.tan_eq {fc fw : ℝ} (h : ReversedBand fc fw) :
    Real.tan (Iir.edgeHalf fc fw) = -Real.tan (Real.pi * -fw) := by
  rw [h.edgeHalf, mul_neg, Real.tan_neg, neg_neg]

theorem Spec.ReversedBand.tan_of {fc fw x : ℝ} (h : ReversedBand fc fw) (e : Real.tan (Iir.edgeHalf fc fw) = -x) :
    Real.tan (Real.pi * -fw) = x := by
  rw [h.tan_eq] at e; linarith

theorem Spec.ReversedBand.tan_of_inv {fc fw x : ℝ} (h : ReversedBand fc fw)
    (e : 1 / Real.tan (Iir.edgeHalf fc fw) = -x) : Real.tan (Real.pi * -fw) = 1 / x := by
  apply h.tan_of
  rw [← one_div_one_div (Real.tan _), e, one_div_neg_eq_neg_one_div]

theorem cheb1Pole_eq (r : ℝ) : Real.sinh (chebV o (chebEps r)) = cheb1Pole o r := rfl

theorem cheb2Pole_eq (r : ℝ) : Real.sinh (chebV o (chebEpsII r)) = cheb2Pole o r := by
  rw [chebV, chebEpsII, one_div_one_div, chebEps, cheb2Pole]

theorem shelfPoles_eq {G r : ℝ} (hr : 0 < r) (hG : r < |G|) :
    Real.sinh (chebV o (shelfEps G r / shelfG G)) = shelfPole o G r ∧
    Real.sinh (chebV o (shelfEps G r)) = shelfZero o G r := by
  have hs : Real.sqrt (shelfEpsSq G r) = shelfEps G r := by
    rw [shelfEpsSq_eq hr hG, Real.sqrt_sq (shelfEps_pos hr hG).le]
  rw [shelfPole, shelfZero, hs, ← shelfG_eq, chebV, one_div_div]
  exact ⟨rfl, rfl⟩

theorem bwShelfRoot_eq (ho : 1 ≤ o) (g : ℝ) : bwShelfRoot o g = ofDb (g / (2 * o)) := by
  have h1 := bwShelfRoot_pow ho g
  have h2 := ofDb_pow o ho g
  exact (pow_left_inj₀ (bwShelfRoot_pos o g).le (ofDb_pos _).le (by omega)).1 (h1.trans h2.symm)

theorem ofDb_ne_one {x : ℝ} (h : x ≠ 0) : ofDb x ≠ 1 := by
  intro e
  have h1 := Real.log_rpow (x := 10) (by norm_num) (x / 20)
  rw [ofDb] at e
  rw [e, Real.log_one, eq_comm, mul_eq_zero] at h1
  have h2 : Real.log 10 ≠ 0 := (Real.log_pos (by norm_num)).ne'
  exact h (by linarith [h1.resolve_right h2])

theorem shelfG_ne_one {G : ℝ} (h : G ≠ 0) : shelfG G ≠ 1 := by
  rw [shelfG_eq]; exact ofDb_ne_one (neg_ne_zero.2 h)

theorem shelf_v_ne (ho : 1 ≤ o) {G r : ℝ} (hr : 0 < r) (hG : r < |G|) :
    chebV o (shelfEps G r / shelfG G) ≠ chebV o (shelfEps G r) := by
  have ho' : (o : ℝ) ≠ 0 := by positivity
  have he := shelfEps_pos hr hG
  intro e
  rw [chebV, chebV, div_left_inj' ho', Real.arsinh_inj, one_div_div, div_left_inj' he.ne'] at e
  refine shelfG_ne_one (fun h => ?_) e
  rw [h, abs_zero] at hG; linarith

theorem Spec.reversed_chebShelf {fc fw G r : ℝ} {d : Design XR} (h : Asks call n o d)
    (hp : IsProto d n o (chebyshevShelf o (chebV o (shelfEps G r / shelfG G)) (chebV o (shelfEps G r))) (normW true) 1)
    (hd : d.trans = bandShelfTransform (fin fc) (fin fw)) (hm : d.cls.mult = 2)
    (hv : ReversedAt o fc fw [1 / shelfPole o G r, 1 / shelfZero o G r]) (hr : 0 < r) (hG : r < |G|) :
    AfterSetup S T n call fun f => OutsideFilter f ∧ Diverges f := by
  have ho := h.pos
  obtain ⟨hb, hx⟩ := hv
  have he := shelfEps_pos hr hG
  have hu : 0 < chebV o (shelfEps G r / shelfG G) := chebV_pos ho (div_pos he (shelfG_pos G))
  have hv : 0 < chebV o (shelfEps G r) := chebV_pos ho he
  refine (Spec.reversed_bandShelf h hp hd hm hb (chebShelf_bandRoots hu hv fun hh => ?_)
    (chebyshevShelf_shape ho hr hG).ne).mono fun f hf => ⟨hf.1, hf.2 (chebShelf_apart hu hv (shelf_v_ne ho hr hG))⟩
  have := hx hh
  simp only [List.mem_cons, List.not_mem_nil, or_false, not_or] at this
  rw [(shelfPoles_eq hr hG).1, (shelfPoles_eq hr hG).2]
  exact ⟨fun e => this.1 (hb.tan_of_inv e), fun e => this.2 (hb.tan_of_inv e)⟩

/-- **C52**, negative widths: for all nine band filter classes a setup with a negative width succeeds, all poles of all
stages are outside the unit circle, and the impulse response is unbounded. -/
theorem C52_reversed {d : Design XR} (h : Asks call n o d) (hv : Spec.Reversed o d) :
    AfterSetup S T n call fun f => OutsideFilter f ∧ Diverges f := by
  have ho := h.pos
  unfold Spec.Reversed at hv
  split at hv
  · obtain ⟨hb, hx⟩ := hv
    refine (Spec.reversed_bandPass h (Design.proto_bw _ h.pos h.le h.small rfl lay0_bw.1 lay0_bw.2) rfl rfl hb
      (bw_bandRoots fun hh e => ?_) (butterworth_shape ho).ne).mono fun f hf => ⟨hf.1, hf.2 bw_apart⟩
    have := hx hh
    rw [hb.tan_of_inv e] at this
    simp at this
  · obtain ⟨hb, hx⟩ := hv
    refine (Spec.reversed_bandStop h (Design.proto_bw _ h.pos h.le h.small rfl lay0_bw.1 lay0_bw.2) rfl rfl hb
      (bw_bandRoots fun hh e => ?_) (butterworth_shape ho).ne).mono fun f hf => ⟨hf.1, hf.2 bw_apart⟩
    have := hx hh
    rw [hb.tan_of e] at this
    simp at this
  · rename_i g
    obtain ⟨⟨hb, hx⟩, hg⟩ := hv
    have hpos := bwShelfRoot_pos o g
    have hne : bwShelfRoot o g ≠ 1 := by
      have : (o : ℝ) ≠ 0 := by positivity
      rw [bwShelfRoot_eq ho]
      exact ofDb_ne_one (by positivity)
    refine (Spec.reversed_bandShelf h (Design.proto_bwShelf _ g h.pos h.le h.small rfl lay0_bwShelf.1 lay0_bwShelf.2)
      rfl rfl hb (bwShelf_bandRoots hpos fun hh => ?_)
      (butterworthShelf_shape ho g).ne).mono fun f hf => ⟨hf.1, hf.2 (bwShelf_apart hpos hne)⟩
    have := hx hh
    simp only [List.mem_cons, List.not_mem_nil, or_false, not_or] at this
    rw [ofDb_neg_inv, ← bwShelfRoot_eq ho] at this
    exact ⟨fun e => this.2 (hb.tan_of_inv e), fun e => this.1 (by rw [hb.tan_of_inv e, one_div_one_div])⟩
  · rename_i r
    obtain ⟨⟨hb, hx⟩, hr⟩ := hv
    have hv := chebV_pos ho (chebEps_pos hr)
    refine (Spec.reversed_bandPass h (Design.proto_c1 _ hr h.pos h.le h.small rfl) rfl rfl hb
      (c1_bandRoots hv fun hh e => ?_) (chebyshevI_shape ho hr).ne).mono fun f hf => ⟨hf.1, hf.2 c1_apart⟩
    have := hx hh
    rw [hb.tan_of_inv e] at this
    exact this (List.mem_singleton.2 rfl)
  · rename_i r
    obtain ⟨⟨hb, hx⟩, hr⟩ := hv
    have hv := chebV_pos ho (chebEps_pos hr)
    refine (Spec.reversed_bandStop h (Design.proto_c1 _ hr h.pos h.le h.small rfl) rfl rfl hb
      (c1_bandRoots hv fun hh e => ?_) (chebyshevI_shape ho hr).ne).mono fun f hf => ⟨hf.1, hf.2 c1_apart⟩
    have := hx hh
    rw [hb.tan_of e] at this
    exact this (List.mem_singleton.2 rfl)
  · rename_i r
    obtain ⟨⟨hb, hx⟩, hr⟩ := hv
    have hv := chebV_pos ho (chebEpsII_pos hr)
    refine (Spec.reversed_bandPass h (Design.proto_c2 _ hr h.pos h.le h.small rfl lay0_c2.1 lay0_c2.2) rfl rfl hb
      (c2_bandRoots hv (one_div_neg.2 hb.tan_neg) fun hh e => ?_) (chebyshevII_shape ho hr).ne).mono
      fun f hf => ⟨hf.1, hf.2 (c2_apart hv)⟩
    have := hx hh
    rw [hb.tan_of_inv e, one_div_one_div] at this
    exact this (List.mem_singleton.2 (cheb2Pole_eq r))
  · rename_i r
    obtain ⟨⟨hb, hx⟩, hr⟩ := hv
    have hv := chebV_pos ho (chebEpsII_pos hr)
    refine (Spec.reversed_bandStop h (Design.proto_c2 _ hr h.pos h.le h.small rfl lay0_c2.1 lay0_c2.2) rfl rfl hb
      (c2_bandRoots hv hb.tan_neg fun hh e => ?_) (chebyshevII_shape ho hr).ne).mono
      fun f hf => ⟨hf.1, hf.2 (c2_apart hv)⟩
    have := hx hh
    rw [hb.tan_of e] at this
    exact this (List.mem_singleton.2 (by rw [cheb2Pole_eq]))
  · obtain ⟨hv, hr, hG⟩ := hv
    exact Spec.reversed_chebShelf h (Design.proto_chebShelf _ hr hG h.pos h.le h.small rfl lay0_c1Shelf.1 lay0_c1Shelf.2)
      rfl rfl hv hr hG
  · obtain ⟨hv, hr, hG⟩ := hv
    exact Spec.reversed_chebShelf h (Design.proto_chebShelf _ hr hG h.pos h.le h.small rfl lay0_c1Shelf.1 lay0_c1Shelf.2)
      rfl rfl hv hr hG
  · exact hv.elim

/-! ## Odd negative orders of Chebyshev filters -/

section negative
open FArith Cx Exec

/-- prototype with the single pole `s` -/
noncomputable def onePoleA (s : ℝ) : Analog where
  n := 1
  pole _ := s
  zero _ := none

theorem onePoleA_sym (s : ℝ) : (onePoleA s).Sym where
  pole _ _ := (Complex.conj_ofReal s).symm
  zero _ _ := rfl

/-- digital pole and zero of the two transforms of `onePoleA`: `σ = 1` low pass, `σ = -1` high pass -/
noncomputable def onePoleQ (σ s f : ℝ) : Quad := ⟨(σ * ((1 + s * f) / (1 - s * f)) : ℝ), 0, (-σ : ℝ), 0⟩

theorem lowPassTransform_onePole {s fc : ℝ} (h0 : 0 < fc) (h1 : fc < 1 / 2) (hs : s * Real.tan (Real.pi * fc) ≠ 1)
    {a l : Layout XR} {L0 L : ℕ} {w0 g0 : ℝ} (ha : a.Stored (onePoleA s).stored 1 L0 (fin w0) (fin g0))
    (hL : l.pairs.length = L) (hn : 1 ≤ L) :
    ∃ l', lowPassTransform (fin fc) a l = (.ok (), l') ∧
      l'.Stored ([onePoleQ 1 s (Real.tan (Real.pi * fc))].map Quad.toX) 1 L (fin w0) (fin g0) := by
  have hne : (1 : ℂ) - s * (Real.tan (Real.pi * fc) : ℝ) ≠ 0 := by
    rw [sub_ne_zero]; exact_mod_cast hs.symm
  have hm := done_mapLayout (onePoleA_sym s) ha (tr := lpTransform (fin (Real.tan (Real.pi * fc))))
    (φ := lpRoot (Real.tan (Real.pi * fc)))
    (fun k _ => by
      simp only [onePoleA, lpTransform, ceq_ofC_infinity, Bool.false_eq_true, if_false, mulR_ofC, bilinear, lit_one,
        addR_ofC, rsub_ofC, lpRoot]
      rw [cdiv_ofC _ (by simpa using hne)]
      congr 1; push_cast; ring)
    (fun k _ => by simp [onePoleA, lpTransform, rootX, lpRoot])
    (lpRoot_conj _) (L := L) (by simp only [onePoleA]; omega) (w := l.normalW) (g := l.normalGain)
  obtain ⟨l1, e1, s1⟩ := hm.run (Layout.reset_stored hL)
  obtain ⟨l2, e2, s2⟩ := (done_setNormal (fin w0) (fin g0)).run s1
  refine ⟨l2, ?_, ?_⟩
  · have e0 : (FArith.tan (FArith.pi * fin fc) : XR) = fin (Real.tan (Real.pi * fc)) := by
      rw [pi_eq, fin_mul, tan_fin (cos_pi_pos h0.le h1).ne']
    unfold lowPassTransform
    simp only [bind_def, checkFreq_ok h0.le h1, Layout.reset, modify_def, e0, e1, ha.normalW, ha.normalGain, e2]
  · have : simplePairs (onePoleA s) (lpRoot (Real.tan (Real.pi * fc))) = [onePoleQ 1 s (Real.tan (Real.pi * fc))] := by
      simp only [simplePairs, onePoleA, onePoleQ, lpRoot]
      simp
    rw [this] at s2
    exact s2

theorem highPassTransform_onePole {s fc : ℝ} (h0 : 0 < fc) (h1 : fc < 1 / 2)
    (hs : s * (1 / Real.tan (Real.pi * fc)) ≠ 1)
    {a l : Layout XR} {L0 L : ℕ} {w0 g0 : ℝ} (ha : a.Stored (onePoleA s).stored 1 L0 (fin w0) (fin g0))
    (hL : l.pairs.length = L) (hn : 1 ≤ L) :
    ∃ l', highPassTransform (fin fc) a l = (.ok (), l') ∧
      l'.Stored ([onePoleQ (-1) s (1 / Real.tan (Real.pi * fc))].map Quad.toX) 1 L (fin (Real.pi - w0)) (fin g0) := by
  have ht := tan_pi_pos h0 h1
  have hne : (1 : ℂ) - s * (1 / Real.tan (Real.pi * fc) : ℝ) ≠ 0 := by
    rw [sub_ne_zero]; exact_mod_cast hs.symm
  have hm := done_mapLayout (onePoleA_sym s) ha (tr := hpTransform (fin (1 / Real.tan (Real.pi * fc))))
    (φ := hpRoot (1 / Real.tan (Real.pi * fc)))
    (fun k _ => by
      generalize 1 / Real.tan (Real.pi * fc) = f at *
      simp only [onePoleA, hpTransform, ceq_ofC_infinity, Bool.false_eq_true, if_false, mulR_ofC, lit_one,
        addR_ofC, rsub_ofC, hpRoot, cneg_ofC]
      rw [cdiv_ofC _ (by simpa using hne)]
      congr 1; push_cast; ring)
    (fun k _ => by simp [onePoleA, hpTransform, rootX, hpRoot])
    (hpRoot_conj _) (L := L) (by simp only [onePoleA]; omega) (w := l.normalW) (g := l.normalGain)
  obtain ⟨l1, e1, s1⟩ := hm.run (Layout.reset_stored hL)
  obtain ⟨l2, e2, s2⟩ := (done_setNormal (fin (Real.pi - w0)) (fin g0)).run s1
  refine ⟨l2, ?_, ?_⟩
  · have e0 : (1 / FArith.tan (FArith.pi * fin fc) : XR) = fin (1 / Real.tan (Real.pi * fc)) := by
      rw [pi_eq, fin_mul, tan_fin (cos_pi_pos h0.le h1).ne', lit_one, fin_div _ ht.ne']
    have e3 : (FArith.pi - fin w0 : XR) = fin (Real.pi - w0) := by rw [pi_eq, fin_sub]
    unfold highPassTransform
    simp only [bind_def, checkFreq_ok h0.le h1, Layout.reset, modify_def, e0, e1, ha.normalW, ha.normalGain, e3, e2]
  · have : simplePairs (onePoleA s) (hpRoot (1 / Real.tan (Real.pi * fc))) =
        [onePoleQ (-1) s (1 / Real.tan (Real.pi * fc))] := by
      generalize 1 / Real.tan (Real.pi * fc) = f
      simp only [simplePairs, onePoleA, onePoleQ, hpRoot]
      simp
      ring
    rw [this] at s2
    exact s2

theorem neg_odd_loop {o : ℤ} (h0 : o < 0) : (o.tdiv 2).toNat = 0 := by
  obtain ⟨k, hk⟩ : ∃ k : ℕ, o = -k := ⟨o.natAbs, by omega⟩
  rw [hk, Int.neg_tdiv]
  have : 0 ≤ (k : ℤ).tdiv 2 := Int.tdiv_nonneg (by omega) (by omega)
  omega

theorem onePole_add {L : ℕ} {w g : XR} (hL : 1 ≤ L) (s : ℝ) :
    Done (Layout.Stored [] 0 L w g) (Layout.add (ofC (s : ℂ)) infinity)
      (Layout.Stored (onePoleA s).stored 1 L w g) := by
  have h := Analog.done_odd (A := onePoleA s) (onePoleA_sym s) (L := L) (w := w) (g := g)
    (by simp only [onePoleA]; omega) rfl
  have e : (onePoleA s).storedPairs = [] := by simp [Analog.storedPairs, onePoleA]
  rw [e] at h
  generalize (onePoleA s).stored = st at *
  simpa [onePoleA] using h

/-- `sinh (asinh (1/ε) / |o|)`: the pole of a Chebyshev I prototype of odd negative order `o`. -/
noncomputable def Spec.cheb1Neg (o : ℤ) (r : ℝ) : ℝ := Real.sinh (Real.arsinh (1 / chebEps r) / (-o))

theorem ChebyshevI.build_negative {o : ℤ} (h0 : o < 0) (hl : -1073741824 ≤ o) (ho : o % 2 = 1) {r : ℝ} (hr : 0 < r)
    {L : ℕ} (hL : 1 ≤ L) {w g : XR} :
    Done (Layout.Stored [] 0 L w g) (ChebyshevI.lowPassBuild o (fin r))
      (Layout.Stored (onePoleA (cheb1Neg o r)).stored 1 L (fin 0) (fin 1)) := by
  have ho0 : (o : ℝ) ≠ 0 := by exact_mod_cast h0.ne
  have he : FArith.sqrt ((1 : XR) / FArith.exp (-fin r * 0.1 * ln10) - 1) = fin (chebEps r) := by
    simp only [fin_neg, lit_sci, fin_mul, ln10_eq, exp_fin, lit_one, neg_mul]
    rw [Real.exp_neg, exp_ripple, fin_div _ (by positivity), fin_sub, one_div, inv_inv, sqrt_fin, chebEps]
    have := Real.one_lt_rpow (x := 10) (z := r / 10) (by norm_num) (by positivity)
    linarith
  have hv : Iir.asinh ((1 : XR) / fin (chebEps r)) / Proto.ofI o = fin (Real.arsinh (1 / chebEps r) / o) := by
    simp only [Proto.ofI, ofInt_eq, lit_one]
    rw [fin_div _ (chebEps_pos hr).ne', asinh_fin, fin_div _ ho0]
  unfold ChebyshevI.lowPassBuild
  refine Trip.bind done_reset fun _ => ?_
  simp only [he, hv]
  refine Done.intChecked_ok (by omega) ?_
  simp only [neg_odd_loop h0, ho]
  refine Trip.bind (Q := fun _ => Layout.Stored [] 0 L w g) (Trip.pure fun _ h => h) fun _ => ?_
  simp only [BEq.rfl, if_true]
  refine Trip.bind (Q := fun _ => Layout.Stored (onePoleA (cheb1Neg o r)).stored 1 L w g) ?_ fun _ => ?_
  · have := onePole_add (w := w) (g := g) hL (cheb1Neg o r)
    simp only [sinh_fin, fin_neg, lit_zero, mk_eq_ofC]
    have e : (⟨-Real.sinh (Real.arsinh (1 / chebEps r) / o), 0⟩ : ℂ) = (cheb1Neg o r : ℝ) := by
      rw [cheb1Neg, div_neg, Real.sinh_neg]; rfl
    rw [e]; exact this
  · rw [lit_zero, lit_one]; exact done_setNormal _ _

/-- `1 / sinh (asinh (1/ε) / |o|)`: the pole of a Chebyshev II prototype of odd negative order `o`. -/
noncomputable def Spec.cheb2Neg (o : ℤ) (r : ℝ) : ℝ := 1 / Real.sinh (Real.arsinh (1 / chebEpsII r) / (-o))

theorem arsinh_div_pos {o : ℤ} (h0 : o < 0) {x : ℝ} (hx : 0 < x) : 0 < Real.arsinh x / (-o) := by
  have : (0 : ℝ) < -o := by
    have : (o : ℝ) < 0 := by exact_mod_cast h0
    linarith
  exact div_pos (Real.arsinh_pos_iff.2 hx) this

theorem cheb1Neg_pos {o : ℤ} (h0 : o < 0) {r : ℝ} (hr : 0 < r) : 0 < cheb1Neg o r :=
  Real.sinh_pos_iff.2 (arsinh_div_pos h0 (one_div_pos.2 (chebEps_pos hr)))

theorem cheb2Neg_pos {o : ℤ} (h0 : o < 0) {r : ℝ} (hr : 0 < r) : 0 < cheb2Neg o r :=
  one_div_pos.2 (Real.sinh_pos_iff.2 (arsinh_div_pos h0 (one_div_pos.2 (chebEpsII_pos hr))))

theorem ChebyshevII.build_negative {o : ℤ} (h0 : o < 0) (hl : -1073741824 ≤ o) (ho : o % 2 = 1) {r : ℝ} (hr : 0 < r)
    {L : ℕ} (hL : 1 ≤ L) {w g : XR} :
    Done (Layout.Stored [] 0 L w g) (ChebyshevII.lowPassBuild o (fin r))
      (Layout.Stored (onePoleA (cheb2Neg o r)).stored 1 L w g) := by
  have ho0 : (o : ℝ) ≠ 0 := by exact_mod_cast h0.ne
  have hpos : 0 < (10 : ℝ) ^ (r / 10) - 1 := by
    have := Real.one_lt_rpow (x := 10) (z := r / 10) (by norm_num) (by positivity)
    linarith
  have he : FArith.sqrt ((1 : XR) / (FArith.exp (fin r * 0.1 * ln10) - 1)) = fin (chebEpsII r) := by
    simp only [lit_sci, fin_mul, ln10_eq, exp_fin, lit_one]
    rw [exp_ripple, fin_sub, fin_div _ hpos.ne', sqrt_fin (by positivity), chebEpsII, chebEps, Real.sqrt_div zero_le_one,
      Real.sqrt_one]
  have hv : Iir.asinh ((1 : XR) / fin (chebEpsII r)) / Proto.ofI o = fin (Real.arsinh (1 / chebEpsII r) / o) := by
    simp only [Proto.ofI, ofInt_eq, lit_one]
    rw [fin_div _ (chebEpsII_pos hr).ne', asinh_fin, fin_div _ ho0]
  have hs : Real.sinh (Real.arsinh (1 / chebEpsII r) / (-o)) ≠ 0 :=
    (Real.sinh_pos_iff.2 (arsinh_div_pos h0 (one_div_pos.2 (chebEpsII_pos hr)))).ne'
  unfold ChebyshevII.lowPassBuild
  refine Trip.bind done_reset fun _ => ?_
  simp only [he, hv]
  refine Done.intChecked_ok (by omega) ?_
  simp only [neg_odd_loop h0, ho]
  refine Trip.bind (Q := fun _ => Layout.Stored [] 0 L w g) (Trip.pure fun _ h => h) fun _ => ?_
  simp only [BEq.rfl, if_true]
  have := onePole_add (w := w) (g := g) hL (cheb2Neg o r)
  have e : Real.arsinh (1 / chebEpsII r) / o = -(Real.arsinh (1 / chebEpsII r) / (-o)) := by rw [div_neg, neg_neg]
  simp only [sinh_fin, fin_neg, lit_one]
  rw [e, Real.sinh_neg, neg_neg, fin_div _ hs, ofR_fin]
  exact this

/-- A one pole prototype with a positive pole gives an unstable low or high pass. -/
theorem Spec.onePole_diverges {d : Design XR} {oz : ℤ} (hn1 : 1 ≤ n) (hn : n < 2 ^ 30)
    (hdes : call.normDesign = d) (hord : call.order n = oz) (hlt : oz < -1) (hm : d.cls.mult = 1)
    {s f w : ℝ} (hs : 0 < s) (hf : 0 < f) (hne : s * f ≠ 1)
    {σ : ℝ} (hσ : σ = 1 ∨ σ = -1) (hw : w = (1 - σ) / 2 * Real.pi)
    (hb : ∀ L, 1 ≤ L → Done (Layout.Stored [] 0 L (d.cls.lay0 n : Layout XR).normalW (d.cls.lay0 n : Layout XR).normalGain)
      (d.build oz) (Layout.Stored (onePoleA s).stored 1 L (fin 0) (fin 1)))
    (ht : ∀ {a l : Layout XR} {L0 L : ℕ}, a.Stored (onePoleA s).stored 1 L0 (fin 0) (fin 1) → l.pairs.length = L →
      1 ≤ L → ∃ l', d.trans a l = (.ok (), l') ∧ l'.Stored ([onePoleQ σ s f].map Quad.toX) 1 L (fin w) (fin 1)) :
    AfterSetup S T n call fun f => f.getNumStages = 1 ∧ Diverges f := by
  intro F hF
  have hpi := Real.pi_pos
  have hok := PFB.ok_init (R := XR) d.cls n
  obtain ⟨la, ela, sla⟩ := (hb ((n + 1) / 2) (by omega)).run (Cls.lay0_stored d.cls n)
  obtain ⟨l, et, hl⟩ := ht sla (l := (PoleFilter.initBase d.cls n : PFB XR).digital) rfl
    (by rw [hok.digital.2, Cls.maxDigital_eq, hm]; omega)
  rw [hok.digital.2, Cls.maxDigital_eq] at hl
  set p : ℝ := σ * ((1 + s * f) / (1 - s * f)) with hp
  have hsf : 0 < s * f := mul_pos hs hf
  have hd : 1 - s * f ≠ 0 := sub_ne_zero.2 hne.symm
  have hp1 : 1 < |p| := by
    have : |p| = |(1 + s * f) / (1 - s * f)| := by
      rcases hσ with h | h <;> rw [hp, h] <;> simp
    rw [this, abs_div, lt_div_iff₀ (abs_pos.2 hd), one_mul, abs_of_pos (by positivity : 0 < 1 + s * f), abs_lt]
    constructor <;> linarith
  have hp0 : p ≠ 0 := by rintro h; rw [h, abs_zero] at hp1; linarith
  have hpC : (p : ℂ) ≠ 0 := by exact_mod_cast hp0
  have hcirc : (circle (w / (2 * Real.pi)))⁻¹ = (σ : ℂ) := by
    rcases hσ with h | h
    · have : w / (2 * Real.pi) = 0 := by rw [hw, h]; simp
      rw [this, circle_inv, h]; apply Complex.ext <;> simp
    · have : w / (2 * Real.pi) = 1 / 2 := by rw [hw, h]; field_simp; norm_num
      rw [this, circle_inv, h, show 2 * Real.pi * (1 / 2) = Real.pi by ring]
      apply Complex.ext <;> simp
  have hσ2 : σ * σ = 1 := by rcases hσ with h | h <;> rw [h] <;> norm_num
  have hQ : ∀ q ∈ [onePoleQ σ s f], q.Ok := by
    intro q hq
    rw [List.mem_singleton] at hq
    subst hq
    exact ⟨.inl ⟨Complex.ofReal_im _, rfl⟩, .inl ⟨Complex.ofReal_im _, rfl⟩⟩
  have hden : denL [onePoleQ σ s f] (circle (w / (2 * Real.pi)))⁻¹ ≠ 0 := by
    rw [hcirc]
    simp only [denL, List.map_cons, List.map_nil, List.prod_cons, List.prod_nil, Quad.den, onePoleQ, mul_one, zero_mul, sub_zero]
    rw [sub_ne_zero]
    intro e
    have e' : 1 = p * σ := by exact_mod_cast e
    have h2 : p * σ = (1 + s * f) / (1 - s * f) := by rw [hp]; linear_combination ((1 + s * f) / (1 - s * f)) * hσ2
    rw [h2, eq_div_iff hd] at e'
    linarith
  have hnum : numL [onePoleQ σ s f] (circle (w / (2 * Real.pi)))⁻¹ ≠ 0 := by
    rw [hcirc]
    simp only [numL, List.map_cons, List.map_nil, List.prod_cons, List.prod_nil, Quad.num, onePoleQ, mul_one, zero_mul, sub_zero]
    rw [sub_ne_zero]
    intro e
    have e' : 1 = -σ * σ := by exact_mod_cast e
    linarith
  obtain ⟨hlen, F', e, hst, s', K, hs0, hns, hstg⟩ := Spec.reach_core (oz := oz) hn1 hn hdes hord (by omega)
    (by omega) hF ela (m := 1) le_rfl (by rw [hm]; omega) et hQ hl
    (by rcases hσ with h | h <;> rw [hw, h] <;> (norm_num; try positivity))
    (by rcases hσ with h | h <;> rw [hw, h] <;> (norm_num; try positivity)) hden hnum
  refine ⟨F', e, hst, by rw [hns]; rfl, ?_⟩
  have hreach : Reach S T call.design.cls n F' :=
    .call F F' (.setup call) (.ok ()) hF rfl e fun u h => by cases h
  refine hreach.diverges hn1 hn (ks := (setSectionsR [onePoleQ σ s f] K s').map Biquad.plain)
    (by rw [hstg]; exact plain_hasSections (setSectionsR_a0 _ K s')) (p := p)
    (by rw [Complex.norm_real, Real.norm_eq_abs]; exact hp1)
    (setSections_uncancelled hQ (hs0 one_pos) (List.mem_singleton.2 rfl) hpC ?_ ?_)
  · simp only [Quad.den, onePoleQ]
    rw [← hp, mul_inv_cancel₀ hpC, sub_self, zero_mul]
  · simp only [numL, List.map_cons, List.map_nil, List.prod_cons, List.prod_nil, Quad.num, onePoleQ, mul_one, zero_mul, sub_zero]
    rw [sub_ne_zero]
    intro e
    rw [eq_mul_inv_iff_mul_eq₀ hpC, one_mul] at e
    have e' : p = -σ := by exact_mod_cast e
    rw [e', abs_neg] at hp1
    rcases hσ with h | h <;> rw [h] at hp1 <;> norm_num at hp1

/-- Chebyshev low and high passes, odd negative order `o`: the prewarped cutoff is not at the prototype's pole. -/
def Spec.NegativeOrder (o : ℤ) : Design XR → Prop
  | .c1LowPass (fin fc) (fin r) | .c1HighPass (fin fc) (fin r) =>
    ValidCut fc ∧ 0 < r ∧ Real.tan (Real.pi * fc) * cheb1Neg o r ≠ 1 ∧ Real.tan (Real.pi * fc) ≠ cheb1Neg o r
  | .c2LowPass (fin fc) (fin r) | .c2HighPass (fin fc) (fin r) =>
    ValidCut fc ∧ 0 < r ∧ Real.tan (Real.pi * fc) * cheb2Neg o r ≠ 1 ∧ Real.tan (Real.pi * fc) ≠ cheb2Neg o r
  | _ => False

/-- **C52**, odd negative orders: a Chebyshev low or high pass set up with one is accepted, has one stage, and its
impulse response is unbounded. -/
theorem C52_negative_order {d : Design XR} {oz : ℤ} (hn1 : 1 ≤ n) (hn : n < 2 ^ 30)
    (hdes : call.normDesign = d) (hord : call.order n = oz) (hlt : oz < -1) (hl : -2 ^ 30 ≤ oz) (ho : Odd oz)
    (hv : NegativeOrder oz d) : AfterSetup S T n call fun f => f.getNumStages = 1 ∧ Diverges f := by
  have ho' := Int.odd_iff.1 ho
  have hl' : -1073741824 ≤ oz := by norm_num at hl; exact hl
  have hz : oz < 0 := by omega
  unfold NegativeOrder at hv
  split at hv <;> try exact hv.elim
  all_goals
    rename_i fc r
    obtain ⟨⟨h0, h1⟩, hr, hne, hne'⟩ := hv
    have htan := tan_pi_pos h0 h1
  · exact Spec.onePole_diverges hn1 hn hdes hord hlt rfl (cheb1Neg_pos hz hr) htan (by rwa [mul_comm]) (.inl rfl)
      (w := 0) (by norm_num) (fun L hL => ChebyshevI.build_negative hz hl' ho' hr hL)
      (fun ha hL hn => lowPassTransform_onePole h0 h1 (by rwa [mul_comm]) ha hL hn)
  · have hx : cheb1Neg oz r * (1 / Real.tan (Real.pi * fc)) ≠ 1 := by
      rw [mul_one_div, Ne, div_eq_one_iff_eq htan.ne']; exact hne'.symm
    exact Spec.onePole_diverges hn1 hn hdes hord hlt rfl (cheb1Neg_pos hz hr) (one_div_pos.2 htan) hx (.inr rfl)
      (w := Real.pi - 0) (by norm_num) (fun L hL => ChebyshevI.build_negative hz hl' ho' hr hL)
      (fun ha hL hn => highPassTransform_onePole h0 h1 hx ha hL hn)
  · refine Spec.onePole_diverges hn1 hn hdes hord hlt rfl (cheb2Neg_pos hz hr) htan (by rwa [mul_comm]) (.inl rfl)
      (w := 0) (by norm_num) (fun L hL => ?_)
      (fun ha hL hn => lowPassTransform_onePole h0 h1 (by rwa [mul_comm]) ha hL hn)
    show Done (Layout.Stored [] 0 L (Cls.c2LowPass.lay0 n : Layout XR).normalW (Cls.c2LowPass.lay0 n : Layout XR).normalGain)
      (ChebyshevII.lowPassBuild oz (fin r)) _
    rw [lay0_c2.1, lay0_c2.2]
    exact ChebyshevII.build_negative hz hl' ho' hr hL
  · have hx : cheb2Neg oz r * (1 / Real.tan (Real.pi * fc)) ≠ 1 := by
      rw [mul_one_div, Ne, div_eq_one_iff_eq htan.ne']; exact hne'.symm
    refine Spec.onePole_diverges hn1 hn hdes hord hlt rfl (cheb2Neg_pos hz hr) (one_div_pos.2 htan) hx (.inr rfl)
      (w := Real.pi - 0) (by norm_num) (fun L hL => ?_)
      (fun ha hL hn => highPassTransform_onePole h0 h1 hx ha hL hn)
    show Done (Layout.Stored [] 0 L (Cls.c2LowPass.lay0 n : Layout XR).normalW (Cls.c2LowPass.lay0 n : Layout XR).normalGain)
      (ChebyshevII.lowPassBuild oz (fin r)) _
    rw [lay0_c2.1, lay0_c2.2]
    exact ChebyshevII.build_negative hz hl' ho' hr hL

end negative

/-! ## The property and its negation -/

/-- From the present contents of the delay lines: bounded input gives bounded output, and input that dies away gives
output that dies away. -/
def Spec.WellBehaved (f : PoleFilter S XR) : Prop :=
  ∀ x : ℕ → ℝ, ∃ y, Produces (PoleFilter.filter (T := XR)) f x y ∧
    ((∃ M, ∀ n, |x n| ≤ M) → ∃ B, ∀ n, |y n| ≤ B) ∧
    (Filter.Tendsto x Filter.atTop (nhds 0) → Filter.Tendsto y Filter.atTop (nhds 0))

theorem stable_sections {bs : List (Biquad XR)} (h : ∀ b ∈ bs, StableSection b) :
    ∃ ks, HasSections bs ks ∧ ∀ k ∈ ks, k.Stable := by
  induction bs with
  | nil => exact ⟨[], .nil, by simp⟩
  | cons b bs ih =>
    obtain ⟨ks, h1, h2⟩ := ih fun b hb => h b (List.mem_cons_of_mem _ hb)
    obtain ⟨k, h3, h4⟩ := h b List.mem_cons_self
    refine ⟨k :: ks, .cons h3 h1, fun k' hk => ?_⟩
    rcases List.mem_cons.1 hk with rfl | hk
    · exact h4
    · exact h2 k' hk

/-- **C52**, the part that holds: after a setup with valid parameters, on an object with any history and any (finite)
delay line contents, bounded input gives bounded output and the output dies away with the input.  Missing is "whenever
`setup` does not throw": see `C52_false`. -/
theorem C52_stable_partial {d : Design XR} (h : Asks call n o d) (hv : Valid o d) {f : PoleFilter S XR}
    (hf : Reach S T call.design.cls n f) (hfin : FiniteStates f.states) :
    ∃ f', PoleFilter.setup n call f = (.ok (), f') ∧ WellBehaved f' := by
  have ho1 := h.pos
  have hon := h.le
  obtain ⟨f', e, hs, hst⟩ := C29_stable (S := S) (T := T) h hv f hf
  have hreach : Reach S T call.design.cls n f' :=
    .call f f' (.setup call) (.ok ()) hf rfl e fun u h => by cases h
  obtain ⟨ks, hks, hk⟩ := stable_sections hst
  obtain ⟨hb, hne⟩ := hasSections_iff.1 hks
  obtain ⟨cs, hcs⟩ := Sims.of_finite (ks.map Coeffs.norm) f'.states
    (by rw [hreach.wired (by omega) h.small, hks.length, List.length_map]) (by rw [hs]; exact hfin)
  refine ⟨f', e, fun x => ⟨_, PoleFilter.produces hb hcs x,
    fun ⟨M, hM⟩ => chain_bounded (stable_norms hne hk) cs hcs.cs_length hM,
    chain_tendsto (stable_norms hne hk) cs hcs.cs_length⟩⟩

theorem Spec.reversed_ex : ReversedBand (1 / 4) (-1 / 8) := by
  have hpi := Real.two_le_pi
  have h : 1e-8 / (2 * Real.pi) ≤ 1 / 8 := by
    rw [div_le_iff₀ (by positivity)]; norm_num; linarith
  exact ⟨by norm_num, by linarith, by linarith⟩

/-- **C52** is false: `Butterworth::BandPass<2>::setupN(0.25, -0.125)` on a new object returns without an exception, and
the impulse response is unbounded. -/
theorem C52_false (S : Type → Type) [StateType S XR] [DelayLine XR S] :
    ∃ f' : PoleFilter S XR, PoleFilter.setup 2 (.setupN (.bwBandPass (fin (1 / 4)) (fin (-1 / 8))))
      (PoleFilter.init S .bwBandPass 2) = (.ok (), f') ∧ Diverges f' := by
  obtain ⟨f', e, -, h⟩ := C52_reversed (S := S) (T := XR) (n := 2) (o := 2)
    (call := .setupN (.bwBandPass (fin (1 / 4)) (fin (-1 / 8)))) ⟨rfl, rfl, by norm_num, le_rfl, by norm_num⟩
    ⟨reversed_ex, fun h => by norm_num at h⟩ _ .new
  exact ⟨f', e, h.2⟩

theorem cheb1Neg_ex : cheb1Neg (-3) 10 ≠ 1 := by
  have h1 : chebEps 10 = 3 := by
    rw [chebEps, show (10 : ℝ) ^ ((10 : ℝ) / 10) - 1 = 3 ^ 2 by norm_num, Real.sqrt_sq (by norm_num)]
  have h2 : Real.arsinh (1 / 3) < Real.arsinh 1 := Real.arsinh_lt_arsinh.2 (by norm_num)
  have h3 : 0 < Real.arsinh (1 / 3) := Real.arsinh_pos_iff.2 (by norm_num)
  have h4 : cheb1Neg (-3) 10 < Real.sinh (Real.arsinh 1) := by
    rw [cheb1Neg, h1]
    apply Real.sinh_lt_sinh.2
    push_cast
    linarith
  rw [Real.sinh_arsinh] at h4
  exact h4.ne

/-- `ChebyshevI::LowPass<4>` of order -3 with 10 dB ripple. -/
example : AfterSetup S T 4 (.setupNReq (-3) (.c1LowPass (fin (1 / 4)) (fin 10)))
    fun f => f.getNumStages = 1 ∧ Diverges f := by
  have h : Real.tan (Real.pi * (1 / 4)) = 1 := by
    rw [show Real.pi * (1 / 4) = Real.pi / 4 by ring, Real.tan_pi_div_four]
  refine C52_negative_order (d := .c1LowPass (fin (1 / 4)) (fin 10)) (oz := -3) (by norm_num) (by norm_num) rfl rfl
    (by norm_num) (by norm_num) (by decide) ⟨⟨by norm_num, by norm_num⟩, by norm_num, ?_, ?_⟩
  · rw [h, one_mul]; exact cheb1Neg_ex
  · rw [h]; exact cheb1Neg_ex.symm

/-- A Chebyshev I band stop of order 4 in a template of order 6. -/
example : AfterSetup S T 6 (.setupNReq 4 (.c1BandStop (fin (1 / 4)) (fin (-1 / 8)) (fin 1)))
    fun f => OutsideFilter f ∧ Diverges f :=
  C52_reversed (o := 4) ⟨rfl, rfl, by norm_num, by norm_num, by norm_num⟩
    ⟨⟨reversed_ex, fun h => by norm_num at h⟩, by norm_num⟩

example : AfterSetup S T 6 (.setupNReq 2 (.c2BandShelf (fin (1 / 4)) (fin (-1 / 8)) (fin 6) (fin 1)))
    fun f => OutsideFilter f ∧ Diverges f :=
  C52_reversed (o := 2) ⟨rfl, rfl, by norm_num, by norm_num, by norm_num⟩
    ⟨⟨reversed_ex, fun h => by norm_num at h⟩, by norm_num, by norm_num⟩

end Iir
