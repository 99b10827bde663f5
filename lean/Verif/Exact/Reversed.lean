import Verif.Exact.After
import Verif.Spec.Reversed
import Verif.Math.Unbounded
import Verif.Props.TimeDomain

/-! # Band transforms with a negative width

The transform then takes the left half plane to the outside of the unit circle. -/

set_option linter.unusedSectionVars false

namespace Iir
open FArith Cx Exec Spec XR Finset Biquad Cascade

noncomputable section

local notation "conjC" => starRingEnd ℂ

/-! ## Edges -/

section
variable {fc fw : ℝ}

theorem Spec.ReversedBand.edgeHi (h : ReversedBand fc fw) : edgeHi fc fw = 2 * Real.pi * fc + Real.pi * fw := by
  have hpi := Real.pi_pos
  have h1 := h.hi
  have h2 := h.neg
  rw [Iir.edgeHi, min_eq_left]
  have e : 2 * Real.pi * (1 / 2 - 1e-8 / (2 * Real.pi)) = Real.pi - 1e-8 := by field_simp
  rw [← e]
  have : fc + fw / 2 ≤ 1 / 2 - 1e-8 / (2 * Real.pi) := by linarith
  have := mul_le_mul_of_nonneg_left this (by positivity : (0 : ℝ) ≤ 2 * Real.pi)
  linarith

theorem Spec.ReversedBand.edgeLo (h : ReversedBand fc fw) : edgeLo fc fw = 2 * Real.pi * fc - Real.pi * fw := by
  have hpi := Real.pi_pos
  have h1 := h.lo
  have h2 := h.neg
  rw [Iir.edgeLo, max_eq_left]
  have e : 2 * Real.pi * (1e-8 / (2 * Real.pi)) = 1e-8 := by field_simp
  rw [← e]
  have : 1e-8 / (2 * Real.pi) ≤ fc - fw / 2 := by linarith
  have := mul_le_mul_of_nonneg_left this (by positivity : (0 : ℝ) ≤ 2 * Real.pi)
  linarith

theorem Spec.ReversedBand.edgeHalf (h : ReversedBand fc fw) : edgeHalf fc fw = Real.pi * fw := by
  rw [Iir.edgeHalf, h.edgeHi, h.edgeLo]; ring

theorem Spec.ReversedBand.edgeMid (h : ReversedBand fc fw) : edgeMid fc fw = 2 * Real.pi * fc := by
  rw [Iir.edgeMid, h.edgeHi, h.edgeLo]; ring

theorem Spec.ReversedBand.lo_pos (h : ReversedBand fc fw) : 0 < fc + fw / 2 :=
  lt_of_lt_of_le (div_pos (by norm_num) (by have := Real.pi_pos; positivity)) h.lo

theorem Spec.ReversedBand.hi_lt (h : ReversedBand fc fw) : fc - fw / 2 < 1 / 2 := by
  have h1 := h.hi
  have : (0 : ℝ) < 1e-8 / (2 * Real.pi) := div_pos (by norm_num) (by have := Real.pi_pos; positivity)
  linarith

theorem Spec.ReversedBand.fc_pos (h : ReversedBand fc fw) : 0 < fc := by
  have := h.lo_pos; have := h.neg; linarith

theorem Spec.ReversedBand.fc_lt (h : ReversedBand fc fw) : fc < 1 / 2 := by
  have := h.hi_lt; have := h.neg; linarith

theorem Spec.ReversedBand.edgeHi_pos (h : ReversedBand fc fw) : 0 < Iir.edgeHi fc fw := by
  rw [h.edgeHi]
  have := mul_pos Real.pi_pos h.lo_pos
  linarith

theorem Spec.ReversedBand.edgeLo_lt (h : ReversedBand fc fw) : Iir.edgeLo fc fw < Real.pi := by
  rw [h.edgeLo]
  have := mul_lt_mul_of_pos_left h.hi_lt Real.pi_pos
  linarith

theorem Spec.ReversedBand.half_gt (h : ReversedBand fc fw) : -(Real.pi / 2) < Iir.edgeHalf fc fw := by
  have h1 := h.edgeHi_pos
  have h2 := h.edgeLo_lt
  rw [Iir.edgeHalf]; linarith

theorem Spec.ReversedBand.half_neg (h : ReversedBand fc fw) : Iir.edgeHalf fc fw < 0 := by
  rw [h.edgeHalf]; exact mul_neg_of_pos_of_neg Real.pi_pos h.neg

theorem Spec.ReversedBand.cos_pos (h : ReversedBand fc fw) : 0 < Real.cos (Iir.edgeHalf fc fw) :=
  Real.cos_pos_of_mem_Ioo ⟨h.half_gt, by have := h.half_neg; linarith [Real.pi_pos]⟩

theorem Spec.ReversedBand.tan_neg (h : ReversedBand fc fw) : Real.tan (Iir.edgeHalf fc fw) < 0 :=
  Real.tan_neg_of_neg_of_pi_div_two_lt h.half_neg h.half_gt

theorem Spec.ReversedBand.abs_bandA (h : ReversedBand fc fw) : |bandA fc fw| < 1 := by
  have h1 := h.edgeHi_pos
  have h2 := h.edgeLo_lt
  have hc := h.cos_pos
  have hn := h.half_neg
  have hm0 : -Iir.edgeHalf fc fw < Iir.edgeMid fc fw := by unfold Iir.edgeHalf Iir.edgeMid; linarith
  have hm1 : Iir.edgeMid fc fw < Real.pi + Iir.edgeHalf fc fw := by unfold Iir.edgeHalf Iir.edgeMid; linarith
  have e1 : Real.cos (Iir.edgeMid fc fw) < Real.cos (-Iir.edgeHalf fc fw) :=
    Real.cos_lt_cos_of_nonneg_of_le_pi (by linarith) (by linarith) hm0
  have e2 : Real.cos (Real.pi + Iir.edgeHalf fc fw) < Real.cos (Iir.edgeMid fc fw) :=
    Real.cos_lt_cos_of_nonneg_of_le_pi (by linarith) (by linarith) hm1
  rw [Real.cos_neg] at e1
  rw [add_comm, Real.cos_add_pi] at e2
  unfold bandA
  rw [abs_div, abs_of_pos hc, div_lt_one hc, abs_lt]
  exact ⟨e2, e1⟩

theorem Spec.ReversedBand.cos_centre (h : ReversedBand fc fw) : Real.cos (bandCentre fc fw) = bandA fc fw := by
  have h0 := edgeLo_pos fc fw
  have h1 := edgeHi_lt_pi fc fw
  have c1 := cos_half_pos h.edgeHi_pos h1
  have c2 := cos_half_pos h0 h.edgeLo_lt
  have t1 := tan_half_pos h.edgeHi_pos h1
  have t2 := tan_half_pos h0 h.edgeLo_lt
  have hh := h.cos_pos
  unfold bandCentre bandA
  rw [cos_double_tan (Real.cos_arctan_pos _).ne', Real.tan_arctan, Real.sq_sqrt (mul_pos t1 t2).le]
  rw [show Iir.edgeHalf fc fw = Iir.edgeHi fc fw / 2 - Iir.edgeLo fc fw / 2 by unfold Iir.edgeHalf; ring,
    Real.cos_sub] at hh ⊢
  rw [show Iir.edgeMid fc fw = Iir.edgeHi fc fw / 2 + Iir.edgeLo fc fw / 2 by unfold Iir.edgeMid; ring, Real.cos_add,
    Real.tan_eq_sin_div_cos, Real.tan_eq_sin_div_cos]
  rw [div_eq_div_iff (by have := mul_pos t1 t2; rw [Real.tan_eq_sin_div_cos, Real.tan_eq_sin_div_cos] at this
                         linarith) hh.ne']
  field_simp

theorem Spec.ReversedBand.centre_pos (h : ReversedBand fc fw) : 0 < bandCentre fc fw := by
  refine lt_of_le_of_ne (bandCentre_nonneg _ _) fun h0 => ?_
  have h1 := h.cos_centre
  rw [← h0, Real.cos_zero] at h1
  have := h.abs_bandA
  rw [← h1] at this
  norm_num at this

end

/-! ## The maps take the unit disk to the left half plane -/

/-- `X / Y` has non-negative real part for `|q| ≥ 1` and negative real part for `|q| < 1`. -/
structure SMap.Reverses (M : SMap) : Prop where
  outside : ∀ q : ℂ, 1 ≤ ‖q‖ → 0 ≤ (M.X q * conjC (M.Y q)).re ∧ ¬ (M.X q = 0 ∧ M.Y q = 0)
  inside : ∀ q : ℂ, ‖q‖ < 1 → (M.X q * conjC (M.Y q)).re < 0

theorem norm_sq_parts (q : ℂ) : ‖q‖ ^ 2 = q.re ^ 2 + q.im ^ 2 := by
  rw [← Complex.normSq_eq_norm_sq, Complex.normSq_apply]; ring

theorem band_factor_pos {a : ℝ} (ha : |a| < 1) (q : ℂ) : 0 < 1 + (q.re ^ 2 + q.im ^ 2) - 2 * a * q.re := by
  have h2 := abs_lt.1 ha
  nlinarith [sq_nonneg (q.re - a), sq_nonneg q.im, mul_pos (sub_pos.2 h2.2) (by linarith [h2.1] : 0 < 1 + a)]

theorem band_reverses {a b : ℝ} (ha : |a| < 1) (hb : b < 0) {M : SMap}
    (e : ∀ q, (M.X q * conjC (M.Y q)).re =
      b * ((1 - (q.re ^ 2 + q.im ^ 2)) * (1 + (q.re ^ 2 + q.im ^ 2) - 2 * a * q.re)))
    (hz : ∀ q, ¬ (M.X q = 0 ∧ M.Y q = 0)) : M.Reverses where
  outside q hq := by
    refine ⟨?_, hz q⟩
    have h1 : 1 ≤ q.re ^ 2 + q.im ^ 2 := by rw [← norm_sq_parts]; nlinarith
    have h2 := band_factor_pos ha q
    rw [e]
    exact mul_nonneg_of_nonpos_of_nonpos hb.le (mul_nonpos_of_nonpos_of_nonneg (by linarith) h2.le)
  inside q hq := by
    have h1 : q.re ^ 2 + q.im ^ 2 < 1 := by rw [← norm_sq_parts]; nlinarith [norm_nonneg q]
    have h2 := band_factor_pos ha q
    rw [e]
    exact mul_neg_of_neg_of_pos hb (mul_pos (by linarith) h2)

theorem bpMap_reverses {a b : ℝ} (ha : |a| < 1) (hb : b < 0) : (bpMap a b).Reverses := by
  have hbC : (b : ℂ) ≠ 0 := by exact_mod_cast hb.ne
  refine band_reverses ha hb (fun q => ?_) fun q => ?_
  · simp [bpMap, sq]; ring
  · rintro ⟨h1, h2⟩
    simp only [bpMap] at h1 h2
    exact band_zeros ha ((mul_eq_zero.1 h1).resolve_left hbC) h2

theorem bsMap_reverses {a b : ℝ} (ha : |a| < 1) (hb : b < 0) : (bsMap a b).Reverses := by
  have hbC : (b : ℂ) ≠ 0 := by exact_mod_cast hb.ne
  refine band_reverses ha hb (fun q => ?_) fun q => ?_
  · simp [bsMap, sq]; ring
  · rintro ⟨h1, h2⟩
    simp only [bsMap] at h1 h2
    exact band_zeros ha h2 ((mul_eq_zero.1 h1).resolve_left hbC)

theorem SMap.Reverses.P_ne {M : SMap} (hM : M.Reverses) {A : Analog} (hA : A.Left) {q : ℂ} (hq : 1 ≤ ‖q‖) :
    A.P (M.X q) (M.Y q) ≠ 0 := by
  rw [Analog.P, Finset.prod_ne_zero_iff]
  intro k hk h
  rw [mem_range] at hk
  have hp := hA.pole k hk
  obtain ⟨h1, h2⟩ := hM.outside q hq
  have hX : M.X q = A.pole k * M.Y q := by
    simp only [form] at h; linear_combination h
  rw [hX, mul_assoc, Complex.mul_conj, Complex.re_mul_ofReal] at h1
  have hY : Complex.normSq (M.Y q) = 0 := by
    have := Complex.normSq_nonneg (M.Y q)
    nlinarith
  rw [Complex.normSq_eq_zero] at hY
  exact h2 ⟨by rw [hX, hY, mul_zero], hY⟩

/-- no zero of the prototype is at a pole -/
def Analog.Apart (A : Analog) : Prop := ∀ k < A.n, ∀ j < A.n, A.zero j ≠ some (A.pole k)

theorem SMap.Reverses.Z_ne {M : SMap} (hM : M.Reverses) {A : Analog} (hA : A.Apart) {q : ℂ} (hq : ‖q‖ < 1)
    (hP : A.P (M.X q) (M.Y q) = 0) : A.Z (M.X q) (M.Y q) ≠ 0 := by
  have h1 := hM.inside q hq
  have hY : M.Y q ≠ 0 := fun h => by
    rw [h, map_zero, mul_zero, Complex.zero_re] at h1
    exact lt_irrefl _ h1
  rw [Analog.P, Finset.prod_eq_zero_iff] at hP
  obtain ⟨i, hi, hX⟩ := hP
  rw [mem_range] at hi
  rw [Analog.Z, Finset.prod_ne_zero_iff]
  intro k hk h
  rw [mem_range] at hk
  cases hz : A.zero k with
  | none => rw [hz] at h; exact hY h
  | some z =>
    rw [hz] at h
    simp only [form] at h hX
    have : (z - A.pole i) * M.Y q = 0 := by linear_combination hX - h
    have := sub_eq_zero.1 ((mul_eq_zero.1 this).resolve_right hY)
    exact hA i hi k hk (by rw [hz, this])

theorem Realises.pole_gt {A : Analog} {M : SMap} {D : List Quad} (h : Realises A M D) (hM : M.Reverses)
    (hA : A.Left) (hne : PolesNe D) {d : Quad} (hd : d ∈ D) : 1 < ‖d.p1‖ ∧ 1 < ‖d.p2‖ := by
  obtain ⟨c, hc, e⟩ := h.den
  have key : ∀ p : ℂ, p ≠ 0 → d.den p⁻¹ = 0 → 1 < ‖p‖ := by
    intro p hp0 hz
    by_contra hge
    have hq : 1 ≤ ‖p⁻¹‖ := by
      rw [norm_inv]; exact (one_le_inv₀ (norm_pos_iff.2 hp0)).2 (not_lt.1 hge)
    have h1 := e p⁻¹
    have h2 : denL D p⁻¹ = 0 := by
      unfold denL
      rw [List.prod_eq_zero_iff, List.mem_map]
      exact ⟨d, hd, hz⟩
    rw [h2] at h1
    exact mul_ne_zero hc (hM.P_ne hA hq) h1.symm
  obtain ⟨h1, h2⟩ := hne d hd
  exact ⟨key _ h1 (by simp [Quad.den, h1]), key _ h2 (by simp [Quad.den, h2])⟩

/-! ## The sections and the impulse response -/

def Biquad.plain (b : Biquad ℝ) : Coeffs := ⟨b.a0, b.a1, b.a2, b.b0, b.b1, b.b2⟩

theorem plain_has {b : Biquad ℝ} (h0 : b.a0 = 1) : HasCoeffs b.toX b.plain :=
  ⟨by simp [getA0, toX, plain], by simp [getA1, toX, h0, plain], by simp [getA2, toX, h0, plain],
    by simp [getB0, toX, h0, plain], by simp [getB1, toX, h0, plain], by simp [getB2, toX, h0, plain],
    by simp [plain, h0]⟩

theorem plain_hasSections {bs : List (Biquad ℝ)} (h0 : ∀ b ∈ bs, b.a0 = 1) :
    HasSections (bs.map toX) (bs.map Biquad.plain) := by
  induction bs with
  | nil => exact .nil
  | cons b bs ih =>
    exact .cons (plain_has (h0 b List.mem_cons_self)) (ih fun b hb => h0 b (List.mem_cons_of_mem _ hb))

theorem plain_den {b : Biquad ℝ} (h0 : b.a0 = 1) {p : ℂ} (hp : p ≠ 0) :
    (b.plain.a0 : ℂ) * p ^ 2 + b.plain.a1 * p + b.plain.a2 = p ^ 2 * b.denQ p⁻¹ := by
  simp only [plain, denQ, h0, Complex.ofReal_one]; field_simp

theorem plain_num (b : Biquad ℝ) {p : ℂ} (hp : p ≠ 0) :
    (b.plain.b0 : ℂ) * p ^ 2 + b.plain.b1 * p + b.plain.b2 = p ^ 2 * b.numQ p⁻¹ := by
  simp only [plain, numQ]; field_simp

/-- the sections before the conversion to `XR` -/
def setSectionsR (D : List Quad) (K : ℕ) (s : ℝ) : List (Biquad ℝ) :=
  (D.map Quad.sec ++ List.replicate (K - D.length) identC).modify 0 (scaledB s)

/-- a property that scaling keeps -/
theorem setSectionsR_all {D : List Quad} {K : ℕ} {s : ℝ} {P : Biquad ℝ → Prop} (hs : ∀ b, P b → P (scaledB s b))
    (hD : ∀ d ∈ D, P d.sec) (hI : P identC) : ∀ b ∈ setSectionsR D K s, P b := by
  intro b hb
  have hall : ∀ b ∈ D.map Quad.sec ++ List.replicate (K - D.length) identC, P b := by
    intro b hb
    rw [List.mem_append, List.mem_map] at hb
    rcases hb with ⟨d, hd, rfl⟩ | hb
    · exact hD d hd
    · rw [(List.mem_replicate.1 hb).2]; exact hI
  unfold setSectionsR at hb
  generalize D.map Quad.sec ++ List.replicate (K - D.length) identC = bs at *
  cases bs with
  | nil => simp at hb
  | cons b0 bs =>
    simp only [List.modify_zero_cons, List.mem_cons] at hb
    rcases hb with rfl | hb
    · exact hs _ (hall _ List.mem_cons_self)
    · exact hall _ (List.mem_cons_of_mem _ hb)

theorem setSectionsR_take {D : List Quad} {K : ℕ} {s : ℝ} {P : Biquad ℝ → Prop} (hs : ∀ b, P b → P (scaledB s b))
    (hD : ∀ d ∈ D, P d.sec) : ∀ b ∈ (setSectionsR D K s).take D.length, P b := by
  intro b hb
  unfold setSectionsR at hb
  rw [List.take_modify, List.take_append_of_le_length (by simp), List.take_of_length_le (by simp)] at hb
  have hall : ∀ b ∈ D.map Quad.sec, P b := by
    intro b hb
    obtain ⟨d, hd, rfl⟩ := List.mem_map.1 hb
    exact hD d hd
  generalize D.map Quad.sec = bs at *
  cases bs with
  | nil => simp at hb
  | cons b0 bs =>
    simp only [List.modify_zero_cons, List.mem_cons] at hb
    rcases hb with rfl | hb
    · exact hs _ (hall _ List.mem_cons_self)
    · exact hall _ (List.mem_cons_of_mem _ hb)

theorem setSectionsR_mem {D : List Quad} {K : ℕ} {s : ℝ} {d : Quad} (hd : d ∈ D) :
    d.sec ∈ setSectionsR D K s ∨ scaledB s d.sec ∈ setSectionsR D K s := by
  unfold setSectionsR
  have hm : d.sec ∈ D.map Quad.sec ++ List.replicate (K - D.length) identC :=
    List.mem_append_left _ (List.mem_map_of_mem hd)
  generalize D.map Quad.sec ++ List.replicate (K - D.length) identC = bs at *
  cases bs with
  | nil => simp at hm
  | cons b0 bs =>
    simp only [List.modify_zero_cons, List.mem_cons] at hm ⊢
    rcases hm with h | h
    · exact .inr (.inl (by rw [h]))
    · exact .inl (.inr h)

theorem setSections_stages (D : List Quad) (K : ℕ) (g f0 : ℝ) : (setSections D K g f0).stages =
    (setSectionsR D K (g / ‖numL D (circle f0)⁻¹ / denL D (circle f0)⁻¹‖)).map toX := rfl

theorem numL_ne_of {D : List Quad} {q : ℂ} (h : numL D q ≠ 0) {d : Quad} (hd : d ∈ D) : d.num q ≠ 0 := by
  intro e
  apply h
  unfold numL
  rw [List.prod_eq_zero_iff, List.mem_map]
  exact ⟨d, hd, e⟩

/-- The sections have the pole `p` of `d`, and no zero cancels it. -/
theorem setSections_uncancelled {D : List Quad} (hok : ∀ d ∈ D, d.Ok) {K : ℕ} {s : ℝ} (hs : s ≠ 0) {d : Quad}
    (hd : d ∈ D) {p : ℂ} (hp : p ≠ 0) (hden : d.den p⁻¹ = 0) (hnum : numL D p⁻¹ ≠ 0) :
    UncancelledPole ((setSectionsR D K s).map Biquad.plain) p where
  pole := by
    rcases setSectionsR_mem (K := K) (s := s) hd with h | h
    · exact ⟨_, List.mem_map_of_mem h, by rw [plain_den rfl hp, (hok d hd).denQ, hden, mul_zero]⟩
    · exact ⟨_, List.mem_map_of_mem h, by rw [plain_den rfl hp, scaledB_denQ, (hok d hd).denQ, hden, mul_zero]⟩
  zero := by
    intro k hk
    obtain ⟨b, hb, rfl⟩ := List.mem_map.1 hk
    rw [plain_num _ hp]
    refine mul_ne_zero (pow_ne_zero _ hp) ?_
    refine setSectionsR_all (P := fun b => b.numQ p⁻¹ ≠ 0) (fun b hb => ?_) (fun d hd => ?_) ?_ b hb
    · rw [scaledB_numQ]; exact mul_ne_zero (by exact_mod_cast hs) hb
    · rw [(hok d hd).numQ]; exact numL_ne_of hnum hd
    · simp [identC, numQ]

theorem setSectionsR_a0 (D : List Quad) (K : ℕ) (s : ℝ) : ∀ b ∈ setSectionsR D K s, b.a0 = 1 :=
  setSectionsR_all (fun _ h => h) (fun _ _ => rfl) rfl

variable {S : Type → Type} [StateType S XR] [DelayLine XR S] {T : Type} [Sample T XR] {n o : ℕ}

/-- An object with an uncancelled pole outside the unit circle. -/
theorem Spec.Reach.diverges {c : Cls} (hn1 : 1 ≤ n) (hn : n < 2 ^ 30) {f : PoleFilter S XR}
    (h : Reach S T c n f) {ks : List Coeffs} (hks : HasSections f.base.cascade.stages ks) {p : ℂ} (hp : 1 < ‖p‖)
    (hu : UncancelledPole ks p) : Diverges f := by
  obtain ⟨y, hy⟩ : ∃ y, DiffChain ks impulse y := ⟨_, chain_diffChain ks _⟩
  exact ⟨y, (C01_pole_filter hn1 hn h hks _ _).2 hy, chain_unbounded (hasSections_iff.1 hks).2 hy hp hu⟩

/-! ## `setup` -/

/-- What the transform of design `d` makes of the prototype `A`, with all poles in the plane. -/
def TransformsOut (d : Design XR) (n : ℕ) (A : Analog) (w0 g0 : ℝ) (M : SMap) (m : ℕ) (w g : ℝ) : Prop :=
  ∀ a l : Layout XR, a.Stored A.stored A.n ((n + 1) / 2) (fin w0) (fin g0) →
    l.pairs.length = (n * d.cls.mult + 1) / 2 →
    ∃ l' D, d.trans a l = (.ok (), l') ∧ Realises A M D ∧ PolesNe D ∧
      l'.Stored (D.map Quad.toX) m ((n * d.cls.mult + 1) / 2) (fin w) (fin g)

/-- `setup` on any object: `la` is the prototype, `D` what the transform makes of it. -/
theorem Spec.reach_core {f : PoleFilter S XR} {call : Call XR} {d : Design XR} {oz : ℤ} (hn1 : 1 ≤ n) (hn : n < 2 ^ 30)
    (hdes : call.normDesign = d) (hord : call.order n = oz) (hle : oz ≤ n) (hne1 : oz ≠ -1)
    (h : Reach S T call.design.cls n f) {la : Layout XR} (ela : d.build oz (d.cls.lay0 n) = (.ok (), la))
    {l : Layout XR} {D : List Quad} {m : ℕ} {w g : ℝ} (hm1 : 1 ≤ m) (hmn : m ≤ n * d.cls.mult)
    (et : d.trans la (PoleFilter.initBase d.cls n : PFB XR).digital = (.ok (), l)) (hDok : ∀ q ∈ D, q.Ok)
    (hl : l.Stored (D.map Quad.toX) m ((n * d.cls.mult + 1) / 2) (fin w) (fin g))
    (hw0 : 0 ≤ w) (hw1 : w ≤ Real.pi) (hdne : denL D (circle (w / (2 * Real.pi)))⁻¹ ≠ 0)
    (hnne : numL D (circle (w / (2 * Real.pi)))⁻¹ ≠ 0) :
    D.length = (m + 1) / 2 ∧ ∃ f', PoleFilter.setup n call f = (.ok (), f') ∧ f'.states = f.states ∧
      ∃ s K, (0 < g → s ≠ 0) ∧ f'.getNumStages = D.length ∧
      f'.base.cascade.stages = (setSectionsR D K s).map toX := by
  obtain ⟨a, ea, ha⟩ : ∃ a, d.proto oz (PoleFilter.initBase d.cls n : PFB XR).analog = (.ok (), a) ∧
      a.lay = la := by
    cases hs : d.stale oz (PoleFilter.initBase d.cls n : PFB XR).analog with
    | false =>
      refine ⟨_, d.proto_hit hs, ?_⟩
      have := d.fresh_hit (by omega) hs
      rw [this] at ela
      exact congrArg Prod.snd ela
    | true =>
      have e : d.build oz (PoleFilter.initBase d.cls n : PFB XR).analog.lay =
        d.build oz (d.cls.lay0 n) := rfl
      refine ⟨{ d.setKey oz (PoleFilter.initBase d.cls n : PFB XR).analog with lay := la }, ?_, rfl⟩
      rw [d.proto_miss hs, e, ela]
  have hok := PFB.ok_init (R := XR) d.cls n
  have hDlen : D.length = (m + 1) / 2 := by
    have := congrArg List.length hl.pairs
    rw [List.length_take, hl.length, List.length_map] at this
    omega
  have hD : D ≠ [] := by
    intro h
    rw [h, List.length_nil] at hDlen
    omega
  have hset := Spec.setLayout_core hDok hD hl (by omega) hw0 hw1 hdne hnne hok.cascade
    (by unfold PoleFilter.numStages; rw [Cls.maxDigital_eq, hDlen]; omega)
  have hcls : d.cls = call.design.cls := by rw [← hdes, call.normDesign_cls]
  obtain ⟨p', e, hst, hns⟩ : ∃ p', d.baseSetup oz (PoleFilter.initBase d.cls n) = (.ok (), p') ∧
      p'.cascade.stages = (setSectionsR D (PoleFilter.numStages d.cls n) (g / ‖numL D (circle (w / (2 * Real.pi)))⁻¹ /
        denL D (circle (w / (2 * Real.pi)))⁻¹‖)).map toX ∧ p'.cascade.numStages = D.length := by
    rw [PFB.baseSetup_proto, ea]
    simp only
    rw [PFB.rest_apply]
    simp only
    rw [ha, et]
    simp only
    rw [hset]
    exact ⟨_, rfl, rfl, rfl⟩
  have e0 : PoleFilter.setup n call (PoleFilter.init S call.design.cls n) =
      (.ok (), { PoleFilter.init S call.design.cls n with base := p' }) := by
    rw [PoleFilter.setup_apply, Call.run_eq, if_neg (by rw [hord]; omega), hdes, hord]
    have : (PoleFilter.init S call.design.cls n : PoleFilter S XR).base = PoleFilter.initBase d.cls n := by
      rw [hcls]; rfl
    rw [this, e]
  obtain ⟨h1, h2⟩ := C12_history_partial hn1 hn h rfl (by rw [hord]; omega) (by rw [e0])
  rw [e0] at h2
  refine ⟨hDlen, (PoleFilter.setup n call f).2, Prod.ext h1 rfl, rfl, _, _, fun hg => ?_,
    h2.numStages.trans hns, h2.stages.trans hst⟩
  exact div_ne_zero hg.ne' (norm_ne_zero_iff.2 (div_ne_zero hnne hdne))

/-- On any object. -/
theorem Spec.reach_reversed {f : PoleFilter S XR} {call : Call XR} {d : Design XR} (hask : Asks call n o d)
    (h : Reach S T call.design.cls n f) {A : Analog}
    {w0 g0 : ℝ} (hp : IsProto d n o A w0 g0) {M : SMap} {m : ℕ} {w g : ℝ}
    (ht : TransformsOut d n A w0 g0 M m w g) (hm1 : 1 ≤ m) (hmn : m ≤ n * d.cls.mult) (hM : M.Reverses)
    (hw0 : 0 ≤ w) (hw1 : w ≤ Real.pi) (hZ : ratio A M (w / (2 * Real.pi)) ≠ 0) :
    ∃ f' D, PoleFilter.setup n call f = (.ok (), f') ∧ f'.states = f.states ∧ D.length = (m + 1) / 2 ∧
      Realises A M D ∧ PolesNe D ∧ ∃ s K, (0 < g → s ≠ 0) ∧ f'.getNumStages = D.length ∧
      f'.base.cascade.stages = (setSectionsR D K s).map toX := by
  have hn := hask.small
  have ho1 := hask.pos
  have hon := hask.le
  obtain ⟨la, ela, sla⟩ := hp.build.run (Cls.lay0_stored d.cls n)
  have hok := PFB.ok_init (R := XR) d.cls n
  obtain ⟨l, D, et, hR, hne, hl⟩ := ht la (PoleFilter.initBase d.cls n : PFB XR).digital sla
    (by rw [hok.digital.2, Cls.maxDigital_eq])
  obtain ⟨cden, hcden, hden⟩ := hR.den
  have hdne : denL D (circle (w / (2 * Real.pi)))⁻¹ ≠ 0 := by
    rw [hden]
    exact mul_ne_zero hcden (hM.P_ne hp.left (by rw [norm_inv, norm_circle]; norm_num))
  have hnne : numL D (circle (w / (2 * Real.pi)))⁻¹ ≠ 0 := by
    obtain ⟨rr, hrr, hratio⟩ := hR.norm_ratio
    intro h
    have := hratio (w / (2 * Real.pi))
    rw [h, zero_div, norm_zero] at this
    exact hZ ((mul_eq_zero.1 this.symm).resolve_left hrr.ne')
  obtain ⟨hlen, f', e, hs, hK⟩ := Spec.reach_core (oz := (o : ℤ)) (by omega) hn hask.design hask.order (by omega)
    (by omega) h ela hm1 hmn et hR.ok hl hw0 hw1 hdne hnne
  exact ⟨f', D, e, hs, hlen, hR, hne, hK⟩

/-- All poles outside; the output grows beyond all bounds. -/
theorem Spec.after_reversed {call : Call XR} {d : Design XR} (hask : Asks call n o d) {A : Analog}
    {w0 g0 : ℝ} (hp : IsProto d n o A w0 g0) {M : SMap} {m : ℕ} {w g : ℝ}
    (ht : TransformsOut d n A w0 g0 M m w g) (hm1 : 1 ≤ m) (hmn : m ≤ n * d.cls.mult) (hM : M.Reverses)
    (hw0 : 0 ≤ w) (hw1 : w ≤ Real.pi) (hg : 0 < g) (hZ : ratio A M (w / (2 * Real.pi)) ≠ 0) :
    AfterSetup S T n call fun f => OutsideFilter f ∧ (A.Apart → Diverges f) := by
  intro f hf
  obtain ⟨f', D, e, hs, hlen, hR, hne, s, K, hs0, hns, hst⟩ :=
    Spec.reach_reversed hask hf hp ht hm1 hmn hM hw0 hw1 hZ
  refine ⟨f', e, hs, ⟨by rw [hns, hlen]; omega, ?_⟩, fun hax => ?_⟩
  · rw [hst, hns, ← List.map_take]
    intro b hb
    obtain ⟨b', hb', rfl⟩ := List.mem_map.1 hb
    have h1 : b'.a0 = 1 := setSectionsR_a0 D K s b' (List.mem_of_mem_take hb')
    refine ⟨b'.plain, plain_has h1, ?_⟩
    refine setSectionsR_take (P := fun b => ∀ z : ℂ, b.plain.a0 * z ^ 2 + b.plain.a1 * z + b.plain.a2 = 0 → 1 < ‖z‖)
      (fun b hb => hb) (fun q hq z hz => ?_) b' hb'
    have hQ := hR.ok q hq
    have e : (q.sec.plain.a0 : ℂ) * z ^ 2 + q.sec.plain.a1 * z + q.sec.plain.a2 = (z - q.p1) * (z - q.p2) := by
      simp only [Quad.sec, pairB, plain]
      push_cast
      rw [hQ.poles.ofReal_sum, hQ.poles.ofReal_prod]; ring
    rw [e, mul_eq_zero, sub_eq_zero, sub_eq_zero] at hz
    obtain ⟨g1, g2⟩ := hR.pole_gt hM hp.left hne hq
    rcases hz with rfl | rfl <;> assumption
  · obtain ⟨q, hq⟩ : ∃ q, q ∈ D := List.exists_mem_of_ne_nil D (by rintro rfl; simp at hlen; omega)
    have hgt := (hR.pole_gt hM hp.left hne hq).1
    have h0 : q.p1 ≠ 0 := (hne q hq).1
    have ho1 := hask.pos
    have hon := hask.le
    have hreach : Reach S T call.design.cls n f' :=
      .call f f' (.setup call) (.ok ()) hf rfl e fun u h => by cases h
    refine hreach.diverges (by omega) hask.small (ks := (setSectionsR D K s).map Biquad.plain)
      (by rw [hst]; exact plain_hasSections (setSectionsR_a0 D K s)) hgt
      (setSections_uncancelled hR.ok (hs0 hg) hq h0 (by simp [Quad.den, h0]) ?_)
    obtain ⟨c, hc, hnum⟩ := hR.num
    obtain ⟨c', hc', hden⟩ := hR.den
    have hd0 : denL D q.p1⁻¹ = 0 := by
      unfold denL
      rw [List.prod_eq_zero_iff, List.mem_map]
      exact ⟨q, hq, by simp [Quad.den, h0]⟩
    rw [hnum]
    refine mul_ne_zero hc (hM.Z_ne hax (by rw [norm_inv]; exact inv_lt_one_of_one_lt₀ hgt) ?_)
    rw [hden] at hd0
    exact (mul_eq_zero.1 hd0).resolve_left hc'

/-! ## Band pass and band stop -/

theorem Analog.Left.ne_neg {A : Analog} (h : A.Left) {b : ℝ} (hb : b < 0) :
    (∀ k < A.n, A.pole k ≠ -(b : ℂ)) ∧ ∀ k < A.n, A.zero k ≠ some (-(b : ℂ)) := by
  refine ⟨fun k hk e => ?_, fun k hk e => ?_⟩
  · have := h.pole k hk
    rw [e] at this
    simp at this; linarith
  · have := h.zero k hk _ e
    simp at this; linarith

variable {call : Call XR} {d : Design XR} {A : Analog} {g0 fc fw : ℝ}

theorem ratio_ne {M : SMap} {f x y : ℝ} (h : M.At f x y) (h0 : A.mag x y ≠ 0) : ratio A M f ≠ 0 := by
  intro e
  have := ratio_sq (A := A) h
  rw [e] at this
  exact h0 (by rw [← this]; norm_num)

theorem Spec.reversed_bandPass (hask : Asks call n o d) (hp : IsProto d n o A (normW false) g0)
    (hd : d.trans = bandPassTransform (fin fc) (fin fw)) (hm : d.cls.mult = 2) (h : ReversedBand fc fw)
    (hr : A.BandRoots (1 / Real.tan (edgeHalf fc fw))) (hne : A.mag0 false ≠ 0) :
    AfterSetup S T n call fun f => OutsideFilter f ∧ (A.Apart → Diverges f) := by
  have hpi := Real.pi_pos
  have hon := hask.le
  have ho1 := hask.pos
  have hb : 1 / Real.tan (edgeHalf fc fw) < 0 := one_div_neg.2 h.tan_neg
  have hl := hp.left.ne_neg hb
  refine Spec.after_reversed hask hp (m := 2 * o) (w := bandCentre fc fw) (g := g0)
    (M := bpMap (bandA fc fw) (1 / Real.tan (edgeHalf fc fw))) ?_ (by omega) (by rw [hm]; omega)
    (bpMap_reverses h.abs_bandA hb) (bandCentre_nonneg _ _) (bandCentre_lt _ _).le hp.gain
    (ratio_ne (bpMap_at _ _ _) ?_)
  · intro a l ha hl'
    rw [hm] at hl' ⊢
    rw [hd, ← hp.n_eq]
    obtain ⟨l', D, e, hR, hn', hs⟩ := Spec.bandPassTransform_gen hp.sym ha h.fc_pos.le h.fc_lt h.cos_pos h.tan_neg.ne hr
      (fun _ => ⟨hl.1 _ (by rw [hp.n_eq]; omega), hl.2 _ (by rw [hp.n_eq]; omega)⟩) hl' (by rw [hp.n_eq]; omega)
    refine ⟨l', D, e, hR, hn' hl.1, ?_⟩
    simp only [normW, Bool.false_eq_true, if_false] at hs
    rwa [bandCentre_fin' h.edgeHi_pos h.edgeLo_lt] at hs
  · rw [show 2 * Real.pi * (bandCentre fc fw / (2 * Real.pi)) = bandCentre fc fw by field_simp,
      h.cos_centre, sub_self, mul_zero]
    have hs : Real.sin (bandCentre fc fw) ≠ 0 :=
      (Real.sin_pos_of_pos_of_lt_pi h.centre_pos (bandCentre_lt _ _)).ne'
    have := A.mag_smul hs 0 1
    rw [mul_zero, mul_one] at this
    rw [this]; exact hne

theorem Spec.reversed_bandStop (hask : Asks call n o d) {sh : Bool} (hp : IsProto d n o A (normW sh) g0)
    (hd : d.trans = bandStopTransform (fin fc) (fin fw)) (hm : d.cls.mult = 2) (h : ReversedBand fc fw)
    (hr : A.BandRoots (Real.tan (edgeHalf fc fw))) (hne : A.mag0 false ≠ 0) :
    AfterSetup S T n call fun f => OutsideFilter f ∧ (A.Apart → Diverges f) := by
  have hpi := Real.pi_pos
  have hon := hask.le
  have ho1 := hask.pos
  have ha := abs_lt.1 h.abs_bandA
  have hb := h.tan_neg
  have hl := hp.left.ne_neg hb
  refine Spec.after_reversed hask hp (m := 2 * o) (w := if fc < 1 / 4 then Real.pi else 0) (g := g0)
    (M := bsMap (bandA fc fw) (Real.tan (edgeHalf fc fw))) ?_ (by omega) (by rw [hm]; omega)
    (bsMap_reverses h.abs_bandA hb) (by split_ifs <;> linarith) (by split_ifs <;> linarith) hp.gain
    (ratio_ne (bsMap_at _ _ _) ?_)
  · intro a l ha hl'
    rw [hm] at hl' ⊢
    rw [hd, ← hp.n_eq]
    obtain ⟨l', D, e, hR, hn', hs⟩ := Spec.bandStopTransform_gen hp.sym ha h.fc_pos.le h.fc_lt h.cos_pos hr
      (fun _ => ⟨hl.1 _ (by rw [hp.n_eq]; omega), hl.2 _ (by rw [hp.n_eq]; omega)⟩) hl' (by rw [hp.n_eq]; omega)
    exact ⟨l', D, e, hR, hn' hl.1, hs⟩
  · by_cases hq : fc < 1 / 4
    · rw [if_pos hq, show 2 * Real.pi * (Real.pi / (2 * Real.pi)) = Real.pi by field_simp, Real.sin_pi,
        Real.cos_pi, mul_zero]
      have := A.mag_smul (c := -1 - bandA fc fw) (by linarith) 0 1
      rw [mul_zero, mul_one] at this
      rw [this]; exact hne
    · rw [if_neg hq, zero_div, mul_zero, Real.sin_zero, Real.cos_zero, mul_zero]
      have := A.mag_smul (c := 1 - bandA fc fw) (by linarith) 0 1
      rw [mul_zero, mul_one] at this
      rw [this]; exact hne

theorem Spec.reversed_bandShelf (hask : Asks call n o d) {sh : Bool} (hp : IsProto d n o A (normW sh) g0)
    (hd : d.trans = bandShelfTransform (fin fc) (fin fw)) (hm : d.cls.mult = 2) (h : ReversedBand fc fw)
    (hr : A.BandRoots (1 / Real.tan (edgeHalf fc fw))) (hne : A.mag0 true ≠ 0) :
    AfterSetup S T n call fun f => OutsideFilter f ∧ (A.Apart → Diverges f) := by
  have hpi := Real.pi_pos
  have hon := hask.le
  have ho1 := hask.pos
  have ha := abs_lt.1 h.abs_bandA
  have hb : 1 / Real.tan (edgeHalf fc fw) < 0 := one_div_neg.2 h.tan_neg
  have hl := hp.left.ne_neg hb
  refine Spec.after_reversed hask hp (m := 2 * o) (w := if fc < 1 / 4 then Real.pi else 0) (g := 1)
    (M := bpMap (bandA fc fw) (1 / Real.tan (edgeHalf fc fw))) ?_ (by omega) (by rw [hm]; omega)
    (bpMap_reverses h.abs_bandA hb) (by split_ifs <;> linarith) (by split_ifs <;> linarith) one_pos
    (ratio_ne (bpMap_at _ _ _) ?_)
  · intro a l ha hl'
    rw [hm] at hl' ⊢
    rw [hd, ← hp.n_eq]
    obtain ⟨l1, D, e1, hR, hn', s1⟩ := Spec.bandPassTransform_gen hp.sym ha h.fc_pos.le h.fc_lt h.cos_pos h.tan_neg.ne hr
      (fun _ => ⟨hl.1 _ (by rw [hp.n_eq]; omega), hl.2 _ (by rw [hp.n_eq]; omega)⟩) hl' (by rw [hp.n_eq]; omega)
    obtain ⟨l2, e3, s2⟩ := (done_setNormal (fin (if fc < 1 / 4 then Real.pi else 0)) (fin 1)).run s1
    refine ⟨l2, D, ?_, hR, hn' hl.1, s2⟩
    have e4 : (if flt (fin fc) (0.25 : XR) then (FArith.pi : XR) else 0) =
        fin (if fc < 1 / 4 then Real.pi else 0) := by
      rw [lit_sci, flt_fin]
      by_cases h : fc < 1 / 4
      · rw [if_pos (by norm_num at h ⊢; exact h), if_pos h, pi_eq]
      · rw [if_neg (by norm_num at h ⊢; exact h), if_neg h, lit_zero]
    unfold bandShelfTransform
    simp only [bind_def, e1, e4, lit_one, e3]
  · by_cases hq : fc < 1 / 4
    · rw [if_pos hq, show 2 * Real.pi * (Real.pi / (2 * Real.pi)) = Real.pi by field_simp, Real.sin_pi,
        Real.cos_pi]
      have := A.mag_smul (c := 1 / Real.tan (edgeHalf fc fw) * (bandA fc fw - -1))
        (mul_ne_zero hb.ne (by linarith)) 1 0
      rw [mul_zero, mul_one] at this
      rw [this]; exact hne
    · rw [if_neg hq, zero_div, mul_zero, Real.sin_zero, Real.cos_zero]
      have := A.mag_smul (c := 1 / Real.tan (edgeHalf fc fw) * (bandA fc fw - 1))
        (mul_ne_zero hb.ne (by linarith)) 1 0
      rw [mul_zero, mul_one] at this
      rw [this]; exact hne

end
end Iir
