import Verif.Exact.Transform
import Verif.Exact.Pair
import Verif.Lemmas.Response
import Verif.Props.RBJ

/-! # From the transformed roots to sections, response and stability (exact arithmetic) -/

namespace Iir
open FArith Cx Exec Spec XR Finset Biquad Cascade

noncomputable section

local notation "conjC" => starRingEnd ℂ

/-! ## The maps take the unit disk to the right half plane -/

/-- `X / Y` has non-negative real part for `|q| ≤ 1`. -/
def SMap.Contracts (M : SMap) : Prop :=
  ∀ q : ℂ, ‖q‖ ≤ 1 → 0 ≤ (M.X q * conjC (M.Y q)).re ∧ ¬ (M.X q = 0 ∧ M.Y q = 0)

theorem normSq_le_one {q : ℂ} (h : ‖q‖ ≤ 1) : q.re ^ 2 + q.im ^ 2 ≤ 1 := by
  have h2 : ‖q‖ ^ 2 = q.re ^ 2 + q.im ^ 2 := by rw [← Complex.normSq_eq_norm_sq, Complex.normSq_apply]; ring
  have := norm_nonneg q
  nlinarith

theorem lpMap_contracts {f : ℝ} (hf : 0 < f) : (lpMap f).Contracts := by
  intro q hq
  have := normSq_le_one hq
  constructor
  · have e : ((lpMap f).X q * conjC ((lpMap f).Y q)).re = f * (1 - (q.re ^ 2 + q.im ^ 2)) := by
      simp [lpMap]; ring
    rw [e]
    exact mul_nonneg hf.le (by linarith)
  · rintro ⟨h1, h2⟩
    simp only [lpMap] at h1 h2
    have hq1 : q = 1 := by linear_combination -h1
    subst hq1
    have hf' : (f : ℂ) ≠ 0 := by exact_mod_cast hf.ne'
    have : (f : ℂ) * (1 + 1) ≠ 0 := mul_ne_zero hf' (by norm_num)
    exact this h2

theorem hpMap_contracts {f : ℝ} (hf : 0 < f) : (hpMap f).Contracts := by
  intro q hq
  have := normSq_le_one hq
  constructor
  · have e : ((hpMap f).X q * conjC ((hpMap f).Y q)).re = f * (1 - (q.re ^ 2 + q.im ^ 2)) := by
      simp [hpMap]; ring
    rw [e]
    exact mul_nonneg hf.le (by linarith)
  · rintro ⟨h1, h2⟩
    simp only [hpMap] at h1 h2
    have hq1 : q = -1 := by linear_combination h1
    subst hq1
    have hf' : (f : ℂ) ≠ 0 := by exact_mod_cast hf.ne'
    have : (f : ℂ) * (1 - -1) ≠ 0 := mul_ne_zero hf' (by norm_num)
    exact this h2

theorem band_aux {a : ℝ} (ha : |a| < 1) {q : ℂ} (hq : ‖q‖ ≤ 1) :
    0 ≤ (1 - (q.re ^ 2 + q.im ^ 2)) * (1 + (q.re ^ 2 + q.im ^ 2) - 2 * a * q.re) := by
  have h1 := normSq_le_one hq
  have h2 := abs_lt.1 ha
  refine mul_nonneg (by linarith) ?_
  nlinarith [sq_nonneg (q.re - a), sq_nonneg q.im]

theorem band_zeros {a : ℝ} (ha : |a| < 1) {q : ℂ} (h1 : 1 - 2 * (a : ℂ) * q + q ^ 2 = 0)
    (h2 : 1 - q ^ 2 = 0) : False := by
  have h3 : (a : ℂ) * q = 1 := by linear_combination (-1 / 2 : ℂ) * h1 - (1 / 2 : ℂ) * h2
  have h4 : (a : ℂ) * a = 1 := by
    have : (a : ℂ) * q * (a * q) = 1 := by rw [h3]; norm_num
    linear_combination this + (a : ℂ) ^ 2 * h2
  have h5 : a * a = 1 := by exact_mod_cast h4
  have := abs_lt.1 ha
  nlinarith

theorem bpMap_contracts {a b : ℝ} (ha : |a| < 1) (hb : 0 < b) : (bpMap a b).Contracts := by
  intro q hq
  have hbC : (b : ℂ) ≠ 0 := by exact_mod_cast hb.ne'
  constructor
  · have e : ((bpMap a b).X q * conjC ((bpMap a b).Y q)).re =
        b * ((1 - (q.re ^ 2 + q.im ^ 2)) * (1 + (q.re ^ 2 + q.im ^ 2) - 2 * a * q.re)) := by
      simp [bpMap, sq]; ring
    rw [e]
    exact mul_nonneg hb.le (band_aux ha hq)
  · rintro ⟨h1, h2⟩
    simp only [bpMap] at h1 h2
    exact band_zeros ha ((mul_eq_zero.1 h1).resolve_left hbC) h2

theorem bsMap_contracts {a b : ℝ} (ha : |a| < 1) (hb : 0 < b) : (bsMap a b).Contracts := by
  intro q hq
  have hbC : (b : ℂ) ≠ 0 := by exact_mod_cast hb.ne'
  constructor
  · have e : ((bsMap a b).X q * conjC ((bsMap a b).Y q)).re =
        b * ((1 - (q.re ^ 2 + q.im ^ 2)) * (1 + (q.re ^ 2 + q.im ^ 2) - 2 * a * q.re)) := by
      simp [bsMap, sq]; ring
    rw [e]
    exact mul_nonneg hb.le (band_aux ha hq)
  · rintro ⟨h1, h2⟩
    simp only [bsMap] at h1 h2
    exact band_zeros ha h2 ((mul_eq_zero.1 h1).resolve_left hbC)

theorem SMap.Contracts.P_ne {M : SMap} (hM : M.Contracts) {A : Analog} (hA : A.Left) {q : ℂ} (hq : ‖q‖ ≤ 1) :
    A.P (M.X q) (M.Y q) ≠ 0 := by
  rw [Analog.P, Finset.prod_ne_zero_iff]
  intro k hk h
  rw [mem_range] at hk
  have hp := hA.pole k hk
  obtain ⟨h1, h2⟩ := hM q hq
  have hX : M.X q = A.pole k * M.Y q := by
    simp only [form] at h; linear_combination h
  rw [hX, mul_assoc, Complex.mul_conj, Complex.re_mul_ofReal] at h1
  have hY : Complex.normSq (M.Y q) = 0 := by
    have := Complex.normSq_nonneg (M.Y q)
    nlinarith
  rw [Complex.normSq_eq_zero] at hY
  exact h2 ⟨by rw [hX, hY, mul_zero], hY⟩

theorem Realises.pole_lt {A : Analog} {M : SMap} {D : List Quad} (h : Realises A M D) (hM : M.Contracts)
    (hA : A.Left) {d : Quad} (hd : d ∈ D) : ‖d.p1‖ < 1 ∧ ‖d.p2‖ < 1 := by
  obtain ⟨c, hc, e⟩ := h.den
  have key : ∀ p : ℂ, p ≠ 0 → d.den p⁻¹ = 0 → ‖p‖ < 1 := by
    intro p hp0 hz
    by_contra hge
    have hq : ‖p⁻¹‖ ≤ 1 := by rw [norm_inv]; exact inv_le_one_of_one_le₀ (not_lt.1 hge)
    have h1 := e p⁻¹
    have h2 : denL D p⁻¹ = 0 := by
      unfold denL
      rw [List.prod_eq_zero_iff, List.mem_map]
      exact ⟨d, hd, hz⟩
    rw [h2] at h1
    exact mul_ne_zero hc (hM.P_ne hA hq) h1.symm
  constructor
  · by_cases h0 : d.p1 = 0
    · rw [h0]; simp
    · exact key _ h0 (by simp [Quad.den, h0])
  · by_cases h0 : d.p2 = 0
    · rw [h0]; simp
    · exact key _ h0 (by simp [Quad.den, h0])

/-! ## Sections -/

def Quad.sec (d : Quad) : Biquad ℝ := pairB d.p1 d.p2 d.z1 d.z2

def identC : Biquad ℝ := { a0 := 1, a1 := 0, a2 := 0, b1 := 0, b2 := 0, b0 := 1 }

theorem identB_toX : identC.toX = identX := rfl

def scaledB (k : ℝ) (b : Biquad ℝ) : Biquad ℝ := { b with b0 := b.b0 * k, b1 := b.b1 * k, b2 := b.b2 * k }

theorem scaled_toX (k : ℝ) (b : Biquad ℝ) : scaled (fin k) b.toX = (scaledB k b).toX := by
  simp [scaled, toX, scaledB]

theorem scaledB_numQ (k : ℝ) (b : Biquad ℝ) (q : ℂ) : (scaledB k b).numQ q = k * b.numQ q := by
  simp only [scaledB, numQ]; push_cast; ring

theorem scaledB_denQ (k : ℝ) (b : Biquad ℝ) (q : ℂ) : (scaledB k b).denQ q = b.denQ q := rfl

theorem Quad.Ok.numQ {d : Quad} (h : d.Ok) (q : ℂ) : d.sec.numQ q = d.num q := by
  simp only [Quad.sec, pairB, Biquad.numQ]
  push_cast
  rw [h.zeros.ofReal_sum, h.zeros.ofReal_prod]
  simp only [Quad.num]; ring

theorem Quad.Ok.denQ {d : Quad} (h : d.Ok) (q : ℂ) : d.sec.denQ q = d.den q := by
  simp only [Quad.sec, pairB, Biquad.denQ]
  push_cast
  rw [h.poles.ofReal_sum, h.poles.ofReal_prod]
  simp only [Quad.den]; ring

theorem numL_secs {D : List Quad} (h : ∀ d ∈ D, d.Ok) (q : ℂ) :
    ((D.map Quad.sec).map (Biquad.numQ · q)).prod = numL D q := by
  unfold numL
  rw [List.map_map]
  congr 1
  exact List.map_congr_left fun d hd => (h d hd).numQ q

theorem denL_secs {D : List Quad} (h : ∀ d ∈ D, d.Ok) (q : ℂ) :
    ((D.map Quad.sec).map (Biquad.denQ · q)).prod = denL D q := by
  unfold denL
  rw [List.map_map]
  congr 1
  exact List.map_congr_left fun d hd => (h d hd).denQ q

theorem pairR_quad {d : Quad} (h : d.Ok) : pairR d.toX = .ok d.sec.toX := pairR_ofC h.poles h.zeros

theorem placePairs_quads {D : List Quad} (h : ∀ d ∈ D, d.Ok) (bs : List (Biquad XR)) (hl : D.length ≤ bs.length) :
    placePairs (D.map Quad.toX) bs = (.ok (), (D.map Quad.sec).map toX ++ bs.drop D.length) := by
  induction D generalizing bs with
  | nil => cases bs <;> rfl
  | cons d D ih =>
    cases bs with
    | nil => simp at hl
    | cons b bs =>
      have := ih (fun d hd => h d (List.mem_cons_of_mem _ hd)) bs (by simpa using hl)
      simp only [List.map_cons, placePairs, pairR_quad (h d List.mem_cons_self), this, List.cons_append,
        List.length_cons, List.drop_succ_cons]

theorem stableSection_of {b : Biquad ℝ} (h0 : b.a0 = 1)
    (h : ∀ z : ℂ, z ^ 2 + b.a1 * z + b.a2 = 0 → ‖z‖ < 1) : StableSection b.toX := by
  refine ⟨⟨1, b.a1, b.a2, b.b0, b.b1, b.b2⟩, ⟨?_, ?_, ?_, ?_, ?_, ?_, one_ne_zero⟩, fun z hz => h z ?_⟩
  · simp [getA0, toX, h0]
  · simp [getA1, toX, h0]
  · simp [getA2, toX, h0]
  · simp [getB0, toX, h0]
  · simp [getB1, toX, h0]
  · simp [getB2, toX, h0]
  · simpa using hz

theorem Quad.sec_stable {d : Quad} (h : d.Ok) (h1 : ‖d.p1‖ < 1) (h2 : ‖d.p2‖ < 1) (k : ℝ) :
    StableSection (scaledB k d.sec).toX := by
  refine stableSection_of rfl fun z hz => ?_
  have e : z ^ 2 + ((scaledB k d.sec).a1 : ℂ) * z + (scaledB k d.sec).a2 = (z - d.p1) * (z - d.p2) := by
    simp only [scaledB, Quad.sec, pairB]
    push_cast
    rw [h.poles.ofReal_sum, h.poles.ofReal_prod]; ring
  rw [e, mul_eq_zero, sub_eq_zero, sub_eq_zero] at hz
  rcases hz with rfl | rfl <;> assumption

theorem identX_stable : StableSection identX := by
  rw [← identB_toX]
  refine stableSection_of rfl fun z hz => ?_
  have : z = 0 := by simpa [identC] using hz
  rw [this]; simp

/-! ## `setLayout` -/

/-- `|Z / P|` at the normalised frequency `f` -/
def ratio (A : Analog) (M : SMap) (f : ℝ) : ℝ :=
  ‖A.Z (M.X (circle f)⁻¹) (M.Y (circle f)⁻¹)‖ / ‖A.P (M.X (circle f)⁻¹) (M.Y (circle f)⁻¹)‖

/-- `Z / P` at the normalised frequency `f` -/
def quot (A : Analog) (M : SMap) (f : ℝ) : ℂ :=
  A.Z (M.X (circle f)⁻¹) (M.Y (circle f)⁻¹) / A.P (M.X (circle f)⁻¹) (M.Y (circle f)⁻¹)

theorem norm_quot (A : Analog) (M : SMap) (f : ℝ) : ‖quot A M f‖ = ratio A M f := norm_div _ _

/-- What a design gives: stable sections, and the response of the prototype at the image of the frequency, scaled
by a positive factor to gain `g` at angular frequency `w`. -/
structure Designed (A : Analog) (M : SMap) (w g : ℝ) (len : ℕ) (c : Cascade XR) : Prop where
  numStages : c.numStages = len
  stable : ∀ b ∈ c.stages, StableSection b
  response : ∀ f : ℝ, 0 ≤ f → f ≤ 1 / 2 → c.response (fin f) =
    .ok (ofC (g / ratio A M (w / (2 * Real.pi)) * quot A M f))

theorem Realises.norm_ratio {A : Analog} {M : SMap} {D : List Quad} (h : Realises A M D) :
    ∃ r : ℝ, 0 < r ∧ ∀ f, ‖numL D (circle f)⁻¹ / denL D (circle f)⁻¹‖ = r * ratio A M f := by
  obtain ⟨c, hc, e⟩ := h.den
  obtain ⟨c', hc', e'⟩ := h.num
  refine ⟨‖c'‖ / ‖c‖, div_pos (norm_pos_iff.2 hc') (norm_pos_iff.2 hc), fun f => ?_⟩
  rw [e, e', norm_div, norm_mul, norm_mul, ratio, mul_div_mul_comm]

/-! ### The factor is positive -/

/-- A product over roots in the closed left half plane, conjugate in pairs, is non-negative where `X, Y ≥ 0`. -/
theorem prod_form_nonneg {n : ℕ} {r : ℕ → Option ℂ} (hs : ∀ k < n, r (n - 1 - k) = conjO (r k))
    (hl : ∀ k < n, ∀ z, r k = some z → z.re ≤ 0) {X Y : ℝ} (hX : 0 ≤ X) (hY : 0 ≤ Y) :
    ∃ v : ℝ, 0 ≤ v ∧ ∏ k ∈ range n, form (r k) X Y = v := by
  have hpair : ∀ k < n, form (r k) X Y * form (r (n - 1 - k)) X Y = ((Complex.normSq (form (r k) X Y) : ℝ) : ℂ) := by
    intro k hk
    have h := form_conj (r k) X Y
    rw [Complex.conj_ofReal, Complex.conj_ofReal] at h
    rw [hs k hk, h, Complex.mul_conj]
  have hmid : n % 2 = 1 → ∃ v : ℝ, 0 ≤ v ∧ form (r (n / 2)) X Y = v := by
    intro ho
    have h1 := hs (n / 2) (by omega)
    rw [show n - 1 - n / 2 = n / 2 by omega] at h1
    have h2 := hl (n / 2) (by omega)
    revert h1 h2
    cases r (n / 2) with
    | none => exact fun _ _ => ⟨Y, hY, rfl⟩
    | some z =>
      intro h1 h2
      have h3 := h2 z rfl
      rw [conjO_some, Option.some.injEq] at h1
      have him : z.im = 0 := by
        have := congrArg Complex.im h1
        simp at this; linarith
      refine ⟨X - z.re * Y, by nlinarith, ?_⟩
      simp only [form]
      apply Complex.ext <;> simp [him]
  have hprod : ∏ k ∈ range (n / 2), form (r k) X Y * form (r (n - 1 - k)) X Y =
      ((∏ k ∈ range (n / 2), Complex.normSq (form (r k) X Y) : ℝ) : ℂ) := by
    rw [Complex.ofReal_prod]
    refine prod_congr rfl fun k hk => hpair k ?_
    rw [mem_range] at hk; omega
  have hnn : 0 ≤ ∏ k ∈ range (n / 2), Complex.normSq (form (r k) X Y) :=
    prod_nonneg fun k _ => Complex.normSq_nonneg _
  rw [prod_range_pairs, hprod]
  split_ifs with ho
  · obtain ⟨v, hv, e⟩ := hmid ho
    exact ⟨_, mul_nonneg hnn hv, by rw [e, Complex.ofReal_mul]⟩
  · exact ⟨_, hnn, by rw [mul_one]⟩

theorem form_smul (r : Option ℂ) (c X Y : ℂ) : form r (c * X) (c * Y) = c * form r X Y := by
  cases r <;> simp only [form]; ring

theorem Analog.P_smul (A : Analog) (c X Y : ℂ) : A.P (c * X) (c * Y) = c ^ A.n * A.P X Y := by
  simp only [Analog.P, form_smul, prod_mul_distrib, prod_const, card_range]

theorem Analog.Z_smul (A : Analog) (c X Y : ℂ) : A.Z (c * X) (c * Y) = c ^ A.n * A.Z X Y := by
  simp only [Analog.Z, form_smul, prod_mul_distrib, prod_const, card_range]

/-- `Z / P` is non-negative on the non-negative real axis of the s plane. -/
theorem Analog.quot_nonneg {A : Analog} (hs : A.Sym) (hl : A.Left) {X Y : ℝ} (h : 0 ≤ X * Y) :
    ∃ v : ℝ, 0 ≤ v ∧ A.Z X Y / A.P X Y = v := by
  have key : ∀ X Y : ℝ, 0 ≤ X → 0 ≤ Y → ∃ v : ℝ, 0 ≤ v ∧ A.Z X Y / A.P X Y = v := by
    intro X Y hX hY
    obtain ⟨v, hv, e⟩ := prod_form_nonneg (r := A.zero) hs.zero hl.zero hX hY
    obtain ⟨v', hv', e'⟩ := prod_form_nonneg (r := fun k => some (A.pole k))
      (fun k hk => by rw [hs.pole k hk]; rfl)
      (fun k hk z hz => by rw [← Option.some.inj hz]; exact (hl.pole k hk).le) hX hY
    exact ⟨v / v', div_nonneg hv hv', by rw [Analog.Z, e, Analog.P, e', Complex.ofReal_div]⟩
  rcases mul_nonneg_iff.1 h with ⟨hX, hY⟩ | ⟨hX, hY⟩
  · exact key X Y hX hY
  · obtain ⟨v, hv, e⟩ := key (-X) (-Y) (by linarith) (by linarith)
    refine ⟨v, hv, ?_⟩
    rw [← e, show ((-X : ℝ) : ℂ) = -1 * X by push_cast; ring, show ((-Y : ℝ) : ℂ) = -1 * Y by push_cast; ring,
      A.Z_smul, A.P_smul, mul_div_mul_left _ _ (pow_ne_zero _ (by norm_num))]

theorem numL_zero (D : List Quad) : numL D 0 = 1 := by
  unfold numL
  exact List.prod_eq_one fun x hx => by
    obtain ⟨d, -, rfl⟩ := List.mem_map.1 hx
    simp [Quad.num]

theorem denL_zero (D : List Quad) : denL D 0 = 1 := by
  unfold denL
  exact List.prod_eq_one fun x hx => by
    obtain ⟨d, -, rfl⟩ := List.mem_map.1 hx
    simp [Quad.den]

theorem Realises.quot_eq {A : Analog} {M : SMap} {D : List Quad} (h : Realises A M D) (hM : M.Contracts)
    (hs : A.Sym) (hl : A.Left) :
    ∃ r : ℝ, 0 < r ∧ ∀ f, numL D (circle f)⁻¹ / denL D (circle f)⁻¹ = r * quot A M f := by
  obtain ⟨c, hc, e⟩ := h.den
  obtain ⟨c', hc', e'⟩ := h.num
  have hre : ∀ F : ℂ → ℂ, (∀ q, F (conjC q) = conjC (F q)) → F 0 = ((F 0).re : ℂ) := by
    intro F hF
    have h0 := hF 0
    rw [map_zero] at h0
    have := congrArg Complex.im h0
    refine Complex.ext rfl ?_
    simp at this ⊢; linarith
  have hX := hre M.X M.conj_X
  have hY := hre M.Y M.conj_Y
  have hpos := (hM 0 (by simp)).1
  rw [hX, hY, Complex.conj_ofReal, ← Complex.ofReal_mul, Complex.ofReal_re] at hpos
  obtain ⟨v, hv, ev⟩ := Analog.quot_nonneg hs hl hpos
  rw [← hX, ← hY] at ev
  have e0 : denL D 0 = c * A.P (M.X 0) (M.Y 0) := e 0
  have e0' : numL D 0 = c' * A.Z (M.X 0) (M.Y 0) := e' 0
  rw [denL_zero] at e0
  rw [numL_zero] at e0'
  have hP : A.P (M.X 0) (M.Y 0) ≠ 0 := fun h => by rw [h, mul_zero] at e0; exact one_ne_zero e0
  have hZ : A.Z (M.X 0) (M.Y 0) ≠ 0 := fun h => by rw [h, mul_zero] at e0'; exact one_ne_zero e0'
  have hv0 : v ≠ 0 := fun h => by
    rw [h, Complex.ofReal_zero] at ev
    exact div_ne_zero hZ hP ev
  have hcc : c' / c = ((1 / v : ℝ) : ℂ) := by
    rw [Complex.ofReal_div, Complex.ofReal_one, ← ev, one_div_div, div_eq_div_iff hc hZ, ← e0', mul_comm, e0]
  refine ⟨1 / v, one_div_pos.2 (lt_of_le_of_ne hv hv0.symm), fun f => ?_⟩
  rw [e, e', quot, mul_div_mul_comm, hcc]

/-- The cascade that `setLayout` leaves for the roots `D` and the gain `g` at the normalised frequency `f0`. -/
def setSections (D : List Quad) (K : ℕ) (g f0 : ℝ) : Cascade XR :=
  Cascade.mk D.length K (((D.map Quad.sec ++ List.replicate (K - D.length) identC).modify 0
    (scaledB (g / ‖numL D (circle f0)⁻¹ / denL D (circle f0)⁻¹‖))).map toX)

/-- `setLayout` on matched roots, none of them at the frequency of normalisation. -/
theorem Spec.setLayout_core {D : List Quad} (hok : ∀ d ∈ D, d.Ok) (hD : D ≠ []) {l : Layout XR} {m L : ℕ} {w g : ℝ}
    (hl : l.Stored (D.map Quad.toX) m L (fin w) (fin g)) (hmL : (m + 1) / 2 ≤ L) (hw0 : 0 ≤ w) (hw1 : w ≤ Real.pi)
    (hdne : denL D (circle (w / (2 * Real.pi)))⁻¹ ≠ 0) (hnne : numL D (circle (w / (2 * Real.pi)))⁻¹ ≠ 0)
    {c : Cascade XR} {K : ℕ} (hc : c.Ok K) (hK : D.length ≤ K) :
    setLayout l c = (.ok (), setSections D K g (w / (2 * Real.pi))) := by
  have hDlen : D.length = (m + 1) / 2 := by
    have := congrArg List.length hl.pairs
    rw [List.length_take, hl.length, List.length_map] at this
    omega
  have hpi := Real.pi_pos
  set f0 := w / (2 * Real.pi) with hf0
  have hf00 : 0 ≤ f0 := by positivity
  have hf01 : f0 ≤ 1 / 2 := by rw [hf0, div_le_div_iff₀ (by positivity) (by norm_num)]; linarith
  unfold setSections
  set bs : List (Biquad ℝ) := D.map Quad.sec ++ List.replicate (K - D.length) identC with hbs
  have hbsX : bs.map toX = (D.map Quad.sec).map toX ++ List.replicate (K - D.length) identX := by
    rw [hbs, List.map_append, List.map_replicate, identB_toX]
  have ha0 : ∀ b ∈ bs, b.a0 ≠ 0 := by
    intro b hb
    rw [hbs, List.mem_append, List.mem_map] at hb
    rcases hb with ⟨d, -, rfl⟩ | hb
    · exact one_ne_zero
    · rw [(List.mem_replicate.1 hb).2]; exact one_ne_zero
  have htake : bs.take D.length = D.map Quad.sec := by
    rw [hbs, List.take_append_of_le_length (by simp), List.take_of_length_le (by simp)]
  have hlen : bs.length = K := by simp [hbs]; omega
  -- response before normalisation
  have hresp : Cascade.response (Cascade.mk D.length K (bs.map toX)) (fin w / (2 * FArith.pi)) =
      .ok (ofC (numL D (circle f0)⁻¹ / denL D (circle f0)⁻¹)) := by
    have e : (fin w / (2 * FArith.pi) : XR) = fin f0 := by
      rw [lit_ofNat, pi_eq, fin_mul, fin_div _ (by positivity)]
    rw [e, Cascade.response_toX ha0 rfl (by simp only; omega) hf00 hf01]
    simp only
    rw [htake, numL_secs hok, denL_secs hok, cdiv_ofC _ hdne]
  rw [setLayout_eq hc identR_exact (by rw [hl.numPoles, hl.length]; exact hmL) (by rw [hl.numPoles]; omega)]
  rw [hl.numPoles, hl.pairs, ← hDlen, placePairs_quads hok _ (by simpa using hK), List.drop_replicate, ← hbsX,
    hl.normalW, hl.normalGain]
  simp only [finish]
  rw [hresp]
  simp only
  rw [cabs_ofC, fin_div _ (norm_ne_zero_iff.2 (div_ne_zero hnne hdne)),
    if_neg (by have := List.length_pos_iff.2 hD; omega)]
  congr 2
  cases bs with
  | nil => rfl
  | cons b bs => simp [scaled_toX]

theorem Spec.setLayout_exact {A : Analog} {M : SMap} {D : List Quad} (hR : Realises A M D) (hM : M.Contracts)
    (hsym : A.Sym) (hA : A.Left) (hD : D ≠ []) {l : Layout XR} {m L : ℕ} {w g : ℝ}
    (hl : l.Stored (D.map Quad.toX) m L (fin w) (fin g)) (hmL : (m + 1) / 2 ≤ L) (hw0 : 0 ≤ w) (hw1 : w ≤ Real.pi)
    (hZ : ratio A M (w / (2 * Real.pi)) ≠ 0) {c : Cascade XR} {K : ℕ} (hc : c.Ok K) (hK : D.length ≤ K) :
    ∃ c', setLayout l c = (.ok (), c') ∧ Designed A M w g D.length c' := by
  have hDlen : D.length = (m + 1) / 2 := by
    have := congrArg List.length hl.pairs
    rw [List.length_take, hl.length, List.length_map] at this
    omega
  have hpi := Real.pi_pos
  set f0 := w / (2 * Real.pi) with hf0
  have hf00 : 0 ≤ f0 := by positivity
  have hf01 : f0 ≤ 1 / 2 := by rw [hf0, div_le_div_iff₀ (by positivity) (by norm_num)]; linarith
  obtain ⟨rr, hrr, hquot⟩ := hR.quot_eq hM hsym hA
  have hratio : ∀ f, ‖numL D (circle f)⁻¹ / denL D (circle f)⁻¹‖ = rr * ratio A M f := fun f => by
    rw [hquot, norm_mul, Complex.norm_real, Real.norm_eq_abs, abs_of_pos hrr, norm_quot]
  obtain ⟨cden, hcden, hden⟩ := hR.den
  have hdne : ∀ f, denL D (circle f)⁻¹ ≠ 0 := fun f => by
    rw [hden]
    exact mul_ne_zero hcden (hM.P_ne hA (by rw [norm_inv, norm_circle]; norm_num))
  have hnne : numL D (circle f0)⁻¹ ≠ 0 := by
    intro h
    have := hratio f0
    rw [h, zero_div, norm_zero] at this
    exact hZ ((mul_eq_zero.1 this.symm).resolve_left hrr.ne')
  have hset := Spec.setLayout_core hR.ok hD hl hmL hw0 hw1 (hdne f0) hnne hc hK
  unfold setSections at hset
  rw [hratio] at hset
  set bs : List (Biquad ℝ) := D.map Quad.sec ++ List.replicate (K - D.length) identC with hbs
  have ha0 : ∀ b ∈ bs, b.a0 ≠ 0 := by
    intro b hb
    rw [hbs, List.mem_append, List.mem_map] at hb
    rcases hb with ⟨d, -, rfl⟩ | hb
    · exact one_ne_zero
    · rw [(List.mem_replicate.1 hb).2]; exact one_ne_zero
  have htake : bs.take D.length = D.map Quad.sec := by
    rw [hbs, List.take_append_of_le_length (by simp), List.take_of_length_le (by simp)]
  have hq0 : ratio A M f0 > 0 := lt_of_le_of_ne (by unfold ratio; positivity) (Ne.symm hZ)
  -- the gain factor
  set k : ℝ := g / (rr * ratio A M f0) with hk
  have hlen : bs.length = K := by simp [hbs]; omega
  refine ⟨_, hset, rfl, ?_, ?_⟩
  · intro b hb
    simp only [List.mem_map] at hb
    obtain ⟨b', hb', rfl⟩ := hb
    have hs : ∀ b ∈ bs, ∀ k, StableSection (scaledB k b).toX := by
      intro b hb k
      rw [hbs, List.mem_append, List.mem_map] at hb
      rcases hb with ⟨d, hd, rfl⟩ | hb
      · obtain ⟨h1, h2⟩ := hR.pole_lt hM hA hd
        exact Quad.sec_stable (hR.ok d hd) h1 h2 k
      · rw [(List.mem_replicate.1 hb).2]
        refine stableSection_of rfl fun z hz => ?_
        have : z = 0 := by simpa [identC, scaledB] using hz
        rw [this]; simp
    have h1 : ∀ b : Biquad ℝ, scaledB 1 b = b := fun b => by simp [scaledB]
    generalize bs = bs at hb' hs
    cases bs with
    | nil => simp at hb'
    | cons b0 bs =>
      simp only [List.modify_zero_cons, List.mem_cons] at hb'
      rcases hb' with rfl | hb'
      · exact hs b0 List.mem_cons_self k
      · rw [← h1 b']; exact hs b' (List.mem_cons_of_mem _ hb') 1
  · intro f h0 h1
    have ha0' : ∀ b ∈ bs.modify 0 (scaledB k), b.a0 ≠ 0 := by
      intro b hb
      generalize bs = bs at hb ha0
      cases bs with
      | nil => simp at hb
      | cons b0 bs =>
        simp only [List.modify_zero_cons, List.mem_cons] at hb
        rcases hb with rfl | hb
        · exact ha0 b0 List.mem_cons_self
        · exact ha0 b (List.mem_cons_of_mem _ hb)
    have hval : k * numL D (circle f)⁻¹ / denL D (circle f)⁻¹ = g / ratio A M f0 * quot A M f := by
      rw [mul_div_assoc, hquot, hk]
      push_cast
      have : (rr : ℂ) ≠ 0 := by exact_mod_cast hrr.ne'
      have : (ratio A M f0 : ℂ) ≠ 0 := by exact_mod_cast hZ
      field_simp
    · rw [Cascade.response_toX ha0' rfl (by simp only [List.length_modify]; omega) h0 h1]
      have hN : (((bs.modify 0 (scaledB k)).take D.length).map (Biquad.numQ · (circle f)⁻¹)).prod =
          k * numL D (circle f)⁻¹ := by
        rw [← numL_secs hR.ok, ← htake]
        have hDl := List.length_pos_iff.2 hD
        have hbl : 0 < bs.length := by omega
        generalize bs = bs at hbl
        cases bs with
        | nil => simp at hbl
        | cons b0 bs =>
          obtain ⟨j, hj⟩ : ∃ j, D.length = j + 1 := ⟨D.length - 1, by omega⟩
          rw [hj]
          simp [scaledB_numQ, mul_assoc]
      have hDn : (((bs.modify 0 (scaledB k)).take D.length).map (Biquad.denQ · (circle f)⁻¹)).prod =
          denL D (circle f)⁻¹ := by
        rw [← denL_secs hR.ok, ← htake]
        have hDl := List.length_pos_iff.2 hD
        have hbl : 0 < bs.length := by omega
        generalize bs = bs at hbl
        cases bs with
        | nil => simp at hbl
        | cons b0 bs =>
          obtain ⟨j, hj⟩ : ∃ j, D.length = j + 1 := ⟨D.length - 1, by omega⟩
          rw [hj]
          simp [scaledB_denQ]
      simp only [hN, hDn]
      rw [cdiv_ofC _ (hdne f), hval]

end
end Iir
