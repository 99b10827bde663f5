import Verif.Exact.Design
import Verif.Props.History

/-! # `setup` in exact arithmetic, on any object

Prototype, transform and `setLayout` put together; by the results about histories the object may have been
used in any way before. -/

set_option linter.unusedSectionVars false

namespace Iir
open FArith Cx Exec Spec XR Finset Biquad Cascade

noncomputable section

local notation "conjC" => starRingEnd ℂ

variable {S : Type → Type} [StateType S XR] {T : Type} [Sample T XR] {n o : ℕ}

/-- The prototype of design `d` at order `o`. -/
structure IsProto (d : Design XR) (n o : ℕ) (A : Analog) (w0 g0 : ℝ) : Prop where
  sym : A.Sym
  left : A.Left
  n_eq : A.n = o
  gain : 0 < g0
  build : Done (Layout.Stored [] 0 ((n + 1) / 2) (d.cls.lay0 n : Layout XR).normalW (d.cls.lay0 n : Layout XR).normalGain)
    (d.build (o : ℤ)) (Layout.Stored A.stored A.n ((n + 1) / 2) (fin w0) (fin g0))

/-- What the transform of design `d` makes of the prototype `A`. -/
def TransformsTo (d : Design XR) (n : ℕ) (A : Analog) (w0 g0 : ℝ) (M : SMap) (m : ℕ) (w g : ℝ) : Prop :=
  ∀ a l : Layout XR, a.Stored A.stored A.n ((n + 1) / 2) (fin w0) (fin g0) →
    l.pairs.length = (n * d.cls.mult + 1) / 2 →
    ∃ l' D, d.trans a l = (.ok (), l') ∧ Realises A M D ∧
      l'.Stored (D.map Quad.toX) m ((n * d.cls.mult + 1) / 2) (fin w) (fin g)

/-- the object after a design, see `Designed` -/
def DesignedF (A : Analog) (M : SMap) (w g : ℝ) (len : ℕ) (f : PoleFilter S XR) : Prop :=
  Designed A M w g len f.base.cascade

theorem DesignedF.congr {A : Analog} {M : SMap} {w g : ℝ} {len : ℕ} {f f' : PoleFilter S XR}
    (h : DesignedF A M w g len f) (hs : SameConfig f' f) : DesignedF A M w g len f' where
  numStages := hs.numStages.trans h.numStages
  stable b hb := h.stable b (by rw [← hs.stages]; exact hb)
  response fr h0 h1 := (hs.response (fin fr)).trans (h.response fr h0 h1)

theorem Cls.lay0_stored (c : Cls) (n : ℕ) : (c.lay0 n : Layout XR).Stored [] 0 ((n + 1) / 2)
    (c.lay0 n : Layout XR).normalW (c.lay0 n : Layout XR).normalGain :=
  ⟨rfl, (Cls.lay0_atMost c n).2, rfl, rfl, rfl⟩

/-- On a new object. -/
theorem Spec.fresh_setup {d : Design XR} (ho1 : 1 ≤ o) {A : Analog}
    {w0 g0 : ℝ} (hp : IsProto d n o A w0 g0) {M : SMap} {m : ℕ} {w g : ℝ}
    (ht : TransformsTo d n A w0 g0 M m w g) (hm1 : 1 ≤ m) (hmn : m ≤ n * d.cls.mult) (hM : M.Contracts)
    (hw0 : 0 ≤ w) (hw1 : w ≤ Real.pi) (hZ : ratio A M (w / (2 * Real.pi)) ≠ 0) :
    ∃ p', d.baseSetup (o : ℤ) (PoleFilter.initBase d.cls n) = (.ok (), p') ∧
      Designed A M w g ((m + 1) / 2) p'.cascade := by
  obtain ⟨la, ela, sla⟩ := hp.build.run (Cls.lay0_stored d.cls n)
  obtain ⟨a, ea, ha⟩ : ∃ a, d.proto (o : ℤ) (PoleFilter.initBase d.cls n : PFB XR).analog = (.ok (), a) ∧
      a.lay = la := by
    cases hs : d.stale (o : ℤ) (PoleFilter.initBase d.cls n : PFB XR).analog with
    | false =>
      refine ⟨_, d.proto_hit hs, ?_⟩
      have := d.fresh_hit (by omega) hs
      rw [this] at ela
      exact congrArg Prod.snd ela
    | true =>
      have e : d.build (o : ℤ) (PoleFilter.initBase d.cls n : PFB XR).analog.lay =
        d.build (o : ℤ) (d.cls.lay0 n) := rfl
      refine ⟨{ d.setKey (o : ℤ) (PoleFilter.initBase d.cls n : PFB XR).analog with lay := la }, ?_, rfl⟩
      rw [d.proto_miss hs, e, ela]
  have hok := PFB.ok_init (R := XR) d.cls n
  obtain ⟨l, D, et, hR, hl⟩ := ht a.lay (PoleFilter.initBase d.cls n : PFB XR).digital (by rw [ha]; exact sla)
    (by rw [hok.digital.2, Cls.maxDigital_eq])
  have hDlen : D.length = (m + 1) / 2 := by
    have := congrArg List.length hl.pairs
    rw [List.length_take, hl.length, List.length_map] at this
    omega
  have hD : D ≠ [] := by
    intro h
    rw [h, List.length_nil] at hDlen
    omega
  obtain ⟨c', ec, hc'⟩ := Spec.setLayout_exact hR hM hp.sym hp.left hD hl (by omega) hw0 hw1 hZ hok.cascade
    (by unfold PoleFilter.numStages; rw [Cls.maxDigital_eq, hDlen]; omega)
  rw [PFB.baseSetup_proto, ea]
  simp only
  rw [PFB.rest_apply]
  simp only
  rw [et]
  simp only
  rw [ec]
  exact ⟨_, rfl, hDlen ▸ hc'⟩

/-- On any object. -/
theorem Spec.reach_setup (hn : n < 2 ^ 30) {f : PoleFilter S XR} {call : Call XR}
    (h : Reach S T call.design.cls n f) {d : Design XR}
    (hd : call.normDesign = d) (ho : call.order n = o) (ho1 : 1 ≤ o) (hon : o ≤ n) {A : Analog}
    {w0 g0 : ℝ} (hp : IsProto d n o A w0 g0) {M : SMap} {m : ℕ} {w g : ℝ}
    (ht : TransformsTo d n A w0 g0 M m w g) (hm1 : 1 ≤ m) (hmn : m ≤ n * d.cls.mult) (hM : M.Contracts)
    (hw0 : 0 ≤ w) (hw1 : w ≤ Real.pi) (hZ : ratio A M (w / (2 * Real.pi)) ≠ 0) :
    ∃ f', PoleFilter.setup n call f = (.ok (), f') ∧ f'.states = f.states ∧
      DesignedF A M w g ((m + 1) / 2) f' := by
  obtain ⟨p', e, hdes⟩ := Spec.fresh_setup ho1 hp ht hm1 hmn hM hw0 hw1 hZ
  have hcls : d.cls = call.design.cls := by rw [← hd, call.normDesign_cls]
  have e0 : PoleFilter.setup n call (PoleFilter.init S call.design.cls n) =
      (.ok (), { PoleFilter.init S call.design.cls n with base := p' }) := by
    rw [PoleFilter.setup_apply, Call.run_eq, if_neg (by omega), hd, ho]
    have : (PoleFilter.init S call.design.cls n : PoleFilter S XR).base = PoleFilter.initBase d.cls n := by
      rw [hcls]; rfl
    rw [this, e]
  obtain ⟨h1, h2⟩ := C12_history_partial (by omega) hn h rfl (by omega) (by rw [e0])
  refine ⟨(PoleFilter.setup n call f).2, Prod.ext h1 rfl, rfl, ?_⟩
  refine DesignedF.congr ?_ h2
  rw [e0]
  exact hdes

/-! ## On the unit circle -/

/-- squared magnitude of the prototype at `s = i x / y` -/
def Analog.mag (A : Analog) (x y : ℝ) : ℝ :=
  Complex.normSq (A.Z (Complex.I * x) y) / Complex.normSq (A.P (Complex.I * x) y)

theorem Analog.mag_smul (A : Analog) {c : ℝ} (hc : c ≠ 0) (x y : ℝ) : A.mag (c * x) (c * y) = A.mag x y := by
  have hc' : Complex.normSq ((c : ℂ) ^ A.n) ≠ 0 := by
    rw [Ne, Complex.normSq_eq_zero]; exact pow_ne_zero _ (by exact_mod_cast hc)
  unfold Analog.mag
  rw [show Complex.I * ((c * x : ℝ) : ℂ) = c * (Complex.I * x) by push_cast; ring,
    show ((c * y : ℝ) : ℂ) = c * y by push_cast; rfl, A.Z_smul, A.P_smul, map_mul, map_mul,
    mul_div_mul_left _ _ hc']

/-- the transform takes frequency `f` to `i x / y` -/
def SMap.At (M : SMap) (f x y : ℝ) : Prop :=
  ∃ c : ℂ, c ≠ 0 ∧ M.X (circle f)⁻¹ = c * (Complex.I * x) ∧ M.Y (circle f)⁻¹ = c * y

theorem ratio_sq {A : Analog} {M : SMap} {f x y : ℝ} (h : M.At f x y) : ratio A M f ^ 2 = A.mag x y := by
  obtain ⟨c, hc, h1, h2⟩ := h
  have hc' : ‖c ^ A.n‖ ≠ 0 := by rw [norm_ne_zero_iff]; exact pow_ne_zero _ hc
  rw [ratio, h1, h2, A.Z_smul, A.P_smul, norm_mul, norm_mul, mul_div_mul_left _ _ hc', Analog.mag,
    Complex.normSq_eq_norm_sq, Complex.normSq_eq_norm_sq, div_pow]

/-- value of the prototype at `s = i x / y` -/
def Analog.val (A : Analog) (x y : ℝ) : ℂ := A.Z (Complex.I * x) y / A.P (Complex.I * x) y

theorem quot_at {A : Analog} {M : SMap} {f x y : ℝ} (h : M.At f x y) : quot A M f = A.val x y := by
  obtain ⟨c, hc, h1, h2⟩ := h
  rw [quot, h1, h2, A.Z_smul, A.P_smul, mul_div_mul_left _ _ (pow_ne_zero _ hc), Analog.val]

theorem Analog.val_smul (A : Analog) {c : ℝ} (hc : c ≠ 0) (x y : ℝ) : A.val (c * x) (c * y) = A.val x y := by
  unfold Analog.val
  rw [show Complex.I * ((c * x : ℝ) : ℂ) = c * (Complex.I * x) by push_cast; ring,
    show ((c * y : ℝ) : ℂ) = c * y by push_cast; rfl, A.Z_smul, A.P_smul,
    mul_div_mul_left _ _ (pow_ne_zero _ (by exact_mod_cast hc))]

theorem Analog.mag_val (A : Analog) (x y : ℝ) : ‖A.val x y‖ ^ 2 = A.mag x y := by
  rw [Analog.val, Analog.mag, norm_div, div_pow, Complex.normSq_eq_norm_sq, Complex.normSq_eq_norm_sq]

/-- At `0` and at infinity the value of a prototype is not negative. -/
theorem Analog.val_zero {A : Analog} (hs : A.Sym) (hl : A.Left) : A.val 0 1 = (‖A.val 0 1‖ : ℂ) := by
  obtain ⟨v, hv, e⟩ := Analog.quot_nonneg hs hl (X := 0) (Y := 1) (by simp)
  have : A.val 0 1 = v := by rw [← e, Analog.val, Complex.ofReal_zero, mul_zero]
  rw [this, Complex.norm_real, Real.norm_eq_abs, abs_of_nonneg hv]

theorem Analog.val_inf {A : Analog} (hs : A.Sym) (hl : A.Left) : A.val 1 0 = (‖A.val 1 0‖ : ℂ) := by
  obtain ⟨v, hv, e⟩ := Analog.quot_nonneg hs hl (X := 1) (Y := 0) (by simp)
  have : A.val 1 0 = v := by
    have h1 := A.Z_smul Complex.I (1 : ℝ) (0 : ℝ)
    have h2 := A.P_smul Complex.I (1 : ℝ) (0 : ℝ)
    rw [show Complex.I * ((0 : ℝ) : ℂ) = ((0 : ℝ) : ℂ) by simp] at h1 h2
    rw [← e, Analog.val, h1, h2, mul_div_mul_left _ _ (pow_ne_zero _ Complex.I_ne_zero)]
  rw [this, Complex.norm_real, Real.norm_eq_abs, abs_of_nonneg hv]

theorem circle_half (f : ℝ) : (circle f)⁻¹ =
    (Real.cos (Real.pi * f) - Real.sin (Real.pi * f) * Complex.I) ^ 2 := by
  have h := Real.sin_sq_add_cos_sq (Real.pi * f)
  rw [circle_inv, show 2 * Real.pi * f = 2 * (Real.pi * f) by ring, Real.cos_two_mul, Real.sin_two_mul]
  generalize Real.cos (Real.pi * f) = c at *
  generalize Real.sin (Real.pi * f) = s at *
  apply Complex.ext
  · simp [sq]; nlinarith
  · simp [sq]; ring

theorem half_facts (f : ℝ) : ∃ u : ℂ, u ≠ 0 ∧ 1 - (circle f)⁻¹ = u * (Complex.I * Real.sin (Real.pi * f)) ∧
    1 + (circle f)⁻¹ = u * Real.cos (Real.pi * f) := by
  have h := Real.sin_sq_add_cos_sq (Real.pi * f)
  have hC : (Real.sin (Real.pi * f) : ℂ) ^ 2 + (Real.cos (Real.pi * f) : ℂ) ^ 2 = 1 := by exact_mod_cast h
  refine ⟨2 * (Real.cos (Real.pi * f) - Real.sin (Real.pi * f) * Complex.I), ?_, ?_, ?_⟩
  · intro h0
    have h1 := congrArg Complex.re h0
    have h2 := congrArg Complex.im h0
    generalize Real.cos (Real.pi * f) = c at *
    generalize Real.sin (Real.pi * f) = s at *
    simp at h1 h2
    subst h1 h2
    norm_num at h
  · rw [circle_half]
    generalize (Real.cos (Real.pi * f) : ℂ) = c at *
    generalize (Real.sin (Real.pi * f) : ℂ) = s at *
    linear_combination -hC + s ^ 2 * Complex.I_sq
  · rw [circle_half]
    generalize (Real.cos (Real.pi * f) : ℂ) = c at *
    generalize (Real.sin (Real.pi * f) : ℂ) = s at *
    linear_combination -hC + s ^ 2 * Complex.I_sq

theorem lpMap_at (F f : ℝ) : (lpMap F).At f (Real.sin (Real.pi * f)) (F * Real.cos (Real.pi * f)) := by
  obtain ⟨u, hu, h1, h2⟩ := half_facts f
  refine ⟨u, hu, h1, ?_⟩
  simp only [lpMap]
  rw [h2]; push_cast; ring

theorem hpMap_at (F f : ℝ) : (hpMap F).At f (-Real.cos (Real.pi * f)) (F * Real.sin (Real.pi * f)) := by
  obtain ⟨u, hu, h1, h2⟩ := half_facts f
  refine ⟨u * Complex.I, mul_ne_zero hu Complex.I_ne_zero, ?_, ?_⟩
  · simp only [hpMap]
    rw [h2, Complex.ofReal_neg]
    linear_combination (u * (Real.cos (Real.pi * f) : ℂ)) * Complex.I_sq
  · simp only [hpMap]
    rw [h1]; push_cast; ring

theorem band_facts (f : ℝ) : ∃ u : ℂ, u ≠ 0 ∧
    1 - (circle f)⁻¹ ^ 2 = u * (Complex.I * Real.sin (2 * Real.pi * f)) ∧
    ∀ a : ℝ, 1 - 2 * a * (circle f)⁻¹ + (circle f)⁻¹ ^ 2 = u * (Real.cos (2 * Real.pi * f) - a) := by
  have h := Real.sin_sq_add_cos_sq (2 * Real.pi * f)
  have hC : (Real.sin (2 * Real.pi * f) : ℂ) ^ 2 + (Real.cos (2 * Real.pi * f) : ℂ) ^ 2 = 1 := by exact_mod_cast h
  have hq : (circle f)⁻¹ = Real.cos (2 * Real.pi * f) - Complex.I * Real.sin (2 * Real.pi * f) := by
    rw [circle_inv]
    generalize Real.cos (2 * Real.pi * f) = c at *
    generalize Real.sin (2 * Real.pi * f) = s at *
    apply Complex.ext <;> simp
  refine ⟨2 * (circle f)⁻¹, mul_ne_zero two_ne_zero (inv_ne_zero (circle_ne_zero f)), ?_, fun a => ?_⟩ <;>
  · rw [hq]
    generalize (Real.cos (2 * Real.pi * f) : ℂ) = c at *
    generalize (Real.sin (2 * Real.pi * f) : ℂ) = s at *
    first
      | linear_combination -hC - s ^ 2 * Complex.I_sq
      | linear_combination -hC + s ^ 2 * Complex.I_sq

theorem bpMap_at (a b f : ℝ) :
    (bpMap a b).At f (b * (a - Real.cos (2 * Real.pi * f))) (Real.sin (2 * Real.pi * f)) := by
  obtain ⟨u, hu, h1, h2⟩ := band_facts f
  refine ⟨u * Complex.I, mul_ne_zero hu Complex.I_ne_zero, ?_, ?_⟩
  · simp only [bpMap]
    rw [h2, Complex.ofReal_mul, Complex.ofReal_sub]
    linear_combination (-u * b * (a - (Real.cos (2 * Real.pi * f) : ℂ))) * Complex.I_sq
  · simp only [bpMap]
    rw [h1]; ring

theorem bsMap_at (a b f : ℝ) :
    (bsMap a b).At f (b * Real.sin (2 * Real.pi * f)) (Real.cos (2 * Real.pi * f) - a) := by
  obtain ⟨u, hu, h1, h2⟩ := band_facts f
  refine ⟨u, hu, ?_, ?_⟩
  · simp only [bsMap]
    rw [h1, Complex.ofReal_mul]; ring
  · simp only [bsMap]
    rw [h2, Complex.ofReal_sub]

end
end Iir
