import Verif.Props.Rounding
import Verif.Lemmas.DoubleLaws
import Verif.Lemmas.Related
import Verif.Props.History

/-! # C64, C65: IEEE doubles

`Dbl` (`Verif/Exact/IEEE.lean`) is IEEE 754 binary64 with rounding to nearest even.  C64: rounding errors of stable
filters, with numbers.  C65: oddness and time invariance hold in double arithmetic without any error. -/

set_option linter.unusedSectionVars false

namespace Iir
open FArith Spec Exec

/-! ## C64 -/

/-- **C64** for one stable section with stored coefficients `k` and poles `p`, `q`: if the input stays below `X` and
`M ≤ 1.79e308` has room for all intermediate results, then no output is ever infinite or NaN, and each one is within
`9 (1+A+B) / ((1-|p|)(1-|q|)) · (2⁻⁵³ M + 2⁻¹⁰⁷⁵)` of the exact response. -/
theorem C64_section {S : Type → Type} [StateType S Dbl] [DelayLine Dbl S] {b : Biquad Dbl} {k : Coeffs}
    (hv : doubleRounds.Values b k) {p q : ℂ} (hk : k.StablePoles p q) {X M : ℝ} {x : ℕ → Dbl}
    (hx : ∀ n, (x n).Finite ∧ |(x n).val| ≤ X) (hM0 : 0 ≤ M) (hM : M ≤ maxDouble)
    (hfit : (1 + (k.back + k.forward) * poleGain p q) * ((1 + k.forward) * X + 9 * ((1 / 2) ^ 53 * M + (1 / 2) ^ 1075)) ≤ M)
    (s : S Dbl) {y : ℕ → ℝ} (hy : k.DiffEq (fun n => (x n).val) y) (n : ℕ) :
    (outAt (fun x s => StateType.filter x b s) (StateType.reset s) x n).Finite ∧
      |(outAt (fun x s => StateType.filter x b s) (StateType.reset s) x n).val - y n| ≤
        9 * poleGain p q * (1 + k.back + k.forward) * ((1 / 2) ^ 53 * M + (1 / 2) ^ 1075) :=
  C54_section doubleRounds hv hk (X := X) hx hM0 hM hfit s hy n

/-- **C64** for pole filters of all classes, orders, histories and delay lines, with stored coefficients `ks` for which
doubles are precise enough: a bound that holds for ever. -/
theorem C64_pole_filter {ks : List Coeffs} (hst : ∀ k ∈ ks, k.Stable) (hp : ∀ k ∈ ks, k.Precise ((1 / 2) ^ 53)) :
    ∃ C : ℝ, 0 < C ∧ ∀ (S : Type → Type) [StateType S Dbl] [DelayLine Dbl S] (T : Type) [Sample T Dbl] (c : Cls) (n : Nat),
      1 ≤ n → n < 2 ^ 30 → ∀ f : PoleFilter S Dbl, Reach S T c n f →
      List.Forall₂ doubleRounds.Values f.base.cascade.stages ks → ∀ (X : ℝ) (x : ℕ → Dbl), doubleRounds.Input X x →
      C * (X + (1 / 2) ^ 1075) ≤ maxDouble →
      ∃ y', Returns (PoleFilter.filter (T := Dbl)) (PoleFilter.reset f).2 x y' ∧
        ∀ y, DiffChain ks (fun n => (x n).val) y →
          ∀ n, (y' n).Finite ∧ |(y' n).val - y n| ≤ C * ((1 / 2) ^ 53 * X + (1 / 2) ^ 1075) := by
  obtain ⟨C, hC, h⟩ := C54_pole_filter hst
  refine ⟨C, hC, ?_⟩
  intro S _ _ T _ c n hn1 hn f hf hv X x hx hΩ
  exact h Dbl S T _ _ _ doubleRounds hp c n hn1 hn f hf hv X x hx hΩ

/-- **C64** for SOS cascades. -/
theorem C64_sos {ks : List Coeffs} (hst : ∀ k ∈ ks, k.Stable) (hp : ∀ k ∈ ks, k.Precise ((1 / 2) ^ 53)) :
    ∃ C : ℝ, 0 < C ∧ ∀ (S : Type → Type) [StateType S Dbl] [DelayLine Dbl S] (f : Custom.SOS S Dbl),
      f.states.length = f.stages.length → List.Forall₂ doubleRounds.Values f.stages ks →
      ∀ (X : ℝ) (x : ℕ → Dbl), doubleRounds.Input X x → C * (X + (1 / 2) ^ 1075) ≤ maxDouble →
      ∃ y', Returns (Custom.SOS.filter (T := Dbl)) (Custom.SOS.reset f).2 x y' ∧
        ∀ y, DiffChain ks (fun n => (x n).val) y →
          ∀ n, (y' n).Finite ∧ |(y' n).val - y n| ≤ C * ((1 / 2) ^ 53 * X + (1 / 2) ^ 1075) := by
  obtain ⟨C, hC, h⟩ := C54_sos hst
  refine ⟨C, hC, ?_⟩
  intro S _ _ f hf hv X x hx hΩ
  exact h Dbl S _ _ _ doubleRounds hp f hf hv X x hx hΩ

/-- **C64** for RBJ filters. -/
theorem C64_rbj {k : Coeffs} (hst : k.Stable) (hp : k.Precise ((1 / 2) ^ 53)) :
    ∃ C : ℝ, 0 < C ∧ ∀ (f : RBJ.Filter Dbl), doubleRounds.Values f.biquad k →
      ∀ (X : ℝ) (x : ℕ → Dbl), doubleRounds.Input X x → C * (X + (1 / 2) ^ 1075) ≤ maxDouble →
      ∃ y', Returns (RBJ.Filter.filter (T := Dbl)) (RBJ.Filter.reset f).2 x y' ∧
        ∀ y, k.DiffEq (fun n => (x n).val) y →
          ∀ n, (y' n).Finite ∧ |(y' n).val - y n| ≤ C * ((1 / 2) ^ 53 * X + (1 / 2) ^ 1075) := by
  obtain ⟨C, hC, h⟩ := C54_rbj hst
  refine ⟨C, hC, ?_⟩
  intro f hv X x hx hΩ
  exact h Dbl _ _ _ doubleRounds hp f hv X x hx hΩ

/-- **C64**, the delay line types: in double arithmetic two cascades with the same coefficients and different
`StateType` differ by rounding errors only, for ever. -/
theorem C64_topologies {ks : List Coeffs} (hst : ∀ k ∈ ks, k.Stable) (hp : ∀ k ∈ ks, k.Precise ((1 / 2) ^ 53)) :
    ∃ C : ℝ, 0 < C ∧ ∀ (S S' : Type → Type) [StateType S Dbl] [DelayLine Dbl S] [StateType S' Dbl] [DelayLine Dbl S']
      (f : Custom.SOS S Dbl) (g : Custom.SOS S' Dbl), f.states.length = f.stages.length →
      g.states.length = g.stages.length → f.stages = g.stages → List.Forall₂ doubleRounds.Values f.stages ks →
      ∀ (X : ℝ) (x : ℕ → Dbl), doubleRounds.Input X x → C * (X + (1 / 2) ^ 1075) ≤ maxDouble →
      ∃ y z, Returns (Custom.SOS.filter (T := Dbl)) (Custom.SOS.reset f).2 x y ∧
        Returns (Custom.SOS.filter (T := Dbl)) (Custom.SOS.reset g).2 x z ∧
        ∀ n, (y n).Finite ∧ (z n).Finite ∧ |(y n).val - (z n).val| ≤ 2 * C * ((1 / 2) ^ 53 * X + (1 / 2) ^ 1075) := by
  obtain ⟨C, hC, h⟩ := C64_sos hst hp
  refine ⟨C, hC, ?_⟩
  intro S S' _ _ _ _ f g hf hg hfg hv X x hx hΩ
  obtain ⟨y, hy, hy'⟩ := h S f hf hv X x hx hΩ
  obtain ⟨z, hz, hz'⟩ := h S' g hg (hfg ▸ hv) X x hx hΩ
  refine ⟨y, z, hy, hz, fun n => ?_⟩
  obtain ⟨w, hw⟩ : ∃ w, DiffChain ks (fun n => (x n).val) w := ⟨_, chain_diffChain ks _⟩
  have a := hy' w hw n
  have b := hz' w hw n
  refine ⟨a.1, b.1, ?_⟩
  have a2 := abs_le.1 a.2
  have b2 := abs_le.1 b.2
  generalize ((1 / 2) ^ 53 * X + (1 / 2) ^ 1075 : ℝ) = E at a2 b2 ⊢
  rw [mul_assoc, two_mul]
  exact abs_le.2 ⟨by linarith, by linarith⟩

/-! ## C65 -/

/-- The doubles compare equal (so they are the same or zeros of different sign), or both are NaN. -/
def Spec.SameDouble (x y : Dbl) : Prop := feq x y = true ∨ (isNan x = true ∧ isNan y = true)

namespace Dbl

theorem feq_zeros (s t : Bool) : feq (zero s) (zero t) = true := by
  show XR.eq (zero s).toXR (zero t).toXR = true
  rw [toXR_zero, toXR_zero]
  simp [XR.eq]

theorem sameDouble_iff {x y : Dbl} : SameDouble x y ↔ SameButSign x y := by
  constructor
  · rintro (h | ⟨h1, h2⟩)
    · exact SignedZeros.eq_or x y h
    · rw [isNan_iff] at h1 h2
      exact .inl (h1.trans h2.symm)
  · rintro (rfl | ⟨h1, h2⟩)
    · by_cases h : isNan x = true
      · exact .inr ⟨h, h⟩
      · refine .inl ?_
        simpa [isNan] using h
    · obtain ⟨s, rfl⟩ := (isZero_iff _).1 h1
      obtain ⟨t, rfl⟩ := (isZero_iff _).1 h2
      exact .inl (feq_zeros s t)

theorem isZero_zero (s : Bool) : IsZero (zero s) := (isZero_iff _).2 ⟨s, rfl⟩

theorem sbs_refl (x : Dbl) : SameButSign x x := .inl rfl

theorem sbs_trans {x y z : Dbl} (h : SameButSign x y) (h' : SameButSign y z) : SameButSign x z := by
  rcases h with rfl | ⟨h1, h2⟩
  · exact h'
  · rcases h' with rfl | ⟨_, h4⟩
    · exact .inr ⟨h1, h2⟩
    · exact .inr ⟨h1, h4⟩

theorem isZero_neg {x : Dbl} : IsZero (-x) ↔ IsZero x := by
  constructor
  · intro h
    have := SignedZeros.neg _ h
    have e : - -x = x := by
      rcases x with _ | s | ⟨s, x⟩
      · rfl
      · show inf (!!s) = inf s
        rw [Bool.not_not]
      · show num (!!s) x = num s x
        rw [Bool.not_not]
    rwa [e] at this
  · exact SignedZeros.neg _

theorem sbs_add {x x' y y' : Dbl} (h : SameButSign x x') (h' : SameButSign y y') : SameButSign (x + y) (x' + y') := by
  rcases h with rfl | ⟨h1, h2⟩
  · rcases h' with rfl | ⟨h3, h4⟩
    · exact .inl rfl
    · obtain ⟨s, rfl⟩ := (isZero_iff _).1 h3
      obtain ⟨t, rfl⟩ := (isZero_iff _).1 h4
      by_cases hx : IsZero x
      · obtain ⟨r, rfl⟩ := (isZero_iff _).1 hx
        rw [zero_add_zero, zero_add_zero]
        exact .inr ⟨isZero_zero _, isZero_zero _⟩
      · rw [add_comm' x, add_comm' x]
        exact .inl (add_zeros hx)
  · obtain ⟨s, rfl⟩ := (isZero_iff _).1 h1
    obtain ⟨t, rfl⟩ := (isZero_iff _).1 h2
    rcases h' with rfl | ⟨h3, h4⟩
    · by_cases hx : IsZero y
      · obtain ⟨r, rfl⟩ := (isZero_iff _).1 hx
        rw [zero_add_zero, zero_add_zero]
        exact .inr ⟨isZero_zero _, isZero_zero _⟩
      · exact .inl (add_zeros hx)
    · obtain ⟨a, rfl⟩ := (isZero_iff _).1 h3
      obtain ⟨b, rfl⟩ := (isZero_iff _).1 h4
      rw [zero_add_zero, zero_add_zero]
      exact .inr ⟨isZero_zero _, isZero_zero _⟩

theorem sbs_neg {x x' : Dbl} (h : SameButSign x x') : SameButSign (-x) (-x') := by
  rcases h with rfl | ⟨h1, h2⟩
  · exact .inl rfl
  · exact .inr ⟨isZero_neg.2 h1, isZero_neg.2 h2⟩

theorem mul_zero' (c : Dbl) (s : Bool) : (∃ t, c * zero s = zero t ∧ c.Finite) ∨ c * zero s = nan := by
  rcases c with _ | r | ⟨r, y⟩
  · exact .inr rfl
  · refine .inr ?_
    show (if (0 : ℝ) = 0 then nan else _) = nan
    rw [if_pos rfl]
  · refine .inl ⟨r ^^ s, ?_, trivial⟩
    show ofReal _ (_ * val (zero s)) = _
    rw [val_zero, mul_zero, ofReal_zero]

theorem mul_zero_sbs (c : Dbl) (s t : Bool) : SameButSign (c * zero s) (c * zero t) := by
  rcases c with _ | r | ⟨r, y⟩
  · exact .inl rfl
  · refine .inl ?_
    show (if (0 : ℝ) = 0 then nan else _) = (if (0 : ℝ) = 0 then nan else _)
    rw [if_pos rfl, if_pos rfl]
  · refine .inr ⟨(isZero_iff _).2 ⟨r ^^ s, ?_⟩, (isZero_iff _).2 ⟨r ^^ t, ?_⟩⟩ <;>
    · show ofReal _ (_ * val (zero _)) = _
      rw [val_zero, mul_zero, ofReal_zero]

theorem sbs_mul (c : Dbl) {x x' : Dbl} (h : SameButSign x x') : SameButSign (c * x) (c * x') := by
  rcases h with rfl | ⟨h1, h2⟩
  · exact .inl rfl
  · obtain ⟨s, rfl⟩ := (isZero_iff _).1 h1
    obtain ⟨t, rfl⟩ := (isZero_iff _).1 h2
    exact mul_zero_sbs c s t

theorem ofReal_neg (s t : Bool) {x : ℝ} (h : x ≠ 0) : ofReal s (-x) = -ofReal t x := by
  have hs : decide (-x < 0) = !decide (x < 0) := by
    rcases lt_or_gt_of_ne h with h1 | h1
    · rw [decide_eq_true h1, decide_eq_false (by linarith)]; rfl
    · rw [decide_eq_false (by linarith : ¬ x < 0), decide_eq_true (by linarith)]; rfl
  unfold ofReal
  rw [if_neg h, if_neg (neg_ne_zero.2 h), hs]
  unfold ofMag
  simp only [abs_neg]
  split_ifs <;> rfl

theorem neg_add_sbs (x y : Dbl) : SameButSign (-x + -y) (-(x + y)) := by
  rcases x with _ | s | ⟨s, x⟩ <;> rcases y with _ | t | ⟨t, y⟩ <;> try exact .inl rfl
  · refine .inl ?_
    show (if (!s) = !t then inf (!s) else nan) = -(if s = t then inf s else nan)
    cases s <;> cases t <;> rfl
  · have e1 : (-num s x + -num t y : Dbl) = ofReal (!s && !t) (-(val (num s x) + val (num t y))) := by
      show ofReal (!s && !t) (val (-num s x) + val (-num t y)) = _
      rw [val_neg, val_neg, neg_add]
    rw [e1, add_num]
    by_cases h : val (num s x) + val (num t y) = 0
    · rw [h, neg_zero, ofReal_zero, ofReal_zero]
      exact .inr ⟨isZero_zero _, isZero_neg.2 (isZero_zero _)⟩
    · exact .inl (ofReal_neg _ _ h)

theorem mul_neg_sbs (c x : Dbl) : SameButSign (c * -x) (-(c * x)) := by
  rcases c with _ | s | ⟨s, c⟩ <;> rcases x with _ | t | ⟨t, x⟩ <;> try exact .inl rfl
  · refine .inl ?_
    show inf (s ^^ !t) = inf (!(s ^^ t))
    cases s <;> cases t <;> rfl
  · refine .inl ?_
    show (if x.1 = 0 then nan else inf (s ^^ !t)) = -(if x.1 = 0 then nan else inf (s ^^ t))
    split_ifs
    · rfl
    · cases s <;> cases t <;> rfl
  · refine .inl ?_
    show (if c.1 = 0 then nan else inf (s ^^ !t)) = -(if c.1 = 0 then nan else inf (s ^^ t))
    split_ifs
    · rfl
    · cases s <;> cases t <;> rfl
  · have e1 : (num s c * -num t x : Dbl) = ofReal (s ^^ !t) (-(val (num s c) * val (num t x))) := by
      show ofReal (s ^^ !t) (val (num s c) * val (-num t x)) = _
      rw [val_neg, mul_neg]
    rw [e1, mul_num]
    by_cases h : val (num s c) * val (num t x) = 0
    · rw [h, neg_zero, ofReal_zero, ofReal_zero]
      exact .inr ⟨isZero_zero _, isZero_neg.2 (isZero_zero _)⟩
    · exact .inl (ofReal_neg _ _ h)

/-- equality but for the sign of zeros -/
theorem respected_same (C : Dbl → Prop) : Respected C (SameButSign (R := Dbl)) where
  add _ _ _ _ := sbs_add
  sub _ _ _ _ h h' := sbs_add h (sbs_neg h')
  mul c _ _ _ := sbs_mul c

/-- being opposite -/
theorem respected_neg (C : Dbl → Prop) : Respected C (fun x x' : Dbl => SameButSign x' (-x)) where
  add _ _ _ _ h h' := sbs_trans (sbs_add h h') (neg_add_sbs _ _)
  sub _ _ _ _ h h' := sbs_trans (sbs_add h (sbs_neg h')) (neg_add_sbs _ _)
  mul c _ _ _ h := sbs_trans (sbs_mul c h) (mul_neg_sbs c _)

/-- being zero -/
theorem respected_zero : Respected Dbl.Finite (fun _ x : Dbl => IsZero x) where
  add _ _ _ _ h h' := by
    obtain ⟨s, rfl⟩ := (isZero_iff _).1 h
    obtain ⟨t, rfl⟩ := (isZero_iff _).1 h'
    rw [zero_add_zero]; exact isZero_zero _
  sub _ _ _ _ h h' := SignedZeros.sub _ _ h h'
  mul c x x' hc h := by
    obtain ⟨s, rfl⟩ := (isZero_iff _).1 h
    rcases c with _ | r | ⟨r, y⟩
    · exact hc.elim
    · exact hc.elim
    · refine (isZero_iff _).2 ⟨r ^^ s, ?_⟩
      show ofReal _ (_ * val (zero s)) = _
      rw [val_zero, mul_zero, ofReal_zero]

theorem zero_sbs_neg : SameButSign (0 : Dbl) (-0) := by
  rw [lit_zero]; exact .inr ⟨isZero_zero _, isZero_neg.2 (isZero_zero _)⟩

end Dbl

open Dbl

variable {S : Type → Type} [StateType S Dbl] [DelayLine Dbl S]

theorem chainR_odd (bs : List (Biquad Dbl)) (x : ℕ → Dbl) (n : ℕ) :
    SameDouble (chainR S bs (fun n => -x n) n) (-chainR S bs x n) :=
  sameDouble_iff.2 (chainR_related (respected_neg fun _ => True) zero_sbs_neg
    (fun _ _ => ⟨trivial, trivial, trivial, trivial, trivial⟩) (fun _ => .inl rfl) n)

/-- **C65**: in double arithmetic, the negated input gives the negated output, without any error.  Pole filters of all
classes and with any coefficients, after `reset`. -/
theorem C65_odd_pole_filter {T : Type} [Sample T Dbl] {c : Cls} {n : Nat} (hn1 : 1 ≤ n) (hn : n < 2 ^ 30)
    {f : PoleFilter S Dbl} (hf : Reach S T c n f) {x y y' : ℕ → Dbl}
    (hy : Returns (PoleFilter.filter (T := Dbl)) (PoleFilter.reset f).2 x y)
    (hy' : Returns (PoleFilter.filter (T := Dbl)) (PoleFilter.reset f).2 (fun n => -x n) y') (n : ℕ) :
    SameDouble (y' n) (-y n) := by
  rw [hy.unique (PoleFilter.returns (hf.wired hn1 hn) x), hy'.unique (PoleFilter.returns (hf.wired hn1 hn) _)]
  exact chainR_odd _ _ n

/-- **C65** for SOS cascades. -/
theorem C65_odd_sos {f : Custom.SOS S Dbl} (hf : f.states.length = f.stages.length) {x y y' : ℕ → Dbl}
    (hy : Returns (Custom.SOS.filter (T := Dbl)) (Custom.SOS.reset f).2 x y)
    (hy' : Returns (Custom.SOS.filter (T := Dbl)) (Custom.SOS.reset f).2 (fun n => -x n) y') (n : ℕ) :
    SameDouble (y' n) (-y n) := by
  rw [hy.unique (Custom.SOS.returns hf x), hy'.unique (Custom.SOS.returns hf _)]
  exact chainR_odd _ _ n

/-- **C65** for RBJ filters. -/
theorem C65_odd_rbj {f : RBJ.Filter Dbl} {x y y' : ℕ → Dbl}
    (hy : Returns (RBJ.Filter.filter (T := Dbl)) (RBJ.Filter.reset f).2 x y)
    (hy' : Returns (RBJ.Filter.filter (T := Dbl)) (RBJ.Filter.reset f).2 (fun n => -x n) y') (n : ℕ) :
    SameDouble (y' n) (-y n) := by
  rw [hy.unique (RBJ.Filter.returns x), hy'.unique (RBJ.Filter.returns _)]
  exact chainR_odd _ _ n

/-- `d` zeros, and then `x`. -/
noncomputable def Spec.zerosThen (d : ℕ) (x : ℕ → Dbl) (n : ℕ) : Dbl := if n < d then 0 else x (n - d)

/-- The coefficients that `filter` uses are finite. -/
def Spec.FiniteCoeffs (b : Biquad Dbl) : Prop :=
  b.a1.Finite ∧ b.a2.Finite ∧ b.b0.Finite ∧ b.b1.Finite ∧ b.b2.Finite

theorem chainR_zerosThen {bs : List (Biquad Dbl)} (hb : ∀ b ∈ bs, FiniteCoeffs b) (d : ℕ) (x : ℕ → Dbl) :
    (∀ n < d, feq (chainR S bs (zerosThen d x) n) 0 = true) ∧
      ∀ n, SameDouble (chainR S bs (zerosThen d x) (n + d)) (chainR S bs x n) := by
  have hz : IsZero (0 : Dbl) := by rw [lit_zero]; exact isZero_zero _
  obtain ⟨h1, h2⟩ := chainR_delayed (S := S) (respected_same Dbl.Finite) respected_zero hz
    (fun x hx => .inr ⟨hz, hx⟩) (bs := bs) (x := x) (x' := zerosThen d x) (d := d)
    (fun b hb' => ⟨(hb b hb').1, (hb b hb').2.1, (hb b hb').2.2.1, (hb b hb').2.2.2.1, (hb b hb').2.2.2.2⟩)
    (fun n hn => by rw [zerosThen, if_pos hn]; exact hz)
    (fun n => by
      rw [zerosThen, if_neg (by omega), Nat.add_sub_cancel]
      exact .inl rfl)
  refine ⟨h1, fun n => sameDouble_iff.2 ?_⟩
  rcases h2 n with h | ⟨h, h'⟩
  · exact .inl h.symm
  · exact .inr ⟨h', h⟩

/-- **C65**: in double arithmetic, an input that is delayed by `d` samples gives the output delayed by `d` samples,
without any error.  Pole filters with finite coefficients, after `reset`. -/
theorem C65_delay_pole_filter {T : Type} [Sample T Dbl] {c : Cls} {n : Nat} (hn1 : 1 ≤ n) (hn : n < 2 ^ 30)
    {f : PoleFilter S Dbl} (hf : Reach S T c n f) (hb : ∀ b ∈ f.base.cascade.stages, FiniteCoeffs b) {d : ℕ}
    {x y y' : ℕ → Dbl} (hy : Returns (PoleFilter.filter (T := Dbl)) (PoleFilter.reset f).2 x y)
    (hy' : Returns (PoleFilter.filter (T := Dbl)) (PoleFilter.reset f).2 (zerosThen d x) y') :
    (∀ n < d, feq (y' n) 0 = true) ∧ ∀ n, SameDouble (y' (n + d)) (y n) := by
  rw [hy.unique (PoleFilter.returns (hf.wired hn1 hn) x), hy'.unique (PoleFilter.returns (hf.wired hn1 hn) _)]
  exact chainR_zerosThen hb d x

/-- **C65** for SOS cascades. -/
theorem C65_delay_sos {f : Custom.SOS S Dbl} (hf : f.states.length = f.stages.length)
    (hb : ∀ b ∈ f.stages, FiniteCoeffs b) {d : ℕ} {x y y' : ℕ → Dbl}
    (hy : Returns (Custom.SOS.filter (T := Dbl)) (Custom.SOS.reset f).2 x y)
    (hy' : Returns (Custom.SOS.filter (T := Dbl)) (Custom.SOS.reset f).2 (zerosThen d x) y') :
    (∀ n < d, feq (y' n) 0 = true) ∧ ∀ n, SameDouble (y' (n + d)) (y n) := by
  rw [hy.unique (Custom.SOS.returns hf x), hy'.unique (Custom.SOS.returns hf _)]
  exact chainR_zerosThen hb d x

/-- **C65** for RBJ filters. -/
theorem C65_delay_rbj {f : RBJ.Filter Dbl} (hb : FiniteCoeffs f.biquad) {d : ℕ} {x y y' : ℕ → Dbl}
    (hy : Returns (RBJ.Filter.filter (T := Dbl)) (RBJ.Filter.reset f).2 x y)
    (hy' : Returns (RBJ.Filter.filter (T := Dbl)) (RBJ.Filter.reset f).2 (zerosThen d x) y') :
    (∀ n < d, feq (y' n) 0 = true) ∧ ∀ n, SameDouble (y' (n + d)) (y n) := by
  rw [hy.unique (RBJ.Filter.returns x), hy'.unique (RBJ.Filter.returns _)]
  exact chainR_zerosThen (by simpa using hb) d x

/-! ## Other properties in double arithmetic

`Dbl` satisfies the laws that C09, C12 and C19 ask for. -/

/-- **C12** in double arithmetic. -/
theorem C12_double_partial {T : Type} [Sample T Dbl] {c : Cls} {n : Nat} (hn1 : 1 ≤ n) (hn : n < 2 ^ 30)
    {f : PoleFilter S Dbl} (h : Reach S T c n f) {call : Call Dbl} (hc : call.design.cls = c) (ho : call.order n ≠ -1)
    (hok : (PoleFilter.setup n call (PoleFilter.init S c n)).1 = .ok ()) :
    (PoleFilter.setup n call f).1 = .ok () ∧
      SameConfig (PoleFilter.setup n call f).2 (PoleFilter.setup n call (PoleFilter.init S c n)).2 :=
  C12_history_partial hn1 hn h hc ho hok

/-- **C19** in double arithmetic. -/
theorem C19_double_partial {T : Type} [Sample T Dbl] {c : Cls} {n : Nat} (hn1 : 1 ≤ n) (hn : n < 2 ^ 30)
    {f : PoleFilter S Dbl} (h : Reach S T c n f) (call : Call Dbl) (hc : call.design.cls = c) (o : Nat)
    (ho : call.order n = o) (hok : (PoleFilter.setup n call (PoleFilter.init S c n)).1 = .ok ()) :
    (PoleFilter.setup n call f).2.getNumStages = Spec.sectionCount o c ∧
      ∃ ps, (PoleFilter.setup n call f).2.getPoleZeros = .ok ps ∧ ps.length = Spec.sectionCount o c :=
  C19_counts_partial hn1 hn h call hc o ho hok

/-- **C09** in double arithmetic. -/
theorem C09_double {c : Cls} {n : Nat} (hn1 : 1 ≤ n) (hn : n < 2 ^ 30)
    {f : PoleFilter S Dbl} (h : Reach S Dbl c n f) (xs ys : List Dbl) :
    ∃ us vs f', feed (PoleFilter.filter (T := Dbl)) (xs ++ Dbl.nan :: ys) f = (.ok (us ++ vs), f') ∧
      us.length = xs.length ∧ vs.length = ys.length + 1 ∧ ∀ v ∈ vs, v = Dbl.nan := by
  obtain ⟨us, vs, f', h1, h2, h3, h4⟩ := C09_poisoned hn1 hn h xs ys Dbl.nan ((Dbl.isNan_iff _).2 rfl)
  exact ⟨us, vs, f', h1, h2, h3, fun v hv => (Dbl.isNan_iff _).1 (h4 v hv)⟩

/-! ## Examples -/

/-- The double that stands for a dyadic number. -/
noncomputable def exNum (s : Bool) (m : ℕ) (k : ℤ) (h : m < 2 ^ 53) (hk : -1074 ≤ k ∧ k ≤ 971) : Dbl :=
  .num s ⟨m * 2 ^ k, by positivity, m, k, by simpa using h, hk.1, hk.2, by simp⟩

/-- the coefficients of `exLeak` (`Props/Rounding`): `a1 = -1/2`, `b0 = 1` -/
noncomputable def exLeakD : Biquad Dbl :=
  { a0 := exNum false 1 0 (by norm_num) (by norm_num), a1 := exNum true 1 (-1) (by norm_num) (by norm_num),
    a2 := Dbl.zero false, b0 := exNum false 1 0 (by norm_num) (by norm_num), b1 := Dbl.zero false,
    b2 := Dbl.zero false }

theorem exLeakD_values : doubleRounds.Values exLeakD exLeak :=
  ⟨rfl, ⟨trivial, by show -((1 : ℕ) * (2 : ℝ) ^ (-1 : ℤ)) = -1 / 2; norm_num⟩, ⟨trivial, val_zero false⟩,
    ⟨trivial, by show ((1 : ℕ) * (2 : ℝ) ^ (0 : ℤ)) = 1; norm_num⟩, ⟨trivial, val_zero false⟩, ⟨trivial, val_zero false⟩⟩

theorem exLeak_stable : exLeak.Stable := by
  intro z hz
  have : z * (z - 1 / 2) = 0 := by
    simp [exLeak] at hz
    linear_combination hz
  rcases mul_eq_zero.1 this with h | h
  · simp [h]
  · rw [sub_eq_zero.1 h]; norm_num

theorem exLeak_double : exLeak.Precise ((1 / 2) ^ 53) := exLeak_precise (by norm_num)

/-- two such sections: the error stays below `C` times the rounding errors, whatever the delay line -/
example : ∃ C : ℝ, 0 < C ∧ ∀ (X : ℝ) (x : ℕ → Dbl), doubleRounds.Input X x → C * (X + (1 / 2) ^ 1075) ≤ maxDouble →
    ∃ y z, Returns (Custom.SOS.filter (T := Dbl))
        (Custom.SOS.reset (S := DirectFormI) ⟨[exLeakD, exLeakD], [initR _ _, initR _ _]⟩).2 x y ∧
      Returns (Custom.SOS.filter (T := Dbl))
        (Custom.SOS.reset (S := DirectFormII) ⟨[exLeakD, exLeakD], [initR _ _, initR _ _]⟩).2 x z ∧
      ∀ n, (y n).Finite ∧ (z n).Finite ∧ |(y n).val - (z n).val| ≤ 2 * C * ((1 / 2) ^ 53 * X + (1 / 2) ^ 1075) := by
  obtain ⟨C, hC, h⟩ := C64_topologies (ks := [exLeak, exLeak]) (by simpa using exLeak_stable)
    (by simpa using exLeak_double)
  exact ⟨C, hC, fun X x hx hX => h DirectFormI DirectFormII _ _ rfl rfl rfl
    (.cons exLeakD_values (.cons exLeakD_values .nil)) X x hx hX⟩

/-- an input of ones -/
example : doubleRounds.Input 1 (fun _ => exNum false 1 0 (by norm_num) (by norm_num)) :=
  fun _ => ⟨trivial, by
    show |((1 : ℕ) * (2 : ℝ) ^ (0 : ℤ))| ≤ 1
    norm_num⟩

/-- finite coefficients -/
example : FiniteCoeffs exLeakD := ⟨trivial, trivial, trivial, trivial, trivial⟩

/-- RBJ filters return something for every input, so the hypotheses of C65 can be met. -/
example (x : ℕ → Dbl) : ∃ y, Returns (RBJ.Filter.filter (T := Dbl))
    (RBJ.Filter.reset { biquad := exLeakD, state := initR DirectFormI Dbl }).2 x y := ⟨_, RBJ.Filter.returns x⟩

end Iir
