import Verif.Lemmas.RoundChain
import Mathlib.Data.Int.Log

/-! # C54: rounding errors

The other statements about signals are about exact arithmetic.  These are about every arithmetic whose sums, differences and
products have a relative error of at most `u` and an absolute error of at most `η` as long as they are below `Ω`
(`Spec.Rounds`), so about IEEE doubles with `u = 2⁻⁵³`, `η = 2⁻¹⁰⁷⁵`, `Ω = 1.8·10³⁰⁸`. -/

set_option linter.unusedSectionVars false

namespace Iir
open FArith Spec Exec

/-- **C54** for one stable section with poles `p` and `q`, with an explicit bound: `M` bounds all intermediate results. -/
theorem C54_section {R : Type} [FArith R] {S : Type → Type} [StateType S R] [DelayLine R S] {u η Ω : ℝ}
    (r : Rounds R u η Ω) {b : Biquad R} {k : Coeffs} (hv : r.Values b k) {p q : ℂ} (hk : k.StablePoles p q) {X M : ℝ}
    {x : ℕ → R} (hx : r.Input X x) (hM0 : 0 ≤ M) (hM : M ≤ Ω)
    (hfit : (1 + (k.back + k.forward) * poleGain p q) * ((1 + k.forward) * X + 9 * (u * M + η)) ≤ M)
    (s : S R) {y : ℕ → ℝ} (hy : k.DiffEq (fun n => r.val (x n)) y) :
    r.Within (9 * poleGain p q * (1 + k.back + k.forward) * (u * M + η))
      (outAt (fun x s => StateType.filter x b s) (StateType.reset s) x) y := by
  rw [LawfulState.reset_eq]
  exact section_within S r (F := none) (by simp) (SecC.plain b x) hv hk hx hM0 ⟨hM, hfit⟩ hy

/-- **C54**: sections that are stable are served by every arithmetic that is precise enough. -/
theorem C54_precise {ks : List Coeffs} (hst : ∀ k ∈ ks, k.a0 = 1 ∧ k.Stable) :
    ∃ u0 : ℝ, 0 < u0 ∧ ∀ u ≤ u0, ∀ k ∈ ks, k.Precise u := by
  induction ks with
  | nil => exact ⟨1, one_pos, by simp⟩
  | cons k ks ih =>
    obtain ⟨u1, h1, h2⟩ := ih fun k hk => hst k (List.mem_cons_of_mem _ hk)
    obtain ⟨u2, h3, h4⟩ := precise_of_small (hst k List.mem_cons_self).1 (hst k List.mem_cons_self).2
    refine ⟨min u1 u2, lt_min h1 h3, fun u hu k' hk' => ?_⟩
    rcases List.mem_cons.1 hk' with rfl | hk'
    · exact h4 u (hu.trans (min_le_right _ _))
    · exact h2 u (hu.trans (min_le_left _ _)) k' hk'

/-- **C54** for pole filters (all classes, orders, histories and delay lines): there are constants that depend on the
stored coefficients only, such that after `reset`, in every arithmetic that is precise enough for the sections and for every input
bounded by `X`, all outputs are finite and differ from the exact response to that input by at most `C (u X + η)`, for all
time. -/
theorem C54_pole_filter {ks : List Coeffs} (hst : ∀ k ∈ ks, k.Stable) :
    ∃ C : ℝ, 0 < C ∧ ∀ (R : Type) [FArith R] (S : Type → Type) [StateType S R] [DelayLine R S]
      (T : Type) [Sample T R] (u η Ω : ℝ) (r : Rounds R u η Ω), (∀ k ∈ ks, k.Precise u) →
      ∀ (c : Cls) (n : Nat), 1 ≤ n → n < 2 ^ 30 → ∀ f : PoleFilter S R, Reach S T c n f →
      List.Forall₂ r.Values f.base.cascade.stages ks → ∀ (X : ℝ) (x : ℕ → R), r.Input X x → C * (X + η) ≤ Ω →
      ∃ y', Returns (PoleFilter.filter (T := R)) (PoleFilter.reset f).2 x y' ∧
        ∀ y, DiffChain ks (fun n => r.val (x n)) y → r.Within (C * (u * X + η)) y' y := by
  by_cases h1 : ∀ k ∈ ks, k.a0 = 1
  · obtain ⟨C, hC, h⟩ := chain_within fun k hk => ⟨h1 k hk, hst k hk⟩
    refine ⟨C, by linarith, ?_⟩
    intro R _ S _ _ T _ u η Ω r hu c n hn1 hn f hf hv X x hx hΩ
    exact ⟨_, PoleFilter.returns (hf.wired hn1 hn) x, fun y hy => h R S u η Ω r hu _ hv X x hx hΩ none (by simp) _ (ChainC.plain _ x) y hy⟩
  · refine ⟨1, one_pos, ?_⟩
    intro R _ S _ _ T _ u η Ω r hu c n hn1 hn f hf hv
    exact absurd (fun k hk => forall₂_a0 hv k hk) h1
where
  forall₂_a0 {R : Type} [FArith R] {u η Ω : ℝ} {r : Rounds R u η Ω} {bs : List (Biquad R)} {ks : List Coeffs}
      (h : List.Forall₂ r.Values bs ks) : ∀ k ∈ ks, k.a0 = 1 := by
    induction h with
    | nil => simp
    | cons h _ ih => simpa using ⟨h.a0, ih⟩

/-- **C54** for SOS cascades. -/
theorem C54_sos {ks : List Coeffs} (hst : ∀ k ∈ ks, k.Stable) :
    ∃ C : ℝ, 0 < C ∧ ∀ (R : Type) [FArith R] (S : Type → Type) [StateType S R] [DelayLine R S]
      (u η Ω : ℝ) (r : Rounds R u η Ω), (∀ k ∈ ks, k.Precise u) → ∀ f : Custom.SOS S R, f.states.length = f.stages.length →
      List.Forall₂ r.Values f.stages ks → ∀ (X : ℝ) (x : ℕ → R), r.Input X x → C * (X + η) ≤ Ω →
      ∃ y', Returns (Custom.SOS.filter (T := R)) (Custom.SOS.reset f).2 x y' ∧
        ∀ y, DiffChain ks (fun n => r.val (x n)) y → r.Within (C * (u * X + η)) y' y := by
  by_cases h1 : ∀ k ∈ ks, k.a0 = 1
  · obtain ⟨C, hC, h⟩ := chain_within fun k hk => ⟨h1 k hk, hst k hk⟩
    refine ⟨C, by linarith, ?_⟩
    intro R _ S _ _ u η Ω r hu f hf hv X x hx hΩ
    exact ⟨_, Custom.SOS.returns hf x, fun y hy => h R S u η Ω r hu _ hv X x hx hΩ none (by simp) _ (ChainC.plain _ x) y hy⟩
  · refine ⟨1, one_pos, ?_⟩
    intro R _ S _ _ u η Ω r hu f hf hv
    exact absurd (fun k hk => C54_pole_filter.forall₂_a0 hv k hk) h1

/-- **C54** for RBJ filters. -/
theorem C54_rbj {k : Coeffs} (hst : k.Stable) :
    ∃ C : ℝ, 0 < C ∧ ∀ (R : Type) [FArith R] (u η Ω : ℝ) (r : Rounds R u η Ω), k.Precise u →
      ∀ f : RBJ.Filter R, r.Values f.biquad k → ∀ (X : ℝ) (x : ℕ → R), r.Input X x → C * (X + η) ≤ Ω →
      ∃ y', Returns (RBJ.Filter.filter (T := R)) (RBJ.Filter.reset f).2 x y' ∧
        ∀ y, k.DiffEq (fun n => r.val (x n)) y → r.Within (C * (u * X + η)) y' y := by
  by_cases h1 : k.a0 = 1
  · obtain ⟨C, hC, h⟩ := chain_within (ks := [k]) (by simpa using ⟨h1, hst⟩)
    refine ⟨C, by linarith, ?_⟩
    intro R _ u η Ω r hu f hv X x hx hΩ
    exact ⟨_, RBJ.Filter.returns x, fun y hy => h R DirectFormI u η Ω r (by simpa using hu) _ (.cons hv .nil) X x hx hΩ none (by simp) _ (ChainC.plain _ x) y (.cons hy (.nil _))⟩
  · refine ⟨1, one_pos, ?_⟩
    intro R _ u η Ω r hu f hv
    exact absurd hv.a0 h1

/-! ## Arithmetics that meet the hypotheses -/

/-- Exact arithmetic. -/
noncomputable def exactRounds (Ω : ℝ) : Rounds XR 0 0 Ω where
  Fin x := ∃ a, x = .fin a
  val x := match x with | .fin a => a | _ => 0
  u_nonneg := le_rfl
  η_nonneg := le_rfl
  zero := ⟨⟨0, XR.lit_zero⟩, by rw [XR.lit_zero]⟩
  add := by
    rintro _ _ ⟨a, rfl⟩ ⟨b, rfl⟩ -
    rw [XR.fin_add]
    exact ⟨⟨_, rfl⟩, by simp⟩
  sub := by
    rintro _ _ ⟨a, rfl⟩ ⟨b, rfl⟩ -
    rw [XR.fin_sub]
    exact ⟨⟨_, rfl⟩, by simp⟩
  mul := by
    rintro _ _ ⟨a, rfl⟩ ⟨b, rfl⟩ -
    rw [XR.fin_mul]
    exact ⟨⟨_, rfl⟩, by simp⟩

/-- Round `a` down to `m + 1` significant bits. -/
noncomputable def chop (m : ℕ) (a : ℝ) : ℝ :=
  if a = 0 then 0 else ⌊a / (2 : ℝ) ^ (Int.log 2 |a| - (m : ℤ))⌋ * (2 : ℝ) ^ (Int.log 2 |a| - (m : ℤ))

theorem chop_close (m : ℕ) (a : ℝ) : |chop m a - a| ≤ (1 / 2) ^ m * |a| := by
  unfold chop
  split_ifs with h
  · simp [h]
  · have ha : 0 < |a| := abs_pos.2 h
    have h1 : (2 : ℝ) ^ (Int.log 2 |a|) ≤ |a| := by
      have := Int.zpow_log_le_self (R := ℝ) (b := 2) (r := |a|) (by norm_num) ha
      simpa using this
    have h2 : (0 : ℝ) < (2 : ℝ) ^ (Int.log 2 |a| - (m : ℤ)) := by positivity
    have h3 : (2 : ℝ) ^ (Int.log 2 |a| - (m : ℤ)) ≤ (1 / 2) ^ m * |a| := by
      rw [zpow_sub₀ (by norm_num), zpow_natCast, div_eq_inv_mul, one_div, inv_pow]
      exact mul_le_mul_of_nonneg_left h1 (by positivity)
    generalize (2 : ℝ) ^ (Int.log 2 |a| - (m : ℤ)) = e at *
    have h4 := Int.floor_le (a / e)
    have h5 := Int.lt_floor_add_one (a / e)
    rw [le_div_iff₀ h2] at h4
    rw [div_lt_iff₀ h2] at h5
    exact abs_le.2 ⟨by linarith, by linarith⟩

/-- Chopped number. -/
noncomputable def XR.chop (m : ℕ) : XR → XR
  | .fin a => .fin (Iir.chop m a)
  | x => x

/-- Binary floating point numbers with `m + 1` significant bits (and unbounded exponents). -/
def Chop (_ : ℕ) : Type := XR

/-- Their arithmetic, rounding down. -/
noncomputable instance chopArith (m : ℕ) : FArith (Chop m) :=
  { exactArith with
    add := fun x y => XR.chop m (XR.add x y)
    sub := fun x y => XR.chop m (XR.sub x y)
    mul := fun x y => XR.chop m (XR.mul x y) }

/-- It has relative error `2⁻ᵐ`. -/
noncomputable def chopRounds (m : ℕ) (Ω : ℝ) : Rounds (Chop m) ((1 / 2) ^ m) 0 Ω where
  Fin x := ∃ a, x = XR.fin a
  val x := match x with | XR.fin a => a | _ => 0
  u_nonneg := by positivity
  η_nonneg := le_rfl
  zero := ⟨⟨0, XR.lit_zero⟩, by
      show (match (0 : XR) with | .fin a => a | _ => 0) = (0 : ℝ)
      rw [XR.lit_zero]⟩
  add := by
    rintro _ _ ⟨a, rfl⟩ ⟨b, rfl⟩ -
    refine ⟨⟨_, rfl⟩, ?_⟩
    rw [add_zero]
    exact chop_close m (a + b)
  sub := by
    rintro _ _ ⟨a, rfl⟩ ⟨b, rfl⟩ -
    refine ⟨⟨_, rfl⟩, ?_⟩
    rw [add_zero]
    exact chop_close m (a - b)
  mul := by
    rintro _ _ ⟨a, rfl⟩ ⟨b, rfl⟩ -
    refine ⟨⟨_, rfl⟩, ?_⟩
    rw [add_zero]
    exact chop_close m (a * b)

/-- `y[n] = x[n] + y[n-1] / 2` -/
noncomputable def exLeak : Coeffs := { a0 := 1, a1 := -1 / 2, a2 := 0, b0 := 1, b1 := 0, b2 := 0 }

theorem exLeak_poles : exLeak.StablePoles (1 / 2) 0 :=
  ⟨by simp [exLeak]; norm_num, by simp [exLeak], by norm_num, by norm_num⟩

theorem exLeak_precise {u : ℝ} (hu : u ≤ 1 / 72) : exLeak.Precise u := by
  intro p q h
  rw [StablePoles_unique exLeak_poles h]
  simp [exLeak, Coeffs.back, Coeffs.forward, poleGain]
  norm_num
  linarith

/-- the coefficients of `exLeak` -/
noncomputable def exLeakB (m : ℕ) : Biquad (Chop m) :=
  { a0 := XR.fin 1, a1 := XR.fin (-1 / 2), a2 := XR.fin 0, b0 := XR.fin 1, b1 := XR.fin 0, b2 := XR.fin 0 }

theorem exLeak_values (m : ℕ) (Ω : ℝ) : (chopRounds m Ω).Values (exLeakB m) exLeak :=
  ⟨rfl, ⟨⟨_, rfl⟩, rfl⟩, ⟨⟨_, rfl⟩, rfl⟩, ⟨⟨_, rfl⟩, rfl⟩, ⟨⟨_, rfl⟩, rfl⟩, ⟨⟨_, rfl⟩, rfl⟩⟩

/-- A leaky integrator in 54 bit arithmetic, fed with numbers up to 1000: the error stays below `10⁻⁹` for ever. -/
example (s : TransposedDirectFormII (Chop 53)) (x : ℕ → Chop 53) (hx : (chopRounds 53 (10 ^ 6)).Input 1000 x) (y : ℕ → ℝ)
    (hy : exLeak.DiffEq (fun n => (chopRounds 53 (10 ^ 6)).val (x n)) y) :
    (chopRounds 53 (10 ^ 6)).Within (1 / 10 ^ 9)
      (outAt (fun x s => StateType.filter x (exLeakB 53) s)
        (@StateType.reset TransposedDirectFormII (Chop 53) (chopArith 53) _ s) x) y := by
  have h := C54_section (chopRounds 53 (10 ^ 6)) (exLeak_values _ _) exLeak_poles (M := 10 ^ 5) hx (by norm_num)
    (by norm_num) (by simp [exLeak, Coeffs.back, Coeffs.forward, poleGain]; norm_num) s hy
  intro n
  refine ⟨(h n).1, (h n).2.trans ?_⟩
  simp [exLeak, Coeffs.back, Coeffs.forward, poleGain]
  norm_num

/-- such an input -/
example : (chopRounds 53 (10 ^ 6)).Input 1000 (fun _ => (XR.fin 1 : XR)) :=
  fun _ => ⟨⟨1, rfl⟩, by show |(1 : ℝ)| ≤ 1000; norm_num⟩

/-- a cascade of two such sections meets the hypotheses of `C54_sos` -/
example : ∃ C : ℝ, 0 < C ∧ ∀ m Ω X, 7 ≤ m → C * X ≤ Ω → ∀ x, (chopRounds m Ω).Input X x →
    ∃ y', Returns (Custom.SOS.filter (T := Chop m))
      (Custom.SOS.reset (R := Chop m) (S := DirectFormII) ⟨[exLeakB m, exLeakB m], [initR _ _, initR _ _]⟩).2 x y' ∧
      ∀ y, DiffChain [exLeak, exLeak] (fun n => (chopRounds m Ω).val (x n)) y →
        (chopRounds m Ω).Within (C * ((1 / 2) ^ m * X + 0)) y' y := by
  have hst : exLeak.Stable := by
    intro z hz
    have : z * (z - 1 / 2) = 0 := by
      simp [exLeak] at hz
      linear_combination hz
    rcases mul_eq_zero.1 this with h | h
    · simp [h]
    · rw [sub_eq_zero.1 h]; norm_num
  obtain ⟨C, hC, h⟩ := C54_sos (ks := [exLeak, exLeak]) (by simpa using hst)
  refine ⟨C, hC, fun m Ω X hm hX x hx => ?_⟩
  have hp : exLeak.Precise ((1 / 2) ^ m) := exLeak_precise (by
    calc (1 / 2 : ℝ) ^ m ≤ (1 / 2) ^ 7 := pow_le_pow_of_le_one (by norm_num) (by norm_num) hm
      _ ≤ _ := by norm_num)
  exact h (Chop m) DirectFormII _ _ _ (chopRounds m Ω) (by simpa using hp) _ rfl
    (.cons (exLeak_values _ _) (.cons (exLeak_values _ _) .nil)) X x hx (by rwa [add_zero])

end Iir
