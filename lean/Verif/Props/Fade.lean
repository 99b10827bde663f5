import Verif.Lemmas.Fade
import Verif.Props.Contraction
import Verif.Props.Double

/-! # C86, C87: loud passages are forgotten, rounding errors included

C54 bounds the rounding errors by the loudest sample of the whole input.  In the long run only the present loudness
counts: the errors of a loud passage fade away, as the passage itself does, up to the errors near zero (`η`, for doubles half of the
smallest number).  There are no limit cycles above that level; there are some at it. -/

set_option linter.unusedSectionVars false

namespace Iir
open FArith Spec Exec

/-- **C86** for pole filters (all classes, orders, histories and delay lines; any choice of fused operations): if the
input calms down to `X1`, then the output calms down to `C (X1 + η)` and its distance from the exact response to
`C (u X1 + η)`, whatever the loudness `X` of the past was. -/
theorem C86_pole_filter {ks : List Coeffs} (hst : ∀ k ∈ ks, k.Stable) :
    ∃ C : ℝ, 0 < C ∧ ∀ (R : Type) [FArith R] (S : Type → Type) [StateType S R] [DelayLine R S]
      (T : Type) [Sample T R] (u η Ω : ℝ) (r : Rounds R u η Ω), (∀ k ∈ ks, k.Precise (2 * u)) →
      ∀ (c : Cls) (n : Nat), 1 ≤ n → n < 2 ^ 30 → ∀ f : PoleFilter S R, Reach S T c n f →
      List.Forall₂ r.Values f.base.cascade.stages ks → ∀ (X : ℝ) (x : ℕ → R), r.Input X x → C * (X + η) ≤ Ω →
      ∀ F, (∀ fma ∈ F, r.Fused fma) → ∀ y', (PoleFilter.reset f).2.ReturnsC F x y' →
      ∀ X1, CalmsTo (fun n => r.val (x n)) X1 →
        (∀ n, r.Fin (y' n)) ∧ CalmsTo (fun n => r.val (y' n)) (C * (X1 + η)) ∧
        ∀ y, DiffChain ks (fun n => r.val (x n)) y → CalmsTo (fun n => r.val (y' n) - y n) (C * (u * X1 + η)) := by
  by_cases h1 : ∀ k ∈ ks, k.a0 = 1
  · obtain ⟨C, hC, h⟩ := chain_fade_all fun k hk => ⟨h1 k hk, hst k hk⟩
    refine ⟨C, hC, ?_⟩
    intro R _ S _ _ T _ u η Ω r hu c n hn1 hn f hf hv X x hx hΩ F hfm y' hy'
    exact h R S u η Ω r hu _ hv X x hx hΩ F hfm y' (PoleFilter.ReturnsC.chain (hf.wired hn1 hn) hy')
  · refine ⟨1, one_pos, ?_⟩
    intro R _ S _ _ T _ u η Ω r hu c n hn1 hn f hf hv
    exact absurd (fun k hk => C54_pole_filter.forall₂_a0 hv k hk) h1

/-- **C86** for SOS cascades. -/
theorem C86_sos {ks : List Coeffs} (hst : ∀ k ∈ ks, k.Stable) :
    ∃ C : ℝ, 0 < C ∧ ∀ (R : Type) [FArith R] (S : Type → Type) [StateType S R] [DelayLine R S]
      (u η Ω : ℝ) (r : Rounds R u η Ω), (∀ k ∈ ks, k.Precise (2 * u)) → ∀ f : Custom.SOS S R, f.states.length = f.stages.length →
      List.Forall₂ r.Values f.stages ks → ∀ (X : ℝ) (x : ℕ → R), r.Input X x → C * (X + η) ≤ Ω →
      ∀ F, (∀ fma ∈ F, r.Fused fma) → ∀ y', (Custom.SOS.reset f).2.ReturnsC F x y' →
      ∀ X1, CalmsTo (fun n => r.val (x n)) X1 →
        (∀ n, r.Fin (y' n)) ∧ CalmsTo (fun n => r.val (y' n)) (C * (X1 + η)) ∧
        ∀ y, DiffChain ks (fun n => r.val (x n)) y → CalmsTo (fun n => r.val (y' n) - y n) (C * (u * X1 + η)) := by
  by_cases h1 : ∀ k ∈ ks, k.a0 = 1
  · obtain ⟨C, hC, h⟩ := chain_fade_all fun k hk => ⟨h1 k hk, hst k hk⟩
    refine ⟨C, hC, ?_⟩
    intro R _ S _ _ u η Ω r hu f hf hv X x hx hΩ F hfm y' hy'
    exact h R S u η Ω r hu _ hv X x hx hΩ F hfm y' (Custom.SOS.ReturnsC.chain hf hy')
  · refine ⟨1, one_pos, ?_⟩
    intro R _ S _ _ u η Ω r hu f hf hv
    exact absurd (fun k hk => C54_pole_filter.forall₂_a0 hv k hk) h1

/-- **C86** for RBJ filters. -/
theorem C86_rbj {k : Coeffs} (hst : k.Stable) :
    ∃ C : ℝ, 0 < C ∧ ∀ (R : Type) [FArith R] (u η Ω : ℝ) (r : Rounds R u η Ω), k.Precise (2 * u) →
      ∀ f : RBJ.Filter R, r.Values f.biquad k → ∀ (X : ℝ) (x : ℕ → R), r.Input X x → C * (X + η) ≤ Ω →
      ∀ F, (∀ fma ∈ F, r.Fused fma) → ∀ y', (RBJ.Filter.reset f).2.ReturnsC F x y' →
      ∀ X1, CalmsTo (fun n => r.val (x n)) X1 →
        (∀ n, r.Fin (y' n)) ∧ CalmsTo (fun n => r.val (y' n)) (C * (X1 + η)) ∧
        ∀ y, k.DiffEq (fun n => r.val (x n)) y → CalmsTo (fun n => r.val (y' n) - y n) (C * (u * X1 + η)) := by
  by_cases h1 : k.a0 = 1
  · obtain ⟨C, hC, h⟩ := chain_fade_all (ks := [k]) (by simpa using ⟨h1, hst⟩)
    refine ⟨C, hC, ?_⟩
    intro R _ u η Ω r hu f hv X x hx hΩ F hfm y' hy' X1 hX1
    obtain ⟨a, b, c⟩ := h R DirectFormI u η Ω r (by simpa using hu) _ (.cons hv .nil) X x hx hΩ F hfm y'
      (RBJ.Filter.ReturnsC.chain hy') X1 hX1
    exact ⟨a, b, fun y hy => c y (.cons hy (.nil _))⟩
  · refine ⟨1, one_pos, ?_⟩
    intro R _ u η Ω r hu f hv
    exact absurd hv.a0 h1

/-- A signal that is zero from some time on. -/
theorem Spec.CalmsTo.of_zero {z : ℕ → ℝ} {N : ℕ} (h : ∀ n ≥ N, z n = 0) : CalmsTo z 0 :=
  fun ε hε => ⟨N, fun n hn => by rw [h n hn, abs_zero, zero_add]; exact hε.le⟩

/-! ## C87: silence in IEEE doubles

The full statement is that the output of a stable filter is zero from some time on when the input is.  This is false
(`C87_false`); what holds is that it stays at the level of the smallest doubles. -/

/-- **C87**, the part that holds, for pole filters (with or without the IEEE fused multiply-add): when the input ends, the
output falls below a multiple of `2⁻¹⁰⁷⁴`, the smallest double, for ever; the factor depends on the coefficients only. -/
theorem C87_pole_filter_partial {ks : List Coeffs} (hst : ∀ k ∈ ks, k.Stable) (hp : ∀ k ∈ ks, k.Precise ((1 / 2) ^ 52)) :
    ∃ C : ℝ, 0 < C ∧ ∀ (S : Type → Type) [StateType S Dbl] [DelayLine Dbl S] (T : Type) [Sample T Dbl] (c : Cls) (n : Nat),
      1 ≤ n → n < 2 ^ 30 → ∀ f : PoleFilter S Dbl, Reach S T c n f →
      List.Forall₂ doubleRounds.Values f.base.cascade.stages ks → ∀ (X : ℝ) (x : ℕ → Dbl),
      (∀ i, (x i).Finite ∧ |(x i).val| ≤ X) → C * (X + (1 / 2) ^ 1075) ≤ maxDouble → ∀ N, (∀ i ≥ N, (x i).val = 0) →
      ∀ F, (F = none ∨ F = some Dbl.fma) → ∀ y', (PoleFilter.reset f).2.ReturnsC F x y' →
        (∀ i, (y' i).Finite) ∧ ∃ N', ∀ i ≥ N', |(y' i).val| ≤ C * (1 / 2) ^ 1074 := by
  obtain ⟨C, hC, h⟩ := C86_pole_filter hst
  refine ⟨C, hC, ?_⟩
  intro S _ _ T _ c n hn1 hn f hf hv X x hx hΩ N hN F hF y' hy'
  obtain ⟨a, b, -⟩ := h Dbl S T _ _ _ doubleRounds (by
    intro k hk; have := hp k hk; rwa [show (2 : ℝ) * (1 / 2) ^ 53 = (1 / 2) ^ 52 by norm_num]) c n hn1 hn f hf hv X x hx hΩ F
    (by rcases hF with rfl | rfl
        · simp
        · simpa using Dbl.fma_fused) y' hy' 0 (CalmsTo.of_zero hN)
  obtain ⟨N', hN'⟩ := b (C * (1 / 2) ^ 1075) (by positivity)
  refine ⟨a, N', fun i hi => (hN' i hi).trans (le_of_eq ?_)⟩
  rw [show (1075 : ℕ) = 1074 + 1 from rfl, pow_succ]
  ring

/-- **C87**, the part that holds, for RBJ filters. -/
theorem C87_rbj_partial {k : Coeffs} (hst : k.Stable) (hp : k.Precise ((1 / 2) ^ 52)) :
    ∃ C : ℝ, 0 < C ∧ ∀ f : RBJ.Filter Dbl, doubleRounds.Values f.biquad k → ∀ (X : ℝ) (x : ℕ → Dbl),
      (∀ i, (x i).Finite ∧ |(x i).val| ≤ X) → C * (X + (1 / 2) ^ 1075) ≤ maxDouble → ∀ N, (∀ i ≥ N, (x i).val = 0) →
      ∀ F, (F = none ∨ F = some Dbl.fma) → ∀ y', (RBJ.Filter.reset f).2.ReturnsC F x y' →
        (∀ i, (y' i).Finite) ∧ ∃ N', ∀ i ≥ N', |(y' i).val| ≤ C * (1 / 2) ^ 1074 := by
  obtain ⟨C, hC, h⟩ := C86_rbj hst
  refine ⟨C, hC, ?_⟩
  intro f hv X x hx hΩ N hN F hF y' hy'
  obtain ⟨a, b, -⟩ := h Dbl _ _ _ doubleRounds (by
    rwa [show (2 : ℝ) * (1 / 2) ^ 53 = (1 / 2) ^ 52 by norm_num]) f hv X x hx hΩ F
    (by rcases hF with rfl | rfl
        · simp
        · simpa using Dbl.fma_fused) y' hy' 0 (CalmsTo.of_zero hN)
  obtain ⟨N', hN'⟩ := b (C * (1 / 2) ^ 1075) (by positivity)
  refine ⟨a, N', fun i hi => (hN' i hi).trans (le_of_eq ?_)⟩
  rw [show (1075 : ℕ) = 1074 + 1 from rfl, pow_succ]
  ring

/-! ## The level near zero is reached, and kept

The bound for silence cannot be zero: a filter may hold the smallest double for ever. -/

namespace Dbl

/-- a finite double with the value `v` -/
def Is (v : ℝ) (a : Dbl) : Prop := a.Finite ∧ a.val = v

/-- the smallest positive double -/
noncomputable def tiny : ℝ := 2 ^ (-1074 : ℤ)

theorem tiny_pos : 0 < tiny := by unfold tiny; positivity

theorem isDouble_tiny : IsDouble tiny := ⟨1, -1074, by norm_num, le_rfl, by norm_num, by simp [tiny]⟩

theorem Is.add {v w : ℝ} {a b : Dbl} (ha : Is v a) (hb : Is w b) (h : IsDouble (v + w)) : Is (v + w) (a + b) := by
  obtain ⟨fa, rfl⟩ := ha
  obtain ⟨fb, rfl⟩ := hb
  rcases a with _ | s | ⟨s, x⟩ <;> rcases b with _ | t | ⟨t, y⟩ <;> first | exact fa.elim | exact fb.elim | exact ofReal_isDouble _ h

theorem Is.neg {v : ℝ} {a : Dbl} (ha : Is v a) : Is (-v) (-a) :=
  ⟨finite_neg ha.1, by rw [val_neg, ha.2]⟩

theorem Is.sub {v w : ℝ} {a b : Dbl} (ha : Is v a) (hb : Is w b) (h : IsDouble (v - w)) : Is (v - w) (a - b) := by
  rw [sub_def, sub_eq_add_neg]
  exact ha.add hb.neg (by rwa [← sub_eq_add_neg])

theorem Is.mul {v w : ℝ} {a b : Dbl} (ha : Is v a) (hb : Is w b) (h : IsDouble (v * w)) : Is (v * w) (a * b) := by
  obtain ⟨fa, rfl⟩ := ha
  obtain ⟨fb, rfl⟩ := hb
  rcases a with _ | s | ⟨s, x⟩ <;> rcases b with _ | t | ⟨t, y⟩ <;> first | exact fa.elim | exact fb.elim | exact ofReal_isDouble _ h

theorem Is.div_one {v : ℝ} {a b : Dbl} (ha : Is v a) (hb : Is 1 b) (h : IsDouble v) : Is v (a / b) := by
  obtain ⟨fa, rfl⟩ := ha
  obtain ⟨fb, e⟩ := hb
  rcases a with _ | s | ⟨s, x⟩ <;> rcases b with _ | t | ⟨t, y⟩ <;> try first | exact fa.elim | exact fb.elim
  have h0 : y.1 ≠ 0 := by
    rw [← abs_val t y, e]; norm_num
  show Is _ (Dbl.div (num s x) (num t y))
  rw [Dbl.div, if_neg h0, e, _root_.div_one]
  exact ofReal_isDouble _ h

theorem round_tiny : roundReal (3 / 4 * tiny) = tiny := by
  have ht := tiny_pos
  have h1 := roundReal_nearest (3 / 4 * tiny) isDouble_tiny
  have h2 : |tiny - 3 / 4 * tiny| = tiny / 4 := by rw [abs_of_nonneg (by linarith)]; ring
  rw [h2] at h1
  have hlt : roundReal (3 / 4 * tiny) < 2 ^ 1024 := by
    have := (abs_le.1 h1).2
    have : tiny ≤ 1 := by
      unfold tiny; exact zpow_le_one_of_nonpos₀ (by norm_num) (by norm_num)
    refine lt_of_le_of_lt (b := 1) (by linarith) (one_lt_pow₀ (by norm_num) (by norm_num))
  obtain ⟨-, m, e, -, he, -, h3⟩ := isDouble_roundReal (x := 3 / 4 * tiny) (by positivity) hlt
  obtain ⟨j, rfl⟩ : ∃ j : ℕ, e = -1074 + j := ⟨(e + 1074).toNat, by omega⟩
  have h4 : roundReal (3 / 4 * tiny) = ((m * 2 ^ j : ℤ) : ℝ) * tiny := by
    rw [h3, zpow_add₀ (by norm_num), zpow_natCast]; push_cast; unfold tiny; ring
  rw [h4] at h1 ⊢
  generalize m * 2 ^ j = i at *
  have h5 : |((i : ℝ) - 3 / 4) * tiny| ≤ 1 / 4 * tiny := by
    rw [sub_mul]; linarith
  rw [abs_mul, abs_of_pos ht] at h5
  have h6 := abs_le.1 (le_of_mul_le_mul_right h5 ht)
  have h7 : i = 1 := by
    have a1 : (0 : ℝ) < i := by linarith
    have a2 : (i : ℝ) < 2 := by linarith
    have a1 : 0 < i := by exact_mod_cast a1
    have a2 : i < 2 := by exact_mod_cast a2
    omega
  rw [h7]; simp

/-- `-3/4` times the smallest double is, rounded, minus the smallest double -/
theorem Is.mul_tiny {a b : Dbl} (ha : Is (-3 / 4) a) (hb : Is tiny b) : Is (-tiny) (a * b) := by
  obtain ⟨fa, ea⟩ := ha
  obtain ⟨fb, eb⟩ := hb
  have ht := tiny_pos
  rcases a with _ | s | ⟨s, x⟩ <;> rcases b with _ | t | ⟨t, y⟩ <;> try first | exact fa.elim | exact fb.elim
  have e : |(num s x).val * (num t y).val| = 3 / 4 * tiny := by
    rw [ea, eb, abs_mul, abs_of_pos ht]; norm_num
  have hle : |(num s x).val * (num t y).val| ≤ maxDouble := by
    refine maxDouble_large ?_
    rw [e]
    have : tiny ≤ 1 := by
      unfold tiny; exact zpow_le_one_of_nonpos₀ (by norm_num) (by norm_num)
    linarith
  have h := ofReal_finite (s ^^ t) (roundReal_lt hle)
  rw [e, round_tiny, if_pos (by rw [ea, eb]; nlinarith)] at h
  exact h

theorem is_zero : Is 0 (0 : Dbl) := by rw [lit_zero]; exact ⟨trivial, val_zero _⟩

end Dbl

open Dbl in
/-- One step of the filter that holds the smallest double, for the three delay lines: `P s` after the first sample. -/
theorem holds_step {S : Type → Type} [StateType S Dbl] [D : DelayLine Dbl S] {b : Biquad Dbl}
    (ha1 : Is (-3 / 4) b.a1) (ha2 : Is 0 b.a2) (hb0 : Is 1 b.b0) (hb1 : Is 0 b.b1) (hb2 : Is 0 b.b2) :
    ∃ P : S Dbl → Prop, (∀ x, Is tiny x → Is tiny (StateType.filter x b (initR S Dbl)).1 ∧
        P (StateType.filter x b (initR S Dbl)).2) ∧
      ∀ x s, Is 0 x → P s → Is tiny (StateType.filter x b s).1 ∧ P (StateType.filter x b s).2 := by
  have d0 : IsDouble 0 := isDouble_zero
  have dt := isDouble_tiny
  have z0 := is_zero
  have mz : ∀ {v : ℝ} {a c : Dbl}, Is 0 a → Is v c → Is 0 (a * c) := fun {v a c} h h' => by
    simpa using h.mul h' (by simpa using d0)
  have mz' : ∀ {v : ℝ} {a c : Dbl}, Is v a → Is 0 c → Is 0 (a * c) := fun {v a c} h h' => by
    simpa using h.mul h' (by simpa using d0)
  have m1 : ∀ {c : Dbl}, Is tiny c → Is tiny (b.b0 * c) := fun {c} h => by simpa using hb0.mul h (by simpa using dt)
  have az : ∀ {a c : Dbl}, Is 0 a → Is 0 c → Is 0 (a + c) := fun {a c} h h' => by simpa using h.add h' (by simpa using d0)
  have sz : ∀ {a c : Dbl}, Is 0 a → Is 0 c → Is 0 (a - c) := fun {a c} h h' => by simpa using h.sub h' (by simpa using d0)
  have at1 : ∀ {a c : Dbl}, Is tiny a → Is 0 c → Is tiny (a + c) := fun {a c} h h' => by simpa using h.add h' (by simpa using dt)
  have at2 : ∀ {a c : Dbl}, Is 0 a → Is tiny c → Is tiny (a + c) := fun {a c} h h' => by simpa using h.add h' (by simpa using dt)
  have st1 : ∀ {a c : Dbl}, Is tiny a → Is 0 c → Is tiny (a - c) := fun {a c} h h' => by simpa using h.sub h' (by simpa using dt)
  have st2 : ∀ {a c : Dbl}, Is 0 a → Is (-tiny) c → Is tiny (a - c) := fun {a c} h h' => by simpa using h.sub h' (by simpa using dt)
  cases D
  · refine ⟨fun s => (∃ v, Is v s.x1) ∧ (∃ v, Is v s.x2) ∧ Is tiny s.y1 ∧ ∃ v, Is v s.y2, fun x hx => ?_, fun x s hx hs => ?_⟩
    · have h : Is tiny (b.b0 * x + b.b1 * 0 + b.b2 * 0 - b.a1 * 0 - b.a2 * 0) :=
        st1 (st1 (at1 (at1 (m1 hx) (mz hb1 z0)) (mz hb2 z0)) (mz' ha1 z0)) (mz ha2 z0)
      exact ⟨h, ⟨_, hx⟩, ⟨_, z0⟩, h, ⟨_, z0⟩⟩
    · obtain ⟨⟨v1, h1⟩, ⟨v2, h2⟩, h3, v4, h4⟩ := hs
      have h : Is tiny (b.b0 * x + b.b1 * s.x1 + b.b2 * s.x2 - b.a1 * s.y1 - b.a2 * s.y2) :=
        st1 (st2 (az (az (mz' hb0 hx) (mz hb1 h1)) (mz hb2 h2)) (ha1.mul_tiny h3)) (mz ha2 h4)
      exact ⟨h, ⟨_, hx⟩, ⟨_, h1⟩, h, ⟨_, h3⟩⟩
  · refine ⟨fun s => Is tiny s.v1 ∧ ∃ v, Is v s.v2, fun x hx => ?_, fun x s hx hs => ?_⟩
    · have h : Is tiny (x - b.a1 * 0 - b.a2 * 0) := st1 (st1 hx (mz' ha1 z0)) (mz ha2 z0)
      exact ⟨at1 (at1 (m1 h) (mz hb1 z0)) (mz hb2 z0), h, ⟨_, z0⟩⟩
    · obtain ⟨h1, v2, h2⟩ := hs
      have h : Is tiny (x - b.a1 * s.v1 - b.a2 * s.v2) := st1 (st2 hx (ha1.mul_tiny h1)) (mz ha2 h2)
      exact ⟨at1 (at1 (m1 h) (mz hb1 h1)) (mz hb2 h2), h, ⟨_, h1⟩⟩
  · refine ⟨fun s => Is tiny s.s1_1 ∧ Is 0 s.s2_1, fun x hx => ?_, fun x s hx hs => ?_⟩
    · have h : Is tiny ((0 : Dbl) + b.b0 * x) := at2 z0 (m1 hx)
      exact ⟨h, st2 (az z0 (mz hb1 hx)) (ha1.mul_tiny h), sz (mz hb2 hx) (mz ha2 h)⟩
    · obtain ⟨h1, h2⟩ := hs
      have h : Is tiny (s.s1_1 + b.b0 * x) := at1 h1 (mz' hb0 hx)
      exact ⟨h, st2 (az h2 (mz hb1 hx)) (ha1.mul_tiny h), sz (mz hb2 hx) (mz ha2 h)⟩

/-- the section of the limit cycle -/
noncomputable def exHoldC : Coeffs := ⟨1, -3 / 4, 0, 1, 0, 0⟩

theorem exHoldC_stable : exHoldC.Stable := by
  intro z hz
  have : z * (z - 3 / 4) = 0 := by
    simp [exHoldC] at hz
    linear_combination hz
  rcases mul_eq_zero.1 this with h | h
  · simp [h]
  · rw [sub_eq_zero.1 h]; norm_num

theorem exHoldC_precise : exHoldC.Precise ((1 / 2) ^ 52) := by
  intro p q h
  have hp : exHoldC.StablePoles (3 / 4) 0 := ⟨by simp [exHoldC]; norm_num, by simp [exHoldC], by norm_num, by norm_num⟩
  rw [StablePoles_unique hp h]
  simp [exHoldC, Coeffs.back, Coeffs.forward, poleGain]
  norm_num

/-- The coefficients of `y[n] = x[n] + 3/4 y[n-1]` as a row for `SOSCascade`. -/
noncomputable def exHold : CascadeStages.SosRow Dbl := ⟨.lit2 1 0, .lit2 0 0, .lit2 0 0, .lit2 1 0, .lit2 (-3) (-2), .lit2 0 0⟩

open Dbl in
/-- **C87** is false: the exact response to a single sample dies out (the pole is 3/4), in doubles it does not: an
`SOSCascade` with one section, all delay lines, fed with the smallest double and then with zeros, returns the smallest double for
ever. -/
theorem C87_false (S : Type → Type) [StateType S Dbl] [DelayLine Dbl S] (x : ℕ → Dbl) (h0 : Is tiny (x 0))
    (hx : ∀ n, Is 0 (x (n + 1))) :
    ∃ f : Custom.SOS S Dbl, Custom.SOS.ofCoefficients [exHold] = .ok f ∧
      List.Forall₂ doubleRounds.Values f.stages [exHoldC] ∧ exHoldC.Stable ∧ exHoldC.Precise ((1 / 2) ^ 52) ∧
      ∃ y, Returns (Custom.SOS.filter (T := Dbl)) f x y ∧ ∀ n, (y n).Finite ∧ (y n).val = 2 ^ (-1074 : ℤ) := by
  have l0 : Is 0 (.lit2 0 0) := by
    have := lit2_val (m := 0) (e := 0) (by norm_num) (by norm_num) (by norm_num)
    exact ⟨this.1, by rw [this.2]; norm_num⟩
  have l1 : Is 1 (.lit2 1 0) := by
    have := lit2_val (m := 1) (e := 0) (by norm_num) (by norm_num) (by norm_num)
    exact ⟨this.1, by rw [this.2]; norm_num⟩
  have l3 : Is (-3 / 4) (.lit2 (-3) (-2)) := by
    have := lit2_val (m := -3) (e := -2) (by norm_num) (by norm_num) (by norm_num)
    exact ⟨this.1, by rw [this.2]; norm_num⟩
  have n : ∀ {v : ℝ} {a : Dbl}, Is v a → FArith.isNan a = false := fun {v a} h => by
    rw [Bool.eq_false_iff, Ne, Dbl.isNan_iff]
    rintro rfl
    exact h.1
  have d1 : IsDouble 1 := by simpa using isDouble_int (i := 1) (by norm_num)
  have d3 : IsDouble (-3 / 4) := ⟨-3, -2, by norm_num, by norm_num, by norm_num, by norm_num⟩
  obtain ⟨b, hb⟩ : ∃ b : Biquad Dbl, b = { a0 := .lit2 1 0, a1 := .lit2 (-3) (-2) / .lit2 1 0, a2 := .lit2 0 0 / .lit2 1 0, b0 := .lit2 1 0 / .lit2 1 0, b1 := .lit2 0 0 / .lit2 1 0, b2 := .lit2 0 0 / .lit2 1 0 } := ⟨_, rfl⟩
  have ha1 : Is (-3 / 4) b.a1 := by rw [hb]; exact l3.div_one l1 d3
  have ha2 : Is 0 b.a2 := by rw [hb]; exact l0.div_one l1 isDouble_zero
  have hb0 : Is 1 b.b0 := by rw [hb]; exact l1.div_one l1 d1
  have hb1 : Is 0 b.b1 := by rw [hb]; exact l0.div_one l1 isDouble_zero
  have hb2 : Is 0 b.b2 := by rw [hb]; exact l0.div_one l1 isDouble_zero
  refine ⟨⟨[b], [initR S Dbl]⟩, ?_, .cons ⟨rfl, ha1, ha2, hb0, hb1, hb2⟩ .nil, exHoldC_stable, exHoldC_precise, ?_⟩
  · have h : Biquad.setCoefficients (R := Dbl) (.lit2 1 0) (.lit2 (-3) (-2)) (.lit2 0 0) (.lit2 1 0) (.lit2 0 0) (.lit2 0 0)
        Biquad.default = (.ok (), b) := by
      rw [hb]
      simp [Biquad.setCoefficients, Exec.throwIf, n l0, n l1, n l3]
      rfl
    have hs : CascadeStages.setup [exHold] [Biquad.default] = (.ok (), [b]) := by
      simp only [CascadeStages.setup, exHold, h]
    have hi : Custom.SOS.init S 1 = (⟨[Biquad.default], [initR S Dbl]⟩ : Custom.SOS S Dbl) := rfl
    unfold Custom.SOS.ofCoefficients
    rw [show [exHold].length = 1 from rfl, hi]
    simp only [Custom.SOS.setup, Exec.zoom, hs]
  · obtain ⟨P, hP0, hP⟩ := holds_step (S := S) ha1 ha2 hb0 hb1 hb2
    refine ⟨_, Custom.SOS.returns_outAt _ x, ?_⟩
    have key : ∀ n, ∃ s, stateAt (fun x ss => CascadeStages.filterD [b] ss x) [initR S Dbl] x (n + 1) = [s] ∧ P s ∧
        Is tiny (outAt (fun x ss => CascadeStages.filterD [b] ss x) [initR S Dbl] x n) := by
      intro n
      induction n with
      | zero => exact ⟨_, rfl, (hP0 _ h0).2, (hP0 _ h0).1⟩
      | succ n ih =>
        obtain ⟨s, e, hs, -⟩ := ih
        refine ⟨(StateType.filter (x (n + 1)) b s).2, ?_, (hP _ s (hx n) hs).2, ?_⟩
        · rw [stateAt, e]; rfl
        · rw [outAt, e]; exact (hP _ s (hx n) hs).1
    intro n
    obtain ⟨s, -, -, h⟩ := key n
    exact h

/-! ## Cases -/

/-- a loud sample and silence, in doubles: the output of an RBJ filter with these coefficients falls to the level of the
smallest double -/
example : ∃ C : ℝ, 0 < C ∧ ∀ f : RBJ.Filter Dbl, doubleRounds.Values f.biquad exHoldC → C * (2 ^ 20 + (1 / 2) ^ 1075) ≤ maxDouble →
    ∀ y', Returns (RBJ.Filter.filter (T := Dbl)) (RBJ.Filter.reset f).2 (fun n => if n = 0 then Dbl.lit2 1 20 else 0) y' →
      ∃ N', ∀ i ≥ N', |(y' i).val| ≤ C * (1 / 2) ^ 1074 := by
  obtain ⟨C, hC, h⟩ := C87_rbj_partial exHoldC_stable exHoldC_precise
  refine ⟨C, hC, fun f hv hΩ y' hy' => ?_⟩
  obtain ⟨l1, l2⟩ := Dbl.lit2_val (m := 1) (e := 20) (by norm_num) (by norm_num) (by norm_num)
  refine (h f hv (2 ^ 20) _ (fun i => ?_) hΩ 1 (fun i hi => ?_) none (.inl rfl) y' ((C79_plain_rbj _ _ _).2 hy')).2
  · split_ifs
    · exact ⟨l1, by rw [l2]; norm_num⟩
    · exact ⟨Dbl.is_zero.1, by rw [Dbl.is_zero.2]; norm_num⟩
  · rw [if_neg (by omega)]; exact Dbl.is_zero.2

/-- the input of the limit cycle -/
example : Dbl.Is Dbl.tiny ((fun n : ℕ => if n = 0 then Dbl.lit2 1 (-1074) else 0) 0) ∧
    ∀ n, Dbl.Is 0 ((fun n : ℕ => if n = 0 then Dbl.lit2 1 (-1074) else 0) (n + 1)) := by
  obtain ⟨l1, l2⟩ := Dbl.lit2_val (m := 1) (e := -1074) (by norm_num) (by norm_num) (by norm_num)
  exact ⟨⟨l1, by simp only [if_true]; rw [l2, Dbl.tiny]; simp⟩, fun n => Dbl.is_zero⟩

/-- a cascade of two leaky integrators in arithmetic with `m + 1` bits, after a loud passage -/
example : ∃ C : ℝ, 0 < C ∧ ∀ m Ω X, 8 ≤ m → C * X ≤ Ω → ∀ x, (chopRounds m Ω).Input X x →
    CalmsTo (fun n => (chopRounds m Ω).val (x n)) 1 →
    ∀ y', Returns (Custom.SOS.filter (T := Chop m))
      (Custom.SOS.reset (R := Chop m) (S := DirectFormII) ⟨[exLeakB m, exLeakB m], [initR _ _, initR _ _]⟩).2 x y' →
      ∀ y, DiffChain [exLeak, exLeak] (fun n => (chopRounds m Ω).val (x n)) y →
        CalmsTo (fun n => (chopRounds m Ω).val (y' n) - y n) (C * (1 / 2) ^ m) := by
  have hst : exLeak.Stable := by
    intro z hz
    have : z * (z - 1 / 2) = 0 := by
      simp [exLeak] at hz
      linear_combination hz
    rcases mul_eq_zero.1 this with h | h
    · simp [h]
    · rw [sub_eq_zero.1 h]; norm_num
  obtain ⟨C, hC, h⟩ := C86_sos (ks := [exLeak, exLeak]) (by simpa using hst)
  refine ⟨C, hC, fun m Ω X hm hX x hx h1 y' hy' y hy => ?_⟩
  have hp : exLeak.Precise (2 * (1 / 2) ^ m) := exLeak_precise (by
    have : (1 / 2 : ℝ) ^ m ≤ (1 / 2) ^ 8 := pow_le_pow_of_le_one (by norm_num) (by norm_num) hm
    norm_num at this ⊢
    linarith)
  have := (h (Chop m) DirectFormII _ _ _ (chopRounds m Ω) (by simpa using hp) _ rfl
    (.cons (exLeak_values _ _) (.cons (exLeak_values _ _) .nil)) X x hx (by rwa [add_zero]) none (by simp) y'
    ((C79_plain_sos rfl x y').2 hy') 1 h1).2.2 y hy
  simpa using this

end Iir
