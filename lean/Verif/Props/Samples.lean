import Verif.Props.Setup
import Mathlib.Algebra.Order.Floor.Ring
import Mathlib.Algebra.Order.Archimedean.Real.Basic

/-! # C11 (integer samples) and C17 (frequencies over sampling rate), exact arithmetic -/

set_option linter.unusedSectionVars false

namespace Iir
open Spec FArith Exec XR

noncomputable section

/-- Truncation toward zero. -/
def truncR (x : ℝ) : ℤ := if 0 ≤ x then ⌊x⌋ else ⌈x⌉

/-- `static_cast<Sample> (double)` in iir/Cascade.h:163 for a signed integer type with values
`lo..hi` ([conv.fpint]): truncation, undefined if the truncated value does not fit (or for NaN and
infinities).  The conversion of the argument to `double` is exact (up to 32 bit types). -/
@[reducible] def intSample (lo hi : ℤ) : Sample ℤ XR where
  toR i := fin i
  ofR
    | fin x => if lo ≤ truncR x ∧ truncR x ≤ hi then .ok (truncR x) else .ub .castOutOfRange
    | _ => .ub .castOutOfRange

/-- What truncation toward zero means. -/
def Spec.TruncatesTo (y : ℝ) (i : ℤ) : Prop :=
  |(i : ℝ)| ≤ |y| ∧ |y - i| < 1 ∧ 0 ≤ (i : ℝ) * y

theorem truncR_spec (y : ℝ) : TruncatesTo y (truncR y) := by
  unfold truncR TruncatesTo
  split_ifs with h
  · have h1 := Int.floor_le y
    have h2 := Int.lt_floor_add_one y
    have h3 : (0 : ℝ) ≤ ⌊y⌋ := by exact_mod_cast Int.floor_nonneg.2 h
    refine ⟨by rw [abs_of_nonneg h3, abs_of_nonneg h]; exact h1, ?_, by positivity⟩
    rw [abs_lt]; constructor <;> linarith
  · have h := not_le.1 h
    have h1 := Int.le_ceil y
    have h2 := Int.ceil_lt_add_one y
    have h3 : ((⌈y⌉ : ℤ) : ℝ) ≤ 0 := by exact_mod_cast Int.ceil_le.2 (by simpa using h.le)
    refine ⟨by rw [abs_of_nonpos h3, abs_of_neg h]; linarith, ?_, mul_nonneg_of_nonpos_of_nonpos h3 h.le⟩
    rw [abs_lt]; constructor <;> linarith

theorem Spec.TruncatesTo.unique {y : ℝ} {i j : ℤ} (hi : TruncatesTo y i) (hj : TruncatesTo y j) :
    i = j := by
  have key : ∀ {y : ℝ} {i : ℤ}, TruncatesTo y i → i = truncR y := by
    intro y i ⟨h1, h2, h3⟩
    unfold truncR
    rw [abs_lt] at h2
    split_ifs with h
    · rw [abs_of_nonneg h] at h1
      have : (i : ℝ) ≤ y := (le_abs_self _).trans h1
      exact (Int.floor_eq_iff.2 ⟨this, by linarith⟩).symm
    · have h := not_le.1 h
      rw [abs_of_neg h] at h1
      have : y ≤ i := by have := neg_abs_le (i : ℝ); linarith
      exact (Int.ceil_eq_iff.2 ⟨by linarith, this⟩).symm
  rw [key hi, key hj]

section
variable {S : Type → Type} [StateType S XR]

/-- **C11**: with an integer sample type of range `lo..hi`, `filter` leaves the delay lines as for
the double sample, returns the double result truncated toward zero if that fits, and is undefined
only if it does not fit (or the double result is not finite). -/
theorem C11_int_samples (lo hi i : ℤ) (f : PoleFilter S XR) :
    let _ := intSample lo hi
    (PoleFilter.filter i f).2 = (PoleFilter.filter (T := XR) (fin i) f).2 ∧
    ∃ y : XR, (PoleFilter.filter (T := XR) (fin i) f).1 = .ok y ∧
      ((∃ r, y = fin r ∧ ∃ j, TruncatesTo r j ∧ lo ≤ j ∧ j ≤ hi ∧ (PoleFilter.filter i f).1 = .ok j) ∨
       ((PoleFilter.filter i f).1 = .ub .castOutOfRange ∧
        ∀ r, y = fin r → ∀ j, TruncatesTo r j → j < lo ∨ hi < j)) := by
  let _ := intSample lo hi
  refine ⟨rfl, _, rfl, ?_⟩
  have h : (PoleFilter.filter i f).1 = (Sample.ofR (CascadeStages.filterD f.base.cascade.stages f.states (fin (i : ℝ))).1 : Res ℤ) := rfl
  rw [h]
  show (∃ r, (CascadeStages.filterD f.base.cascade.stages f.states (fin (i : ℝ))).1 = fin r ∧ _) ∨
    (_ ∧ ∀ r, (CascadeStages.filterD f.base.cascade.stages f.states (fin (i : ℝ))).1 = fin r → _)
  generalize (CascadeStages.filterD f.base.cascade.stages f.states (fin (i : ℝ))).1 = y
  cases y with
  | fin r =>
    by_cases hr : lo ≤ truncR r ∧ truncR r ≤ hi
    · exact .inl ⟨r, rfl, truncR r, truncR_spec r, hr.1, hr.2, if_pos hr⟩
    · refine .inr ⟨if_neg hr, fun r' h j hj => ?_⟩
      cases h
      rw [hj.unique (truncR_spec r)]
      by_contra hc
      push Not at hc
      exact hr hc
  | _ => exact .inr ⟨rfl, fun r h => by simp at h⟩

/-- **C11**: consequently an integer signal run through a filter with double results in range gives
the truncations of the double outputs, sample by sample, whatever its length. -/
theorem C11_int_signal (lo hi : ℤ) (xs js : List ℤ) (rs : List ℝ) (f : PoleFilter S XR)
    (hy : (feed (PoleFilter.filter (T := XR)) (xs.map fun i : ℤ => fin (i : ℝ)) f).1 = .ok (rs.map fin))
    (hj : List.Forall₂ TruncatesTo rs js) (hb : ∀ j ∈ js, lo ≤ j ∧ j ≤ hi) :
    let _ := intSample lo hi
    (feed PoleFilter.filter xs f).1 = .ok js := by
  let _ := intSample lo hi
  induction xs generalizing rs js f with
  | nil =>
    cases rs with
    | nil => cases hj; rfl
    | cons => simp [feed] at hy
  | cons x xs ih =>
    have e0 : ∃ y f1, PoleFilter.filter (T := XR) (fin x) f = (.ok y, f1) ∧
        PoleFilter.filter x f = ((Sample.ofR y : Res ℤ), f1) := ⟨_, _, rfl, rfl⟩
    obtain ⟨y, f1, e1, e2⟩ := e0
    obtain ⟨ys, f2, e3, _⟩ := feed_double_ok (xs.map fun i : ℤ => fin (i : ℝ)) f1
    have e6 : feed (PoleFilter.filter (T := XR)) (fin x :: xs.map fun i : ℤ => fin (i : ℝ)) f =
        (.ok (y :: ys), f2) := by simp [feed, Exec.bind_def, e1, e3]
    rw [List.map_cons, e6] at hy
    replace hy := Res.ok.inj hy
    cases hj with
    | nil => simp at hy
    | @cons r j rs js h1 h2 =>
      simp only [List.map_cons, List.cons.injEq] at hy
      obtain ⟨rfl, hy⟩ := hy
      have hb1 := hb j (by simp)
      have e4 : (Sample.ofR (fin r) : Res ℤ) = .ok j := by
        rw [h1.unique (truncR_spec r)] at hb1 ⊢
        exact if_pos hb1
      have e5 : (feed PoleFilter.filter xs f1).1 = .ok js := ih js rs f1 (by rw [e3, ← hy]) h2 fun k hk => hb k (by simp [hk])
      rcases hq : feed PoleFilter.filter xs f1 with ⟨q, f3⟩
      rw [hq] at e5
      simp only at e5
      subst e5
      simp [feed, Exec.bind_def, e2, e4, hq]

end

/-- cases: 2.7 truncates to 2, -2.7 to -2 -/
example : TruncatesTo 2.7 2 := by unfold TruncatesTo; norm_num [abs_lt]
example : TruncatesTo (-2.7) (-2) := by unfold TruncatesTo; norm_num [abs_lt, abs_of_neg]

/-! ## C17: scaling the sampling rate and the frequencies -/

theorem div_scale {k fs : ℝ} (hk : k ≠ 0) (hfs : fs ≠ 0) (x : XR) :
    (fin k * x) / (fin k * fin fs) = x / fin fs := by
  have hkfs := mul_ne_zero hk hfs
  cases x with
  | nan => rfl
  | fin x =>
    rw [fin_mul, fin_mul, fin_div _ hkfs, fin_div _ hfs]
    congr 1
    field_simp
  | pinf =>
    show XR.div (signInf k) (fin (k * fs)) = if fs < 0 then ninf else pinf
    unfold signInf
    rcases lt_or_gt_of_ne hk with h | h
    · rw [if_neg h.not_gt, if_pos h]
      show (if k * fs < 0 then pinf else ninf) = _
      rcases lt_or_gt_of_ne hfs with h2 | h2
      · rw [if_neg (mul_pos_of_neg_of_neg h h2).not_gt, if_pos h2]
      · rw [if_pos (mul_neg_of_neg_of_pos h h2), if_neg h2.not_gt]
    · rw [if_pos h]
      show (if k * fs < 0 then ninf else pinf) = _
      rcases lt_or_gt_of_ne hfs with h2 | h2
      · rw [if_pos (mul_neg_of_pos_of_neg h h2), if_pos h2]
      · rw [if_neg (mul_pos h h2).not_gt, if_neg h2.not_gt]
  | ninf =>
    show XR.div (signInf (-k)) (fin (k * fs)) = if fs < 0 then pinf else ninf
    unfold signInf
    rcases lt_or_gt_of_ne hk with h | h
    · rw [if_pos (by linarith)]
      show (if k * fs < 0 then ninf else pinf) = _
      rcases lt_or_gt_of_ne hfs with h2 | h2
      · rw [if_neg (mul_pos_of_neg_of_neg h h2).not_gt, if_pos h2]
      · rw [if_pos (mul_neg_of_neg_of_pos h h2), if_neg h2.not_gt]
    · rw [if_neg (by linarith), if_pos (by linarith)]
      show (if k * fs < 0 then pinf else ninf) = _
      rcases lt_or_gt_of_ne hfs with h2 | h2
      · rw [if_pos (mul_neg_of_pos_of_neg h h2), if_pos h2]
      · rw [if_neg (mul_pos h h2).not_gt, if_neg h2.not_gt]

/-- **C17**: multiplying the sampling rate and all frequencies by the same nonzero factor changes
nothing: same outcome and same object, for every class. -/
theorem C17_scale_invariant {S : Type → Type} [StateType S XR] {k fs : ℝ} (hk : k ≠ 0) (hfs : fs ≠ 0)
    (n : Nat) (d : Design XR) (f : PoleFilter S XR) :
    PoleFilter.setup n (.setup (fin k * fin fs) (mapFreq (fin k * ·) d)) f =
      PoleFilter.setup n (.setup (fin fs) d) f := by
  have : mapFreq (· / (fin k * fin fs)) (mapFreq (fin k * ·) d) = mapFreq (· / fin fs) d := by
    cases d <;> simp only [mapFreq, div_scale hk hfs]
  rw [C17_setup_eq_setupN, C17_setup_eq_setupN, this]

/-- **C17**, with a requested order. -/
theorem C17_scale_invariant_req {S : Type → Type} [StateType S XR] {k fs : ℝ} (hk : k ≠ 0)
    (hfs : fs ≠ 0) (n : Nat) (o : Int) (d : Design XR) (f : PoleFilter S XR) :
    PoleFilter.setup n (.setupReq o (fin k * fin fs) (mapFreq (fin k * ·) d)) f =
      PoleFilter.setup n (.setupReq o (fin fs) d) f := by
  have : mapFreq (· / (fin k * fin fs)) (mapFreq (fin k * ·) d) = mapFreq (· / fin fs) d := by
    cases d <;> simp only [mapFreq, div_scale hk hfs]
  rw [C17_setupReq_eq_setupNReq, C17_setupReq_eq_setupNReq, this]

/-- **C17** for RBJ filters (any arithmetic): `setup (sampleRate, F, …)` is `setupN (F / sampleRate, …)`, on any object. -/
theorem C17_rbj {R : Type} [FArith R] (fs : R) (d : RBJ.Design R) (f : RBJ.Filter R) :
    RBJ.Filter.setup fs d f = RBJ.Filter.setupN (mapFreqRBJ (· / fs) d) f := by
  cases d <;> rfl

/-- **C17** for RBJ filters: multiplying the sampling rate and the frequency by the same nonzero factor changes nothing. -/
theorem C17_rbj_scale_invariant {k fs : ℝ} (hk : k ≠ 0) (hfs : fs ≠ 0) (d : RBJ.Design XR) (f : RBJ.Filter XR) :
    RBJ.Filter.setup (fin k * fin fs) (mapFreqRBJ (fin k * ·) d) f = RBJ.Filter.setup (fin fs) d f := by
  have : mapFreqRBJ (· / (fin k * fin fs)) (mapFreqRBJ (fin k * ·) d) = mapFreqRBJ (· / fin fs) d := by
    cases d <;> simp only [mapFreqRBJ, div_scale hk hfs]
  rw [C17_rbj, C17_rbj, this]

/-- a case: a notch at 50 Hz, sampling at 1 kHz, in Hz or in kHz -/
example (f : RBJ.Filter XR) :
    RBJ.Filter.setup (fin 1) (.iirNotch (fin 0.05) (fin 10)) f = RBJ.Filter.setup (fin 1000) (.iirNotch (fin 50) (fin 10)) f := by
  rw [← C17_rbj_scale_invariant (k := 1 / 1000) (fs := 1000) (by norm_num) (by norm_num)]
  norm_num [mapFreqRBJ]

/-- a case: 1 kHz sampling in Hz or in kHz -/
example (f : PoleFilter DirectFormII XR) :
    PoleFilter.setup 4 (.setup (fin 1) (.bwBandPass (fin 0.1) (fin 0.02))) f =
      PoleFilter.setup 4 (.setup (fin 1000) (.bwBandPass (fin 100) (fin 20))) f := by
  rw [← C17_scale_invariant (k := 1 / 1000) (fs := 1000) (by norm_num) (by norm_num)]
  norm_num [mapFreq]

end
end Iir
