import Verif.Exact.SampleTypes
import Verif.Props.Accuracy
import Verif.Props.PoleAccuracy
import Verif.Props.Double
import Verif.Props.Complement

/-! # C81: samples of type `float` and of integer types, from the parameters to the output

C76, C77 and C64 are about `filter<double>`.  With another sample type the argument is converted to `double`, the result
back.  For integer types the second conversion is undefined if the result does not fit, and nothing in the library limits
it: also the overshoot of a filter with gain one is enough (`C81_overshoot`). -/

set_option linter.unusedSectionVars false

namespace Iir
open Spec FArith Exec

noncomputable section

/-! ## Statements -/

/-- What the conversions of a sample type from and to `double` do. -/
structure Spec.Converts (T : Type) [Sample T Dbl] where
  /-- the number the sample stands for -/
  num : T → ℝ
  /-- it is a number -/
  Ok : T → Prop
  /-- the results that can be converted -/
  Fits : ℝ → Prop
  /-- a result and the number made of it -/
  Gives : ℝ → ℝ → Prop
  widen : ∀ t, Ok t → (Sample.toR t : Dbl).Finite ∧ (Sample.toR t : Dbl).val = num t
  fits : ∀ y : Dbl, y.Finite → Fits y.val → ∃ t : T, Sample.ofR y = .ok t ∧ Ok t ∧ Gives y.val (num t)
  misfit : ∀ y : Dbl, y.Finite → ¬ Fits y.val → (Sample.ofR y : Res T) = .ub .castOutOfRange

/-- Feeding `x 0, x 1, …` to an object in state `f` returns `z 0, z 1, …`. -/
def Spec.Replies {σ T : Type} (flt : T → Exec σ T) (f : σ) (x z : ℕ → T) : Prop :=
  ∀ N, (feed flt ((List.range N).map x) f).1 = .ok ((List.range N).map z)

/-- The object answers `x` with the numbers `y`, up to an error `D` and the conversion to the sample type: if everything within
`D` of `y` fits, then it returns samples made of numbers within `D` of `y`.  It is undefined at the latest when nothing within
`D` of `y n` fits. -/
def Spec.Delivers {σ T : Type} [Sample T Dbl] (cv : Converts T) (flt : T → Exec σ T) (f : σ) (x : ℕ → T) (y : ℕ → ℝ) (D : ℝ) :
    Prop :=
  ((∀ n w, |w - y n| ≤ D → cv.Fits w) →
    ∃ z, Replies flt f x z ∧ ∀ n, cv.Ok (z n) ∧ ∃ w, |w - y n| ≤ D ∧ cv.Gives w (cv.num (z n))) ∧
  ∀ n, (∀ w, |w - y n| ≤ D → ¬ cv.Fits w) → (feed flt ((List.range (n + 1)).map x) f).1 = .ub .castOutOfRange

/-! ## From double to another type -/

/-- `filter` converts, filters and converts back. -/
def Casts {σ T : Type} [Sample T Dbl] (fltT : T → Exec σ T) (flt : Dbl → Exec σ Dbl) : Prop :=
  ∀ x f, ∃ y f', flt (Sample.toR x) f = (.ok y, f') ∧ fltT x f = (Sample.ofR y, f')

section
variable {σ T : Type} [Sample T Dbl] {fltT : T → Exec σ T} {flt : Dbl → Exec σ Dbl}

theorem Casts.run (h : Casts fltT flt) (x : ℕ → T) (y : ℕ → Dbl) (z : ℕ → T) (l : List ℕ) (f : σ)
    (hy : (feed flt (l.map fun n => Sample.toR (x n)) f).1 = .ok (l.map y)) (hz : ∀ n ∈ l, Sample.ofR (y n) = .ok (z n)) :
    (feed fltT (l.map x) f).1 = .ok (l.map z) := by
  induction l generalizing f with
  | nil => rfl
  | cons a l ih =>
    obtain ⟨v, f1, e1, e2⟩ := h (x a) f
    simp only [List.map_cons, feed, Exec.bind_def, e1] at hy
    rcases hq : feed flt (l.map fun n => Sample.toR (x n)) f1 with ⟨q, f2⟩
    rw [hq] at hy
    rcases q with q | q | q <;> simp at hy
    obtain ⟨rfl, rfl⟩ := hy
    have g := ih f1 (by rw [hq]) fun n hn => hz n (by simp [hn])
    rcases hp : feed fltT (l.map x) f1 with ⟨p, f3⟩
    rw [hp] at g
    simp only at g
    simp [feed, Exec.bind_def, e2, hz a (by simp), hp, g]

theorem Casts.stop (h : Casts fltT flt) (cv : Converts T) (x : ℕ → T) (y : ℕ → Dbl) (hf : ∀ n, (y n).Finite) {a : ℕ}
    (ha : ¬ cv.Fits (y a).val) (l : List ℕ) (f : σ)
    (hy : (feed flt ((l ++ [a]).map fun n => Sample.toR (x n)) f).1 = .ok ((l ++ [a]).map y)) :
    (feed fltT ((l ++ [a]).map x) f).1 = .ub .castOutOfRange := by
  induction l generalizing f with
  | nil =>
    obtain ⟨v, f1, e1, e2⟩ := h (x a) f
    simp [feed, Exec.bind_def, e1] at hy
    subst hy
    simp [feed, Exec.bind_def, e2, cv.misfit (y a) (hf a) ha]
  | cons b l ih =>
    obtain ⟨v, f1, e1, e2⟩ := h (x b) f
    simp only [List.cons_append, List.map_cons, feed, Exec.bind_def, e1] at hy
    rcases hq : feed flt ((l ++ [a]).map fun n => Sample.toR (x n)) f1 with ⟨q, f2⟩
    rw [hq] at hy
    rcases q with q | q | q <;> simp at hy
    obtain ⟨rfl, rfl⟩ := hy
    have g := ih f1 (by rw [hq]; simp)
    by_cases c : cv.Fits (y b).val
    · obtain ⟨t, ht, -⟩ := cv.fits (y b) (hf b) c
      rcases hp : feed fltT ((l ++ [a]).map x) f1 with ⟨p, f3⟩
      rw [hp] at g
      simp only at g
      subst g
      simp only [List.cons_append, List.map_cons, feed, Exec.bind_def, e2, ht, hp]
    · simp only [List.cons_append, List.map_cons, feed, Exec.bind_def, e2, cv.misfit (y b) (hf b) c]

/-- A run with doubles close to `y` makes a run with other samples. -/
theorem Casts.delivers (h : Casts fltT flt) (cv : Converts T) {f : σ} {x : ℕ → T} {y' : ℕ → Dbl} {y : ℕ → ℝ} {D : ℝ}
    (hr : Returns flt f (fun n => Sample.toR (x n)) y') (hy : ∀ n, (y' n).Finite ∧ |(y' n).val - y n| ≤ D) :
    Delivers cv fltT f x y D := by
  have key : ∀ n, (∀ w, |w - y n| ≤ D → cv.Fits w) →
      ∃ t : T, Sample.ofR (y' n) = .ok t ∧ cv.Ok t ∧ cv.Gives (y' n).val (cv.num t) := fun n hn =>
    cv.fits (y' n) (hy n).1 (hn _ (hy n).2)
  constructor
  · intro hf
    choose z h1 h2 h3 using fun n => key n (hf n)
    refine ⟨z, fun N => ?_, fun n => ⟨h2 n, _, (hy n).2, h3 n⟩⟩
    exact h.run x y' z (List.range N) f (hr N) fun n _ => h1 n
  · intro n hn
    have e := hr (n + 1)
    rw [List.range_succ] at e ⊢
    exact h.stop cv x y' (fun k => (hy k).1) (hn _ (hy n).2) (List.range n) f e

end

theorem casts_pole {S : Type → Type} [StateType S Dbl] {T : Type} [Sample T Dbl] :
    Casts (PoleFilter.filter (R := Dbl) (S := S) (T := T)) (PoleFilter.filter (S := S) (T := Dbl)) := fun _ _ => ⟨_, _, rfl, rfl⟩

theorem casts_sos {S : Type → Type} [StateType S Dbl] {T : Type} [Sample T Dbl] :
    Casts (Custom.SOS.filter (R := Dbl) (S := S) (T := T)) (Custom.SOS.filter (S := S) (T := Dbl)) := fun _ _ => ⟨_, _, rfl, rfl⟩

theorem casts_rbj {T : Type} [Sample T Dbl] : Casts (RBJ.Filter.filter (R := Dbl) (T := T)) (RBJ.Filter.filter (T := Dbl)) :=
  fun _ _ => ⟨_, _, rfl, rfl⟩

/-! ## The types -/

theorem trunc_fits {lo hi : ℤ} (h0 : lo ≤ 0) (h1 : 0 ≤ hi) {y : ℝ} :
    (lo ≤ truncR y ∧ truncR y ≤ hi) ↔ (lo : ℝ) - 1 < y ∧ y < hi + 1 := by
  unfold truncR
  split_ifs with h
  · have a : lo ≤ ⌊y⌋ := h0.trans (Int.floor_nonneg.2 h)
    have b : (lo : ℝ) ≤ 0 := by exact_mod_cast h0
    rw [and_iff_right a, and_iff_right (by linarith)]
    rw [← Int.lt_add_one_iff, Int.floor_lt]
    push_cast
    rfl
  · have h := not_le.1 h
    have a : ⌈y⌉ ≤ hi := (Int.ceil_le.2 (by simpa using h.le)).trans h1
    have b : (0 : ℝ) ≤ hi := by exact_mod_cast h1
    rw [and_iff_left a, and_iff_left (by linarith)]
    rw [← Int.sub_one_lt_iff, Int.lt_ceil]
    push_cast
    rfl

/-- Integer types of up to 53 bits: exact, and truncated (undefined if that does not fit). -/
def intConverts {lo hi : ℤ} (h0 : lo ≤ 0) (h1 : 0 ≤ hi) (h2 : -2 ^ 53 < lo) (h3 : hi < 2 ^ 53) :
    Converts (BoundedInt lo hi) where
  num i := i.1
  Ok _ := True
  Fits y := lo - 1 < y ∧ y < hi + 1
  Gives y z := ∃ i : ℤ, z = i ∧ TruncatesTo y i
  widen i _ := Dbl.ofReal_isDouble false (Dbl.isDouble_int (abs_lt.2 ⟨by have := i.2.1; omega, by have := i.2.2; omega⟩))
  fits y hy hf := by
    rcases y with _ | s | ⟨s, x⟩ <;> try exact hy.elim
    have := (trunc_fits h0 h1).2 hf
    exact ⟨⟨_, this⟩, dif_pos this, trivial, _, rfl, truncR_spec _⟩
  misfit y hy hf := by
    rcases y with _ | s | ⟨s, x⟩ <;> try exact hy.elim
    exact dif_neg fun h => hf ((trunc_fits h0 h1).1 h)

/-- `float`: exact, and rounded to nearest (undefined above the largest). -/
def fltConverts : Converts Flt where
  num t := t.val
  Ok t := t.Finite
  Fits y := |y| ≤ maxSingle
  Gives y z := IsSingle |z| ∧ |z - y| ≤ (1 / 2) ^ 24 * |y| + (1 / 2) ^ 150
  widen t ht := ⟨ht, rfl⟩
  fits y hy hf := by
    rcases y with _ | s | ⟨s, x⟩ <;> try exact hy.elim
    rw [Dbl.abs_val] at hf
    refine ⟨_, dif_pos hf, trivial, ?_⟩
    show IsSingle |Dbl.val _| ∧ |Dbl.val _ - Dbl.val _| ≤ _ * |Dbl.val _| + _
    rw [Dbl.abs_val, Dbl.abs_val]
    refine ⟨(roundSingle_spec x.2.1 hf).2, ?_⟩
    have h := roundSingle_close x.1
    rw [abs_of_nonneg x.2.1] at h
    refine le_trans (le_of_eq ?_) h
    cases s
    · rfl
    · show |-roundSingle x.1 - -x.1| = _
      rw [← abs_neg]; congr 1; ring
  misfit y hy hf := by
    rcases y with _ | s | ⟨s, x⟩ <;> try exact hy.elim
    rw [Dbl.abs_val] at hf
    exact dif_neg hf

/-- **C81**, what it says for integers: no undefined conversion if the ideal output is in range, and an error of less than one plus
that of the arithmetic. -/
theorem C81_int {lo hi : ℤ} {h0 : lo ≤ 0} {h1 : 0 ≤ hi} {h2 : -2 ^ 53 < lo} {h3 : hi < 2 ^ 53} {σ : Type}
    {flt : BoundedInt lo hi → Exec σ (BoundedInt lo hi)} {f : σ} {x : ℕ → BoundedInt lo hi} {y : ℕ → ℝ} {D : ℝ}
    (h : Delivers (intConverts h0 h1 h2 h3) flt f x y D) (hy : ∀ n, lo - 1 + D < y n ∧ y n < hi + 1 - D) :
    ∃ z, Replies flt f x z ∧ ∀ n, |((z n).1 : ℝ) - y n| < 1 + D := by
  obtain ⟨z, h4, h5⟩ := h.1 fun n w hw => by
    have := abs_le.1 hw
    exact ⟨by linarith [(hy n).1], by linarith [(hy n).2]⟩
  refine ⟨z, h4, fun n => ?_⟩
  obtain ⟨-, w, hw, i, hi, hi'⟩ := h5 n
  have a := abs_le.1 hw
  have b := abs_lt.1 hi'.2.1
  have hi : ((z n).1 : ℝ) = i := hi
  rw [hi]
  exact abs_lt.2 ⟨by linarith, by linarith⟩

/-- **C81**, what it says for `float`: no undefined conversion if the ideal output is in range, and the error of the arithmetic
plus one rounding. -/
theorem C81_float {σ : Type} {flt : Flt → Exec σ Flt} {f : σ} {x : ℕ → Flt} {y : ℕ → ℝ} {D : ℝ}
    (h : Delivers fltConverts flt f x y D) (hy : ∀ n, |y n| + D ≤ maxSingle) :
    ∃ z, Replies flt f x z ∧ ∀ n, (z n).Finite ∧ |(z n).val - y n| ≤ D + (1 / 2) ^ 24 * (|y n| + D) + (1 / 2) ^ 150 := by
  have key : ∀ {n w}, |w - y n| ≤ D → |w| ≤ |y n| + D := fun {n w} hw => by
    have := abs_add_le (y n) (w - y n)
    rw [add_sub_cancel] at this
    linarith
  obtain ⟨z, h4, h5⟩ := h.1 fun n w hw => (key hw).trans (hy n)
  refine ⟨z, h4, fun n => ⟨(h5 n).1, ?_⟩⟩
  obtain ⟨-, w, hw, -, h6⟩ := h5 n
  have h6 : |(z n).val - w| ≤ (1 / 2) ^ 24 * |w| + (1 / 2) ^ 150 := h6
  have a := abs_add_le ((z n).val - w) (w - y n)
  rw [sub_add_sub_cancel] at a
  have b := mul_le_mul_of_nonneg_left (key hw) (by positivity : (0 : ℝ) ≤ (1 / 2) ^ 24)
  linarith

/-! ## C81 -/

variable {T : Type} [Sample T Dbl]

/-- **C81** for RBJ filters: set up in double arithmetic, run with samples of any type. -/
theorem C81_rbj (cv : Converts T) (fs : Dbl) (d : RBJ.Design Dbl) (hfs : fs.Finite) (h0 : fs.val ≠ 0)
    (hf : doubleRounds.FinArgs d) {σ : ℝ} (hs : SharpRBJ σ (overRate fs.val (doubleRounds.valRBJ d))) (hσ : σ ≤ 2 ^ 10)
    (f : RBJ.Filter Dbl) :
    ∃ f', RBJ.Filter.setup fs d f = (.ok (), f') ∧
      ∀ X x, (∀ n, cv.Ok (x n) ∧ |cv.num (x n)| ≤ X) → (1 / 2) ^ 1000 ≤ X → X ≤ 2 ^ 900 →
      ∃ y, RBJRuns (finRBJ (overRate fs.val (doubleRounds.valRBJ d))) (fun n => cv.num (x n)) y ∧
        Delivers cv (RBJ.Filter.filter (T := T)) (RBJ.Filter.reset f').2 x y (σ ^ 4 / 2 ^ 34 * X) := by
  obtain ⟨f', h1, h2⟩ := C76_double fs d hfs h0 hf hs hσ f
  refine ⟨f', h1, fun X x hx hX1 hX2 => ?_⟩
  have hw := fun n => cv.widen (x n) (hx n).1
  obtain ⟨y', h3, y, h4, h5⟩ := h2 X (fun n => Sample.toR (x n)) (fun n => ⟨(hw n).1, by
    show |Dbl.val _| ≤ X
    rw [(hw n).2]; exact (hx n).2⟩) hX1 hX2
  refine ⟨y, ?_, casts_rbj.delivers cv h3 h5⟩
  rwa [show (fun n => cv.num (x n)) = fun n => Dbl.val (Sample.toR (x n)) from funext fun n => (hw n).2.symm]

/-- **C81** for Butterworth low and high passes: set up in double arithmetic, run with samples of any type. -/
theorem C81_butterworth (cv : Converts T) {S : Type → Type} [StateType S Dbl] [DelayLine Dbl S] {T' : Type} [Sample T' Dbl]
    {n o : ℕ} (hn : n < 2 ^ 30) (ho : 1 ≤ o) (h16 : o ≤ 16) (hon : o ≤ n) {call : Call Dbl} {f : PoleFilter S Dbl}
    (h : Reach S T' call.design.cls n f) (hord : call.order n = o) (hf : doubleRounds.FinCall call) {φ : ℝ}
    (hd : IdealBw (mapCall (fun v => XR.fin v.val) call).normDesign φ) (S0 : Type → Type) [StateType S0 XR]
    [DelayLine XR S0] (T0 : Type) [Sample T0 XR] :
    ∃ f', PoleFilter.setup n call f = (.ok (), f') ∧
      ∀ X x, (∀ i, cv.Ok (x i) ∧ |cv.num (x i)| ≤ X) → 1 / 2 ^ 400 ≤ X → X ≤ 2 ^ 400 →
      ∃ y, SetupRuns S0 T0 n (mapCall (fun v => XR.fin v.val) call) (fun i => cv.num (x i)) y ∧
        Delivers cv (PoleFilter.filter (T := T)) (PoleFilter.reset f').2 x y (bwAmplifies φ o * (bwSharp φ o + n) / 2 ^ 30 * X) := by
  obtain ⟨f', h1, h2⟩ := C77_double hn ho h16 hon h hord hf hd S0 T0
  refine ⟨f', h1, fun X x hx hX1 hX2 => ?_⟩
  have hw := fun n => cv.widen (x n) (hx n).1
  obtain ⟨y', h3, y, h4, h5⟩ := h2 X (fun n => Sample.toR (x n)) (fun n => ⟨(hw n).1, by rw [(hw n).2]; exact (hx n).2⟩) hX1 hX2
  refine ⟨y, ?_, casts_pole.delivers cv h3 h5⟩
  rwa [show (fun n => cv.num (x n)) = fun n => Dbl.val (Sample.toR (x n)) from funext fun n => (hw n).2.symm]

/-- **C81** for cascades with given coefficients: the bound of C64. -/
theorem C81_sos {ks : List Coeffs} (hst : ∀ k ∈ ks, k.Stable) (hp : ∀ k ∈ ks, k.Precise ((1 / 2) ^ 53)) :
    ∃ C : ℝ, 0 < C ∧ ∀ (T : Type) [Sample T Dbl] (cv : Converts T) (S : Type → Type) [StateType S Dbl] [DelayLine Dbl S]
      (f : Custom.SOS S Dbl), f.states.length = f.stages.length → List.Forall₂ doubleRounds.Values f.stages ks →
      ∀ (X : ℝ) (x : ℕ → T), (∀ n, cv.Ok (x n) ∧ |cv.num (x n)| ≤ X) → C * (X + (1 / 2) ^ 1075) ≤ maxDouble →
      ∀ y, DiffChain ks (fun n => cv.num (x n)) y →
        Delivers cv (Custom.SOS.filter (T := T)) (Custom.SOS.reset f).2 x y (C * ((1 / 2) ^ 53 * X + (1 / 2) ^ 1075)) := by
  obtain ⟨C, hC, h⟩ := C64_sos hst hp
  refine ⟨C, hC, ?_⟩
  intro T _ cv S _ _ f hf hv X x hx hΩ y hy
  have hw := fun n => cv.widen (x n) (hx n).1
  obtain ⟨y', h3, h4⟩ := h S f hf hv X (fun n => Sample.toR (x n)) (fun n => ⟨(hw n).1, by
    show |Dbl.val _| ≤ X
    rw [(hw n).2]; exact (hx n).2⟩) hΩ
  refine casts_sos.delivers cv h3 (h4 y ?_)
  rwa [show (fun n => Dbl.val (Sample.toR (x n))) = fun n => cv.num (x n) from funext fun n => (hw n).2]

/-! ## Overshoot -/

/-- `std::int16_t` -/
def int16 : Converts Int16T := intConverts (by norm_num) (by norm_num) (by norm_num) (by norm_num)

/-- the largest sample -/
def fullScale : Int16T := ⟨2 ^ 15 - 1, by norm_num, by norm_num⟩

/-- the low pass at a quarter of the sampling rate with quality 1 -/
theorem quarter_sharp : SharpRBJ 3 (overRate (Dbl.lit2 48000 0).val (doubleRounds.valRBJ (.lowPass (.lit2 12000 0) (.lit2 1 0)))) ∧
    overRate (Dbl.lit2 48000 0).val (doubleRounds.valRBJ (.lowPass (.lit2 12000 0) (.lit2 1 0))) = .lowPass (1 / 4) 1 := by
  obtain ⟨-, h2⟩ := Dbl.lit2_val (m := 12000) (e := 0) (by norm_num) (by norm_num) (by norm_num)
  obtain ⟨-, h4⟩ := Dbl.lit2_val (m := 1) (e := 0) (by norm_num) (by norm_num) (by norm_num)
  obtain ⟨-, h6⟩ := Dbl.lit2_val (m := 48000) (e := 0) (by norm_num) (by norm_num) (by norm_num)
  have e : overRate (Dbl.lit2 48000 0).val (doubleRounds.valRBJ (.lowPass (.lit2 12000 0) (.lit2 1 0))) = .lowPass (1 / 4) 1 := by
    show RBJ.Design.lowPass (Dbl.val _ / Dbl.val _) (Dbl.val _) = _
    rw [h2, h4, h6]
    norm_num
  refine ⟨?_, e⟩
  rw [e]
  refine ⟨by norm_num, by norm_num, by norm_num, ?_⟩
  rw [show 2 * Real.pi * (1 / 4) = Real.pi / 2 by ring, Real.sin_pi_div_two]
  norm_num

/-- its answer to a step: the third sample is 11/9 of the input -/
theorem quarter_step {c : ℝ} {y : ℕ → ℝ} (h : RBJRuns (finRBJ (.lowPass (1 / 4) 1)) (fun _ => c) y) :
    y 0 = c / 3 ∧ y 1 = c ∧ y 2 = 11 / 9 * c := by
  have e : 2 * Real.pi * (1 / 4) = Real.pi / 2 := by ring
  have h1 := (rbjRuns_iff ⟨_, _, _, _, _, _⟩ (rbj_lead (f0 := 1 / 4) (q := 1) (by norm_num) (by norm_num) one_pos)
    (lowPass_setup one_pos) _ _).1 h
  have a0 := h1 0
  have a1 := h1 1
  have a2 := h1 2
  simp only [delayed, e, Real.sin_pi_div_two, Real.cos_pi_div_two] at a0 a1 a2
  norm_num at a0 a1 a2
  rw [a0] at a2
  exact ⟨by rw [a0]; ring, by rw [a1]; ring, by rw [a2]; ring⟩

/-- **C81**, range: the low pass lets constants pass unchanged, yet three samples of full scale are enough for undefined
behaviour. -/
theorem C81_overshoot (f : RBJ.Filter Dbl) :
    ∃ f', RBJ.Filter.setup (.lit2 48000 0) (.lowPass (.lit2 12000 0) (.lit2 1 0)) f = (.ok (), f') ∧
      (feed (RBJ.Filter.filter (T := Int16T)) [fullScale, fullScale, fullScale] (RBJ.Filter.reset f').2).1 =
        .ub .castOutOfRange := by
  obtain ⟨h1, -⟩ := Dbl.lit2_val (m := 12000) (e := 0) (by norm_num) (by norm_num) (by norm_num)
  obtain ⟨h3, -⟩ := Dbl.lit2_val (m := 1) (e := 0) (by norm_num) (by norm_num) (by norm_num)
  obtain ⟨h5, h6⟩ := Dbl.lit2_val (m := 48000) (e := 0) (by norm_num) (by norm_num) (by norm_num)
  obtain ⟨hs, e⟩ := quarter_sharp
  obtain ⟨f', g1, g2⟩ := C81_rbj int16 (.lit2 48000 0) (.lowPass (.lit2 12000 0) (.lit2 1 0)) h5 (by rw [h6]; norm_num) ⟨h1, h3⟩
    hs (by norm_num) f
  refine ⟨f', g1, ?_⟩
  have hv : int16.num fullScale = 32767 := by
    show (((2 ^ 15 - 1 : ℤ)) : ℝ) = _
    norm_num
  obtain ⟨y, g3, -, g4⟩ := g2 32767 (fun _ => fullScale) (fun n => ⟨trivial, by rw [hv]; norm_num⟩)
    ((pow_le_one₀ (by norm_num) (by norm_num)).trans (by norm_num))
    (le_trans (by norm_num : (32767 : ℝ) ≤ 2 ^ 15) (pow_le_pow_right₀ (by norm_num) (by norm_num)))
  rw [e, hv] at g3
  obtain ⟨-, -, y2⟩ := quarter_step g3
  have hD : (3 : ℝ) ^ 4 / 2 ^ 34 * 32767 ≤ 1 / 2 := by norm_num
  refine g4 2 fun w hw hc => ?_
  have hw := abs_le.1 (hw.trans hD)
  have hc2 := hc.2
  rw [y2] at hw
  push_cast at hc2
  linarith [hw.1]

/-! ## Cases -/

/-- the same low pass with 16 bit samples of at most a quarter of full scale: never undefined, off by less than 1.001 -/
example (f : RBJ.Filter Dbl) (x : ℕ → Int16T) (hx : ∀ n, |((x n).1 : ℝ)| ≤ 2 ^ 13) :
    ∃ f', RBJ.Filter.setup (.lit2 48000 0) (.lowPass (.lit2 12000 0) (.lit2 1 0)) f = (.ok (), f') ∧
      ∃ y, RBJRuns (finRBJ (.lowPass (1 / 4) 1)) (fun n => ((x n).1 : ℝ)) y ∧
        ((∀ n, |y n| ≤ 2 ^ 15 - 1) → ∃ z, Replies (RBJ.Filter.filter (T := Int16T)) (RBJ.Filter.reset f').2 x z ∧
          ∀ n, |((z n).1 : ℝ) - y n| < 1.001) := by
  obtain ⟨h1, -⟩ := Dbl.lit2_val (m := 12000) (e := 0) (by norm_num) (by norm_num) (by norm_num)
  obtain ⟨h3, -⟩ := Dbl.lit2_val (m := 1) (e := 0) (by norm_num) (by norm_num) (by norm_num)
  obtain ⟨h5, h6⟩ := Dbl.lit2_val (m := 48000) (e := 0) (by norm_num) (by norm_num) (by norm_num)
  obtain ⟨hs, e⟩ := quarter_sharp
  obtain ⟨f', g1, g2⟩ := C81_rbj int16 (.lit2 48000 0) (.lowPass (.lit2 12000 0) (.lit2 1 0)) h5 (by rw [h6]; norm_num) ⟨h1, h3⟩
    hs (by norm_num) f
  obtain ⟨y, g3, g4⟩ := g2 (2 ^ 13) x (fun n => ⟨trivial, hx n⟩)
    ((pow_le_one₀ (by norm_num) (by norm_num)).trans (by norm_num)) (pow_le_pow_right₀ (by norm_num) (by norm_num))
  rw [e] at g3
  have hD : (3 : ℝ) ^ 4 / 2 ^ 34 * 2 ^ 13 ≤ 0.001 := by norm_num
  refine ⟨f', g1, y, g3, fun hy => ?_⟩
  obtain ⟨z, g5, g6⟩ := C81_int g4 fun n => by
    have := abs_le.1 (hy n)
    push_cast
    exact ⟨by linarith [this.1], by linarith [this.2]⟩
  exact ⟨z, g5, fun n => (g6 n).trans_le (by linarith)⟩

/-- there are floats: one half -/
example : ∃ t : Flt, t.Finite ∧ t.val = 1 / 2 :=
  ⟨⟨.num false ⟨1 / 2, by norm_num, 1, -1, by norm_num, by norm_num, by norm_num, by norm_num⟩,
    1, -1, by norm_num, by norm_num, by norm_num, by norm_num⟩, trivial, rfl⟩

end
end Iir
