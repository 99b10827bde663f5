import Verif.Props.Setup
import Verif.Props.Samples
import Verif.Props.DoubleDesign

/-! # C17 in double arithmetic: only the quotients of frequencies and sampling rate count -/

set_option linter.unusedSectionVars false

namespace Iir
open Spec

/-- The frequency arguments. -/
def Spec.freqs {R : Type} : Design R → List R
  | .bwLowPass fc | .bwHighPass fc | .bwLowShelf fc _ | .bwHighShelf fc _
  | .c1LowPass fc _ | .c1HighPass fc _ | .c1LowShelf fc _ _ | .c1HighShelf fc _ _
  | .c2LowPass fc _ | .c2HighPass fc _ | .c2LowShelf fc _ _ | .c2HighShelf fc _ _ => [fc]
  | .bwBandPass fc fw | .bwBandStop fc fw | .bwBandShelf fc fw _
  | .c1BandPass fc fw _ | .c1BandStop fc fw _ | .c1BandShelf fc fw _ _
  | .c2BandPass fc fw _ | .c2BandStop fc fw _ | .c2BandShelf fc fw _ _ => [fc, fw]

/-- The frequency argument of an RBJ filter. -/
def Spec.freqRBJ {R : Type} : RBJ.Design R → R
  | .lowPass fc _ | .highPass fc _ | .bandPass1 fc _ | .bandPass2 fc _ | .bandStop fc _ | .iirNotch fc _
  | .lowShelf fc _ _ | .highShelf fc _ _ | .bandShelf fc _ _ | .allPass fc _ => fc

/-- `b` is a finite double with the sign bit of `a` and exactly `k` times its value. -/
structure Spec.Times (k : ℝ) (a b : Dbl) : Prop where
  finite : a.Finite
  finite' : b.Finite
  sign : b.sign = a.sign
  val : b.val = k * a.val

theorem Spec.Times.div {k : ℝ} (hk : 0 < k) {a a' b b' : Dbl} (ha : Times k a a') (hb : Times k b b') : a' / b' = a / b := by
  obtain ⟨h1, h2, h3, h4⟩ := ha
  obtain ⟨g1, g2, g3, g4⟩ := hb
  rcases a with _ | s | ⟨s, x⟩ <;> try exact h1.elim
  rcases a' with _ | s' | ⟨s', x'⟩ <;> try exact h2.elim
  rcases b with _ | t | ⟨t, y⟩ <;> try exact g1.elim
  rcases b' with _ | t' | ⟨t', y'⟩ <;> try exact g2.elim
  obtain rfl : s' = s := h3
  obtain rfl : t' = t := g3
  have ex : x'.1 = k * x.1 := by
    cases s' <;> simp only [Dbl.val] at h4 <;> linarith
  have ey : y'.1 = k * y.1 := by
    cases t' <;> simp only [Dbl.val] at g4 <;> linarith
  show Dbl.div _ _ = Dbl.div _ _
  have e : Dbl.val (.num s' x') / Dbl.val (.num t' y') = Dbl.val (.num s' x) / Dbl.val (.num t' y) := by
    rw [h4, g4, mul_div_mul_left _ _ hk.ne']
  simp only [Dbl.div, e, ex, ey, mul_eq_zero, hk.ne', false_or]

theorem mapFreq_scale {g : Dbl → Dbl} {fs fs' : Dbl} {d : Design Dbl} (h : ∀ v ∈ freqs d, g v / fs' = v / fs) :
    mapFreq (· / fs') (mapFreq g d) = mapFreq (· / fs) d := by
  cases d <;> simp only [freqs, List.mem_cons, List.not_mem_nil, or_false, forall_eq_or_imp, forall_eq] at h <;>
    simp only [mapFreq, h]

section
variable {S : Type → Type} [StateType S Dbl] {k : ℝ} {fs fs' : Dbl} {g : Dbl → Dbl}

/-- **C17** in doubles: if the sampling rate and all frequencies are replaced by exactly `k` times these, nothing changes: same
outcome and same object, bit by bit, whatever the quotients are rounded to. -/
theorem C17_double (hk : 0 < k) (hfs : Times k fs fs') (n : Nat) (d : Design Dbl) (hd : ∀ v ∈ freqs d, Times k v (g v))
    (f : PoleFilter S Dbl) :
    PoleFilter.setup n (.setup fs' (mapFreq g d)) f = PoleFilter.setup n (.setup fs d) f := by
  rw [C17_setup_eq_setupN, C17_setup_eq_setupN, mapFreq_scale fun v hv => (hd v hv).div hk hfs]

/-- **C17** in doubles, with a requested order. -/
theorem C17_double_req (hk : 0 < k) (hfs : Times k fs fs') (n : Nat) (o : Int) (d : Design Dbl)
    (hd : ∀ v ∈ freqs d, Times k v (g v)) (f : PoleFilter S Dbl) :
    PoleFilter.setup n (.setupReq o fs' (mapFreq g d)) f = PoleFilter.setup n (.setupReq o fs d) f := by
  rw [C17_setupReq_eq_setupNReq, C17_setupReq_eq_setupNReq, mapFreq_scale fun v hv => (hd v hv).div hk hfs]

/-- **C17** in doubles for RBJ filters. -/
theorem C17_double_rbj (hk : 0 < k) (hfs : Times k fs fs') (d : RBJ.Design Dbl) (hd : Times k (freqRBJ d) (g (freqRBJ d)))
    (f : RBJ.Filter Dbl) : RBJ.Filter.setup fs' (mapFreqRBJ g d) f = RBJ.Filter.setup fs d f := by
  have h := hd.div hk hfs
  have e : mapFreqRBJ (· / fs') (mapFreqRBJ g d) = mapFreqRBJ (· / fs) d := by
    cases d <;> simp only [freqRBJ] at h <;> simp only [mapFreqRBJ, h]
  rw [C17_rbj, C17_rbj, e]

/-! ## Cases -/

theorem Dbl.sign_pos {a : Dbl} (h : 0 < a.val) : a.sign = false := by
  rcases a with _ | s | ⟨_ | _, x⟩
  · exact (lt_irrefl _ h).elim
  · exact (lt_irrefl _ h).elim
  · rfl
  · have : 0 < -x.1 := h
    linarith [x.2.1]

theorem times_lit (m m' : ℤ) (h : 0 < m) (h1 : m < 2 ^ 53) (h' : m' < 2 ^ 53) {k : ℝ} (hk : 0 < k) (e : (m' : ℝ) = k * m) :
    Times k (.lit2 m 0) (.lit2 m' 0) := by
  have hm : (0 : ℝ) < m := by exact_mod_cast h
  have hm' : (0 : ℝ) < m' := by rw [e]; positivity
  have i' : 0 < m' := by exact_mod_cast hm'
  obtain ⟨a1, a2⟩ := Dbl.lit2_val (m := m) (e := 0) (abs_lt.2 ⟨by omega, h1⟩) (by norm_num) (by norm_num)
  obtain ⟨b1, b2⟩ := Dbl.lit2_val (m := m') (e := 0) (abs_lt.2 ⟨by omega, h'⟩) (by norm_num) (by norm_num)
  rw [zpow_zero, _root_.mul_one] at a2 b2
  exact ⟨a1, b1, (Dbl.sign_pos (b2 ▸ hm')).trans (Dbl.sign_pos (a2 ▸ hm)).symm, by rw [a2, b2, e]⟩

/-- 1000 Hz at 44100 Hz and 2000 Hz at 88200 Hz: the same filter, although 10/441 is no double -/
example (f : PoleFilter S Dbl) :
    PoleFilter.setup 4 (.setup (.lit2 88200 0) (.c1LowPass (.lit2 2000 0) (.lit2 1 0))) f =
      PoleFilter.setup 4 (.setup (.lit2 44100 0) (.c1LowPass (.lit2 1000 0) (.lit2 1 0))) f :=
  C17_double (k := 2) (g := fun _ => .lit2 2000 0) two_pos (times_lit _ _ (by norm_num) (by norm_num) (by norm_num) two_pos
    (by norm_num)) 4 (.c1LowPass (.lit2 1000 0) (.lit2 1 0)) (by
      intro v hv
      obtain rfl : v = .lit2 1000 0 := by simpa [freqs] using hv
      exact times_lit _ _ (by norm_num) (by norm_num) (by norm_num) two_pos (by norm_num)) f

/-- 300 Hz at 1000 Hz and 900 Hz at 3000 Hz -/
example (f : RBJ.Filter Dbl) : RBJ.Filter.setup (.lit2 3000 0) (.allPass (.lit2 900 0) (.lit2 1 0)) f =
    RBJ.Filter.setup (.lit2 1000 0) (.allPass (.lit2 300 0) (.lit2 1 0)) f :=
  C17_double_rbj (k := 3) (g := fun _ => .lit2 900 0) (by norm_num) (times_lit _ _ (by norm_num) (by norm_num) (by norm_num)
    (by norm_num) (by norm_num)) (.allPass (.lit2 300 0) (.lit2 1 0))
    (times_lit _ _ (by norm_num) (by norm_num) (by norm_num) (by norm_num) (by norm_num)) f

end

end Iir
