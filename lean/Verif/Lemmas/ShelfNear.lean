import Verif.Lemmas.ShelfAt
import Verif.Lemmas.RoundNear
import Verif.Spec.Shelves

/-! # The RBJ shelves: stored coefficients close to the ideal ones, and the margin of the poles -/

namespace Iir
open FArith XR Spec Exec

variable {R : Type} [FArith R] {u η Ω : ℝ} {r : Rounds R u η Ω}

/-- What remains to be shown for each shelf: `k` is the ideal section, `γ²` its largest gain. -/
structure NearGain (r : Rounds R u η Ω) (σ γ : ℝ) (d : RBJ.Design R) (d0 : RBJ.Design XR) (k : Coeffs) : Prop where
  one : 1 ≤ γ
  four : γ ≤ 4
  a0 : 1 / 2 ≤ k.a0
  a0_le : k.a0 ≤ 16
  ideal : ∀ b, d0.setupN b = Biquad.setCoefficients (fin k.a0) (fin k.a1) (fin k.a2) (fin k.b0) (fin k.b1) (fin k.b2) b
  close : ∀ b, ∃ b' k', d.setupN b = (.ok (), b') ∧ r.Values b' k' ∧
    Coeffs.Close2 (γ ^ 3 / 2 ^ 40) (γ ^ 5 / 2 ^ 40) k' ⟨1, k.a1 / k.a0, k.a2 / k.a0, k.b0 / k.a0, k.b1 / k.a0, k.b2 / k.a0⟩ ∧
    r.At b'.a0 k.a0 (1 / 8)
  pos : 0 < σ
  two : 2 ≤ σ
  m1 : 2 * k.a0 ≤ σ ^ 2 * (k.a0 + k.a1 + k.a2)
  m2 : 2 * k.a0 ≤ σ ^ 2 * (k.a0 - k.a1 + k.a2)
  m3 : 8 / 5 * k.a0 ≤ σ * (k.a0 - k.a2)
  a2 : 0 ≤ k.a2
  forward : |k.b0| + |k.b1| + |k.b2| ≤ 4 * γ ^ 2 * k.a0

theorem NearGain.accurate {σ γ : ℝ} {d : RBJ.Design R} {d0 : RBJ.Design XR} {k : Coeffs} (h : NearGain r σ γ d d0 k)
    (hu : u ≤ 1 / 2 ^ 53) (hσ : σ ≤ 2 ^ 10) (f : RBJ.Filter R) :
    ∃ f', RBJ.Filter.setupN d f = (.ok (), f') ∧ ∀ X x, r.Input X x → 2 ^ 40 * (X + η) ≤ Ω →
      ∃ y, RBJRuns d0 (fun n => r.val (x n)) y ∧ ∀ F, (∀ fma ∈ F, r.Fused fma) → ∀ y', ChainC F DirectFormI [f'.biquad] x y' →
        r.Within (γ ^ 5 * σ ^ 4 / 2 ^ 34 * (X + 2 ^ 70 * η)) y' y := by
  obtain ⟨b', k', e, hv, hc, -⟩ := h.close f.biquad
  have hpos : 0 < k.a0 := lt_of_lt_of_le (by norm_num) h.a0
  have hσ0 := h.pos
  refine ⟨{ f with biquad := b' }, ?_, fun X x hx hΩ => ?_⟩
  · show ((d.setupN f.biquad).1, { f with biquad := (d.setupN f.biquad).2 }) = _
    rw [e]
  obtain ⟨y, hy⟩ : ∃ y, k.DiffEq (fun n => r.val (x n)) y := by
    obtain ⟨y', h⟩ : ∃ y', DiffChain [k] (fun n => r.val (x n)) y' := ⟨_, chain_diffChain [k] _⟩
    cases h with
    | cons h1 h2 => cases h2; exact ⟨_, h1⟩
  refine ⟨y, (rbjRuns_iff k hpos.ne' h.ideal _ y).2 hy, ?_⟩
  rintro F hfm y' ⟨_, hrun, rfl⟩
  have hd := Coeffs_normal hy
  have hσ2 : 0 < 2 * σ ^ 2 := by positivity
  have e1 : γ ^ 5 * σ ^ 4 / 2 ^ 34 = γ ^ 5 * (1 / (1 / (2 * σ ^ 2))) ^ 2 / 2 ^ 36 := by
    rw [one_div_one_div]; ring
  rw [e1]
  have ha2 : 1 - k.a2 / k.a0 = (k.a0 - k.a2) / k.a0 := by field_simp
  have h8 : 8 / 5 / σ ≤ 1 - k.a2 / k.a0 := by
    rw [ha2, div_le_div_iff₀ hσ0 hpos]
    linarith [h.m3]
  refine run_gain DirectFormI hu hfm hrun hv rfl h.one h.four hc ?_ ?_ ?_ ?_ ?_ ?_ ?_ ?_ hx hΩ hd <;> try simp only
  · apply one_div_le_one_div_of_le hσ2
    have : σ ^ 2 ≤ (2 ^ 10) ^ 2 := pow_le_pow_left₀ hσ0.le hσ 2
    norm_num at *
    linarith
  · apply one_div_le_one_div_of_le (by norm_num)
    nlinarith [h.two]
  · rw [show 1 + k.a1 / k.a0 + k.a2 / k.a0 = (k.a0 + k.a1 + k.a2) / k.a0 by field_simp, mul_one_div,
      div_le_div_iff₀ hσ2 hpos]
    linarith [h.m1]
  · rw [show 1 - k.a1 / k.a0 + k.a2 / k.a0 = (k.a0 - k.a1 + k.a2) / k.a0 by field_simp, mul_one_div,
      div_le_div_iff₀ hσ2 hpos]
    linarith [h.m2]
  · have := pow_le_pow_left₀ (by positivity) h8 2
    refine le_trans ?_ this
    rw [div_pow, mul_one_div, div_le_div_iff₀ hσ2 (by positivity)]
    nlinarith
  · have : 0 < 8 / 5 / σ := by positivity
    linarith
  · exact div_nonneg h.a2 hpos.le
  · unfold Coeffs.forward
    simp only [abs_div, abs_of_pos hpos]
    rw [← add_div, ← add_div, div_le_iff₀ hpos]
    exact h.forward

/-! ## Low and high shelf -/

/-- What is known of the low shelf: `a = √A`, `h = √γ`, `b` the root of the radicand. -/
structure ShelfFacts (a h c s b σ X Y q : ℝ) : Prop where
  σ0 : 0 < σ
  σ2 : 2 ≤ σ
  q0 : 0 < q
  qX : q ≤ X
  Xlo : 2 ≤ h ^ 2 * X
  Xhi : X ≤ 2 * h ^ 2
  Yhi : |Y| ≤ 2 * h ^ 2
  YX : |Y| ≤ X
  m1 : 2 * (X + q) ≤ σ ^ 2 * (X + q + -2 * Y + (X - q))
  m2 : 2 * (X + q) ≤ σ ^ 2 * (X + q - -2 * Y + (X - q))
  m3 : 8 / 5 * (X + q) ≤ σ * (X + q - (X - q))

theorem shelf_facts {a h c s b σ : ℝ} (ha : 0 < a) (hh : a ≤ h) (hah : 1 ≤ a * h) (hs : 0 < s) (hsc : s ^ 2 + c ^ 2 = 1)
    (hb : 1.4 ≤ b) (hb' : b ≤ 2) (hσ : 3 * h ≤ σ * s) :
    ShelfFacts a h c s b σ (a ^ 2 + 1 + (a ^ 2 - 1) * c) (a ^ 2 - 1 + (a ^ 2 + 1) * c) (a * s * b) := by
  have hs1 : s ≤ 1 := by nlinarith [sq_nonneg c]
  have hc1 : |c| ≤ 1 := abs_le_of_sq_le_sq (by nlinarith) (by norm_num)
  obtain ⟨c1, c2⟩ := abs_le.1 hc1
  have h1 : 1 ≤ h := by nlinarith
  have hσ0 : 0 < σ := by
    by_contra hn
    have := mul_nonpos_of_nonpos_of_nonneg (not_lt.1 hn) hs.le
    linarith
  have hσs : σ * s ≤ σ := by nlinarith
  obtain ⟨A, hA⟩ : ∃ A, A = a ^ 2 := ⟨_, rfl⟩
  obtain ⟨m, hm⟩ : ∃ m, m = a * h := ⟨_, rfl⟩
  rw [← hm] at hah
  have A0 : 0 < A := by rw [hA]; positivity
  have Am : A ≤ m := by rw [hA, hm]; nlinarith
  have mh : m ≤ h ^ 2 := by rw [hm]; nlinarith
  have q0 : 0 < a * s * b := by positivity
  have X0 : 0 < a ^ 2 + 1 + (a ^ 2 - 1) * c := by rw [← hA]; nlinarith
  have qX : a * s * b ≤ a ^ 2 + 1 + (a ^ 2 - 1) * c := by
    have h2 : a * s * b ≤ a * s * 2 := mul_le_mul_of_nonneg_left hb' (by positivity)
    refine h2.trans ?_
    refine abs_le_of_sq_le_sq' ?_ X0.le |>.2
    have e : (a ^ 2 + 1 + (a ^ 2 - 1) * c) ^ 2 - (a * s * 2) ^ 2 = (a ^ 2 * (1 + c) - (1 - c)) ^ 2 := by
      linear_combination (-4 * a ^ 2) * hsc
    nlinarith [sq_nonneg (a ^ 2 * (1 + c) - (1 - c))]
  have Xm : a ^ 2 + 1 + (a ^ 2 - 1) * c ≤ 2 * m := by rw [← hA]; nlinarith
  have Yh : |a ^ 2 - 1 + (a ^ 2 + 1) * c| ≤ a ^ 2 + 1 + (a ^ 2 - 1) * c := by
    rw [← hA]
    have t1 : 0 ≤ A * (1 + c) := mul_nonneg A0.le (by linarith)
    exact abs_le.2 ⟨by linarith, by linarith⟩
  have sσ : 9 * h ^ 2 ≤ σ ^ 2 * s ^ 2 := by
    have := pow_le_pow_left₀ (by positivity) hσ 2
    nlinarith
  have sm : s ^ 2 ≤ 2 * (1 - c) := by nlinarith
  have sp : s ^ 2 ≤ 2 * (1 + c) := by nlinarith
  refine ⟨hσ0, by linarith, q0, qX, ?_, by linarith, ?_, ?_, ?_, ?_, ?_⟩
  · rw [← hA]
    have e1 : 1 ≤ h ^ 2 := one_le_pow₀ h1
    have e2 : 1 ≤ h ^ 2 * A := by
      rw [hA, ← mul_pow]; exact one_le_pow₀ (by rw [mul_comm, ← hm]; exact hah)
    have e : h ^ 2 * (A + 1 + (A - 1) * c) = (h ^ 2 * A) * (1 + c) + h ^ 2 * (1 - c) := by ring
    rw [e]
    have t1 : 1 * (1 + c) ≤ (h ^ 2 * A) * (1 + c) := mul_le_mul_of_nonneg_right e2 (by linarith)
    have t2 : 1 * (1 - c) ≤ h ^ 2 * (1 - c) := mul_le_mul_of_nonneg_right e1 (by linarith)
    linarith
  · exact Yh.trans (by linarith)
  · exact Yh
  · have e : σ ^ 2 * (a ^ 2 + 1 + (a ^ 2 - 1) * c + a * s * b + -2 * (a ^ 2 - 1 + (a ^ 2 + 1) * c) +
        (a ^ 2 + 1 + (a ^ 2 - 1) * c - a * s * b)) = σ ^ 2 * (4 * (1 - c)) := by ring
    have t : σ ^ 2 * (2 * s ^ 2) ≤ σ ^ 2 * (4 * (1 - c)) := mul_le_mul_of_nonneg_left (by linarith) (by positivity)
    rw [e]
    linarith
  · have e : σ ^ 2 * (a ^ 2 + 1 + (a ^ 2 - 1) * c + a * s * b - -2 * (a ^ 2 - 1 + (a ^ 2 + 1) * c) +
        (a ^ 2 + 1 + (a ^ 2 - 1) * c - a * s * b)) = A * (σ ^ 2 * (4 * (1 + c))) := by rw [hA]; ring
    have t : σ ^ 2 * (2 * s ^ 2) ≤ σ ^ 2 * (4 * (1 + c)) := mul_le_mul_of_nonneg_left (by linarith) (by positivity)
    have t' : A * (18 * h ^ 2) ≤ A * (σ ^ 2 * (4 * (1 + c))) := mul_le_mul_of_nonneg_left (by linarith) A0.le
    have t2 : A * (18 * h ^ 2) = 18 * m ^ 2 := by rw [hA, hm]; ring
    have t3 : m ≤ m ^ 2 := le_self_pow₀ hah (by norm_num)
    rw [e]
    linarith
  · have e : σ * (a ^ 2 + 1 + (a ^ 2 - 1) * c + a * s * b - (a ^ 2 + 1 + (a ^ 2 - 1) * c - a * s * b)) = 2 * a * b * (σ * s) := by ring
    have t : 2 * a * b * (3 * h) ≤ 2 * a * b * (σ * s) := mul_le_mul_of_nonneg_left hσ (by positivity)
    have t2 : 2 * a * b * (3 * h) = 6 * b * m := by rw [hm]; ring
    have t3 : 6 * 1.4 * m ≤ 6 * b * m := mul_le_mul_of_nonneg_right (by linarith) (by linarith)
    rw [e]
    linarith

/-- the numerator against the denominator -/
theorem shelf_num {A γ c q : ℝ} (hg : GainBounds A γ) (hc1 : |c| ≤ 1) (hq : 0 < q) (hX : q ≤ A + 1 + (A - 1) * c)
    (hX' : q ≤ A + 1 - (A - 1) * c) :
    |A * (A + 1 - (A - 1) * c + q)| ≤ γ ^ 2 * (A + 1 + (A - 1) * c + q) ∧
    |A * (A + 1 - (A - 1) * c - q)| ≤ γ ^ 2 * (A + 1 + (A - 1) * c + q) ∧
    |2 * A * (A - 1 - (A + 1) * c)| ≤ 2 * γ ^ 2 * (A + 1 + (A - 1) * c + q) ∧
    |A * (A + 1 - (A - 1) * c + q)| + |2 * A * (A - 1 - (A + 1) * c)| + |A * (A + 1 - (A - 1) * c - q)| ≤
      4 * γ ^ 2 * (A + 1 + (A - 1) * c + q) := by
  obtain ⟨g0, g1, g2, g3, g4⟩ := hg
  obtain ⟨c1, c2⟩ := abs_le.1 hc1
  have AA : A ^ 2 ≤ γ ^ 2 := pow_le_pow_left₀ g0.le g3 2
  have Aγ : A ≤ γ ^ 2 * A := le_mul_of_one_le_left g0.le (one_le_pow₀ g1)
  have A1 : A ≤ γ ^ 2 := by nlinarith
  have key : A * (A + 1 - (A - 1) * c) ≤ γ ^ 2 * (A + 1 + (A - 1) * c) := by
    have t1 : A ^ 2 * (1 - c) ≤ γ ^ 2 * (1 - c) := mul_le_mul_of_nonneg_right AA (by linarith)
    have t2 : A * (1 + c) ≤ γ ^ 2 * A * (1 + c) := mul_le_mul_of_nonneg_right Aγ (by linarith)
    nlinarith
  have key2 : A * q ≤ γ ^ 2 * q := mul_le_mul_of_nonneg_right A1 hq.le
  have n1 : 0 ≤ A * (A + 1 - (A - 1) * c + q) := mul_nonneg g0.le (by linarith)
  have n2 : 0 ≤ A * (A + 1 - (A - 1) * c - q) := mul_nonneg g0.le (by linarith)
  have n3 : 0 ≤ A * q := by positivity
  have n4 : 0 ≤ γ ^ 2 * q := by positivity
  have b1 : |2 * A * (A - 1 - (A + 1) * c)| ≤ 2 * (A * (A + 1 - (A - 1) * c)) := by
    have t1 : 0 ≤ A ^ 2 * (1 - c) := mul_nonneg (by positivity) (by linarith)
    have t2 : 0 ≤ A * (1 + c) := mul_nonneg g0.le (by linarith)
    rw [abs_le]
    constructor <;> nlinarith
  rw [abs_of_nonneg n1, abs_of_nonneg n2]
  refine ⟨by linarith, by linarith, by linarith, by linarith⟩

section near
variable (ha : r.Accurate)
include ha

omit ha in
theorem gainBounds {g : ℝ} (h : |g| ≤ 24) : GainBounds ((10 : ℝ) ^ (g / 40)) ((10 : ℝ) ^ (|g| / 40)) :=
  ⟨by positivity, (pow_bounds h).1, (pow_bounds h).2.1, (pow_bounds h).2.2.1, (pow_bounds h).2.2.2⟩

omit ha in
/-- conditions under which the stored coefficients of low and high shelf are close -/
theorem shelf_tol {γ X q : ℝ} (hγ : 1 ≤ γ) (hγ' : γ ≤ 4) (hX : 2 ≤ γ * X) (hq : 0 < q) :
    2 / γ ≤ X + q ∧ 0 < 2 / γ - 9 * γ ^ 2 / 2 ^ 44 ∧ 9 * γ ^ 2 / 2 ^ 44 ≤ 1 / 8 ∧
    9 * γ ^ 2 / 2 ^ 44 + 2 * (9 * γ ^ 2 / 2 ^ 44) ≤ 15.9 * γ ^ 3 / 2 ^ 44 * (2 / γ - 9 * γ ^ 2 / 2 ^ 44) ∧
    9 * γ ^ 2 / 2 ^ 44 + 1 * (9 * γ ^ 2 / 2 ^ 44) ≤ 15.9 * γ ^ 3 / 2 ^ 44 * (2 / γ - 9 * γ ^ 2 / 2 ^ 44) ∧
    11 * γ ^ 3 / 2 ^ 44 + 2 * γ ^ 2 * (9 * γ ^ 2 / 2 ^ 44) ≤ 15.9 * γ ^ 5 / 2 ^ 44 * (2 / γ - 9 * γ ^ 2 / 2 ^ 44) ∧
    11 * γ ^ 3 / 2 ^ 44 + γ ^ 2 * (9 * γ ^ 2 / 2 ^ 44) ≤ 15.9 * γ ^ 5 / 2 ^ 44 * (2 / γ - 9 * γ ^ 2 / 2 ^ 44) := by
  have g0 : 0 < γ := by linarith
  have p2 : γ ^ 2 ≤ 4 ^ 2 := pow_le_pow_left₀ g0.le hγ' 2
  have i1 : 1 / 2 ≤ 2 / γ := by rw [le_div_iff₀ g0]; linarith
  have e1 : 15.9 * γ ^ 3 / 2 ^ 44 * (2 / γ - 9 * γ ^ 2 / 2 ^ 44) = 31.8 / 2 ^ 44 * γ ^ 2 - 15.9 * 9 / 2 ^ 88 * γ ^ 5 := by
    field_simp; norm_num; ring
  have e2 : 15.9 * γ ^ 5 / 2 ^ 44 * (2 / γ - 9 * γ ^ 2 / 2 ^ 44) = 31.8 / 2 ^ 44 * γ ^ 4 - 15.9 * 9 / 2 ^ 88 * γ ^ 7 := by
    field_simp; norm_num; ring
  have p5 : γ ^ 5 ≤ 64 * γ ^ 2 := by
    have : γ ^ 3 ≤ 4 ^ 3 := pow_le_pow_left₀ g0.le hγ' 3
    calc γ ^ 5 = γ ^ 3 * γ ^ 2 := by ring
      _ ≤ 4 ^ 3 * γ ^ 2 := mul_le_mul_of_nonneg_right this (by positivity)
      _ = _ := by norm_num
  have p7 : γ ^ 7 ≤ 64 * γ ^ 4 := by
    have : γ ^ 3 ≤ 4 ^ 3 := pow_le_pow_left₀ g0.le hγ' 3
    calc γ ^ 7 = γ ^ 3 * γ ^ 4 := by ring
      _ ≤ 4 ^ 3 * γ ^ 4 := mul_le_mul_of_nonneg_right this (by positivity)
      _ = _ := by norm_num
  have p34 : γ ^ 3 ≤ γ ^ 4 := pow_le_pow_right₀ hγ (by norm_num)
  have e3 : γ ^ 2 * (9 * γ ^ 2 / 2 ^ 44) = 9 / 2 ^ 44 * γ ^ 4 := by ring
  have e4 : 2 * γ ^ 2 * (9 * γ ^ 2 / 2 ^ 44) = 18 / 2 ^ 44 * γ ^ 4 := by ring
  have n2 : 0 < γ ^ 2 := by positivity
  have n4 : 0 < γ ^ 4 := by positivity
  rw [e1, e2, e3, e4]
  generalize γ ^ 2 = g2 at *
  generalize γ ^ 3 = g3 at *
  generalize γ ^ 4 = g4 at *
  generalize γ ^ 5 = g5 at *
  generalize γ ^ 7 = g7 at *
  norm_num at p2 i1
  refine ⟨?_, by norm_num; linarith, by norm_num; linarith, by norm_num; linarith, by norm_num; linarith, by norm_num; linarith,
    by norm_num; linarith⟩
  rw [div_le_iff₀ g0]
  have := mul_pos g0 hq
  linarith

theorem near_shelf_core {d : RBJ.Design R} {d0 : RBJ.Design XR} {a0 a1 a2 b0 b1 b2 : R} {γ σ X q k1 m0 m1 m2 : ℝ}
    (hγ : 1 ≤ γ) (hγ' : γ ≤ 4)
    (hd : ∀ b, d.setupN b = Biquad.setCoefficients a0 a1 a2 b0 b1 b2 b)
    (hd0 : ∀ b, d0.setupN b = Biquad.setCoefficients (fin (X + q)) (fin k1) (fin (X - q)) (fin m0) (fin m1) (fin m2) b)
    (h0 : r.At a0 (X + q) (9 * γ ^ 2 / 2 ^ 44)) (h1 : r.At a1 k1 (9 * γ ^ 2 / 2 ^ 44)) (h2 : r.At a2 (X - q) (9 * γ ^ 2 / 2 ^ 44))
    (hb0 : r.At b0 m0 (11 * γ ^ 3 / 2 ^ 44)) (hb1 : r.At b1 m1 (11 * γ ^ 3 / 2 ^ 44)) (hb2 : r.At b2 m2 (11 * γ ^ 3 / 2 ^ 44))
    (σ0 : 0 < σ) (σ2 : 2 ≤ σ) (q0 : 0 < q) (qX : q ≤ X) (Xlo : 2 ≤ γ * X) (Xhi : X ≤ 2 * γ)
    (v1 : |k1| ≤ 2 * X) (w0 : |m0| ≤ γ ^ 2 * (X + q)) (w1 : |m1| ≤ 2 * γ ^ 2 * (X + q)) (w2 : |m2| ≤ γ ^ 2 * (X + q))
    (w : |m0| + |m1| + |m2| ≤ 4 * γ ^ 2 * (X + q))
    (n1 : 2 * (X + q) ≤ σ ^ 2 * (X + q + k1 + (X - q))) (n2 : 2 * (X + q) ≤ σ ^ 2 * (X + q - k1 + (X - q)))
    (n3 : 8 / 5 * (X + q) ≤ σ * (X + q - (X - q))) :
    NearGain r σ γ d d0 ⟨X + q, k1, X - q, m0, m1, m2⟩ := by
  obtain ⟨t0, t1, t2, t3, t4, t5, t6⟩ := shelf_tol hγ hγ' Xlo q0
  have i1 : 1 / 2 ≤ 2 / γ := by rw [le_div_iff₀ (by linarith)]; linarith
  refine ⟨hγ, hγ', i1.trans t0, by simp only; linarith, hd0, fun b => ?_, σ0, σ2, n1, n2, n3, by simp only; linarith, w⟩
  obtain ⟨b', k', e1, e2, e3, e4⟩ := stored_gain ha b hγ hγ' h0 h1 h2 hb0 hb1 hb2 t0 t1 t2 (by linarith)
    (by rw [abs_of_nonneg (by linarith)]; linarith) w0 w1 w2 t3 t4 t5 t6
  exact ⟨b', k', by rw [hd, e1], e2, e3, e4⟩

theorem near_shelf {f g S : R} {f0 g0 S0 σ : ℝ} (hf : r.Fin f) (hg : r.Fin g) (hS : r.Fin S) (hn : |r.val f - f0| ≤ 1 / 2 ^ 50)
    (eg : r.val g = g0) (eS : r.val S = S0) (h0 : 0 < f0) (h1 : f0 < 1 / 2) (h2 : |g0| ≤ 24) (h3 : 0 < S0) (h4 : S0 ≤ 1)
    (h5 : ((10 : ℝ) ^ (g0 / 40) + (10 : ℝ) ^ (-g0 / 40)) * (1 / S0 - 1) ≤ 2)
    (hσ : 3 * (10 : ℝ) ^ (|g0| / 80) ≤ σ * Real.sin (2 * Real.pi * f0))
    {d : RBJ.Design R} {d0 : RBJ.Design XR}
    (hd : (d = .lowShelf f g S ∧ d0 = .lowShelf (fin f0) (fin g0) (fin S0)) ∨
      (d = .highShelf f g S ∧ d0 = .highShelf (fin f0) (fin g0) (fin S0))) :
    ∃ k, NearGain r σ ((10 : ℝ) ^ (|g0| / 40)) d d0 k := by
  obtain ⟨hs, hc1, hc2⟩ := trig_facts h0 h1
  have hsc := Real.sin_sq_add_cos_sq (2 * Real.pi * f0)
  have hw := At.w0 ha ⟨hf, hn⟩ h0.le h1.le
  have hc := At.cos ha hw
  have hsn := At.sin ha hw
  have hA := At.gainA ha hg (by rw [eg]; exact h2)
  rw [eg] at hA
  have hG := gainBounds h2
  have einv : (10 : ℝ) ^ (-g0 / 40) = 1 / (10 : ℝ) ^ (g0 / 40) := by
    rw [neg_div, Real.rpow_neg (by norm_num), one_div]
  rw [einv] at h5
  have hS' : r.At S S0 0 := ⟨hS, by rw [eS]; simp⟩
  have hs1 := Real.sin_le_one (2 * Real.pi * f0)
  have hsq := At.gainSq ha hA hsn hS' hG hs.le hs1 h3 h4 h5
  have hcabs := Real.abs_cos_le_one (2 * Real.pi * f0)
  obtain ⟨⟨x1, x2⟩, y1, y2⟩ := At.gainC ha hA hc hG hcabs
  have hlow := lowShelf_setup (f0 := f0) (g := g0) h3 h4
  have hhigh := highShelf_setup (f0 := f0) (g := g0) h3 h4
  have eγ : (10 : ℝ) ^ (|g0| / 40) = ((10 : ℝ) ^ (|g0| / 80)) ^ 2 := by
    rw [← Real.rpow_natCast, ← Real.rpow_mul (by norm_num)]; congr 1; push_cast; ring
  have hh0 : 0 < (10 : ℝ) ^ (|g0| / 80) := by positivity
  have rad : 2 ≤ ((10 : ℝ) ^ (g0 / 40) + 1 / (10 : ℝ) ^ (g0 / 40)) * (1 / S0 - 1) + 2 := by
    have : 1 ≤ 1 / S0 := by rw [le_div_iff₀ h3]; linarith
    have := mul_nonneg (add_nonneg hG.pos.le (one_div_pos.2 hG.pos).le) (by linarith : 0 ≤ 1 / S0 - 1)
    linarith
  have b1 : 1.4 ≤ √(((10 : ℝ) ^ (g0 / 40) + 1 / (10 : ℝ) ^ (g0 / 40)) * (1 / S0 - 1) + 2) :=
    Real.le_sqrt_of_sq_le (le_trans (by norm_num) rad)
  have b2 : √(((10 : ℝ) ^ (g0 / 40) + 1 / (10 : ℝ) ^ (g0 / 40)) * (1 / S0 - 1) + 2) ≤ 2 := by
    rw [Real.sqrt_le_left (by norm_num)]; linarith
  have a0 : 0 < √((10 : ℝ) ^ (g0 / 40)) := Real.sqrt_pos.2 hG.pos
  have ea := Real.sq_sqrt hG.pos.le
  have a1 : √((10 : ℝ) ^ (g0 / 40)) ≤ (10 : ℝ) ^ (|g0| / 80) := by
    rw [Real.sqrt_le_left hh0.le, ← eγ]; exact hG.le
  have a2 : 1 ≤ √((10 : ℝ) ^ (g0 / 40)) * (10 : ℝ) ^ (|g0| / 80) := by
    have h6 := hG.inv
    rw [eγ, ← ea, ← mul_pow] at h6
    have n : 0 ≤ √((10 : ℝ) ^ (g0 / 40)) * (10 : ℝ) ^ (|g0| / 80) := by positivity
    nlinarith
  have eq : 2 * √((10 : ℝ) ^ (g0 / 40)) * (Real.sin (2 * Real.pi * f0) / 2 *
      √(((10 : ℝ) ^ (g0 / 40) + 1 / (10 : ℝ) ^ (g0 / 40)) * (1 / S0 - 1) + 2)) = √((10 : ℝ) ^ (g0 / 40)) * Real.sin (2 * Real.pi * f0) *
      √(((10 : ℝ) ^ (g0 / 40) + 1 / (10 : ℝ) ^ (g0 / 40)) * (1 / S0 - 1) + 2) := by ring
  have F1 := shelf_facts a0 a1 a2 hs hsc b1 b2 hσ
  have F2 := shelf_facts a0 a1 a2 hs (c := -Real.cos (2 * Real.pi * f0)) (by rw [neg_sq]; exact hsc) b1 b2 hσ
  simp only [eq] at hlow hhigh
  rw [eq] at hsq
  rw [ea] at F1 F2
  obtain ⟨eX, eY⟩ : (10 : ℝ) ^ (g0 / 40) + 1 + ((10 : ℝ) ^ (g0 / 40) - 1) * -Real.cos (2 * Real.pi * f0) =
      (10 : ℝ) ^ (g0 / 40) + 1 - ((10 : ℝ) ^ (g0 / 40) - 1) * Real.cos (2 * Real.pi * f0) ∧
      (10 : ℝ) ^ (g0 / 40) - 1 + ((10 : ℝ) ^ (g0 / 40) + 1) * -Real.cos (2 * Real.pi * f0) =
      (10 : ℝ) ^ (g0 / 40) - 1 - ((10 : ℝ) ^ (g0 / 40) + 1) * Real.cos (2 * Real.pi * f0) := ⟨by ring, by ring⟩
  rw [eX, eY] at F2
  obtain ⟨σ0, σ2, q0, qX, Xlo, Xhi, Yhi, YX, m1, m2, m3⟩ := F1
  obtain ⟨-, -, -, qX', Xlo', Xhi', Yhi', YX', m1', m2', m3'⟩ := F2
  rw [← eγ] at Xlo Xhi Yhi Xlo' Xhi' Yhi'
  have num := shelf_num hG hcabs q0 qX qX'
  have num' := shelf_num hG (c := -Real.cos (2 * Real.pi * f0)) (by rw [abs_neg]; exact hcabs) q0 (by rw [eX]; exact qX') (by
    linarith)
  generalize √((10 : ℝ) ^ (g0 / 40)) * Real.sin (2 * Real.pi * f0) *
      √(((10 : ℝ) ^ (g0 / 40) + 1 / (10 : ℝ) ^ (g0 / 40)) * (1 / S0 - 1) + 2) = q at *
  have hq2 : |q| ≤ 2 * (10 : ℝ) ^ (|g0| / 40) := by rw [abs_of_pos q0]; linarith
  have aX := abs_of_nonneg (q0.le.trans qX)
  have aX' := abs_of_nonneg (q0.le.trans qX')
  obtain ⟨⟨p1, p2, p3, -⟩, p5, p6, p7, -⟩ := At.gainAB ha hA hG x1 y1 hsq (by rw [aX]; exact Xhi) Yhi hq2
  obtain ⟨⟨o1, o2, -, o4⟩, o5, o6, -, o8⟩ := At.gainAB ha hA hG x2 y2 hsq (by rw [aX']; exact Xhi') Yhi' hq2
  obtain ⟨w0, w2, w1, w⟩ := num
  obtain ⟨w0', w2', w1', w'⟩ := num'
  obtain ⟨eU, eV⟩ : (10 : ℝ) ^ (g0 / 40) + 1 - ((10 : ℝ) ^ (g0 / 40) - 1) * -Real.cos (2 * Real.pi * f0) =
      (10 : ℝ) ^ (g0 / 40) + 1 + ((10 : ℝ) ^ (g0 / 40) - 1) * Real.cos (2 * Real.pi * f0) ∧
      (10 : ℝ) ^ (g0 / 40) - 1 - ((10 : ℝ) ^ (g0 / 40) + 1) * -Real.cos (2 * Real.pi * f0) =
      (10 : ℝ) ^ (g0 / 40) - 1 + ((10 : ℝ) ^ (g0 / 40) + 1) * Real.cos (2 * Real.pi * f0) := ⟨by ring, by ring⟩
  rw [eX, eU] at w0' w2'
  rw [eX, eV] at w1'
  rw [eX, eU, eV] at w'
  have ab2 : ∀ y : ℝ, |-2 * y| = 2 * |y| := fun y => by rw [abs_mul]; norm_num
  have ab2' : ∀ y : ℝ, |2 * y| = 2 * |y| := fun y => by rw [abs_mul]; norm_num
  have abn : ∀ a y : ℝ, |-2 * a * y| = |2 * a * y| := fun a y => by rw [← abs_neg]; congr 1; ring
  rcases hd with ⟨rfl, rfl⟩ | ⟨rfl, rfl⟩
  · exact ⟨_, near_shelf_core ha hG.one hG.four (fun b => rfl) hlow p1 p3 p2 o5 o8 o6 σ0 σ2 q0 qX Xlo Xhi
      (by rw [ab2]; linarith) w0 w1 w2 w m1 m2 m3⟩
  · refine ⟨_, near_shelf_core ha hG.one hG.four (fun b => rfl) hhigh o1 o4 o2 p5 p7 p6 σ0 σ2 q0 qX' Xlo' Xhi'
      (by rw [ab2']; linarith) w0' (by rw [abn]; exact w1') w2' (by rw [abn]; exact w') ?_ ?_ m3'⟩
    · linarith [m2']
    · linarith [m1']

/-- the six coefficients of the band shelf before normalisation -/
theorem At.bandCo {AL A : R} {L A0 γ : ℝ} (hL : r.At AL L (5.5 * γ * A0 / 2 ^ 44)) (hA : r.At A A0 (0.52 * A0 / 2 ^ 44))
    (hg : GainBounds A0 γ) (hL0 : 0 ≤ L) (hLA : L ≤ A0) :
    (r.At (1 + AL / A) (1 + L / A0) (6.3 * γ / 2 ^ 44) ∧ r.At (1 - AL / A) (1 - L / A0) (6.3 * γ / 2 ^ 44)) ∧
    r.At (1 + AL * A) (1 + L * A0) (6.3 * γ ^ 3 / 2 ^ 44) ∧ r.At (1 - AL * A) (1 - L * A0) (6.3 * γ ^ 3 / 2 ^ 44) := by
  obtain ⟨p1, p2, p3, p4⟩ := hg.pows
  obtain ⟨g0, g1, g2, g3, g4⟩ := hg
  have l1 : L / A0 ≤ 1 := (div_le_one g0).2 hLA
  have l0 : 0 ≤ L / A0 := div_nonneg hL0 g0.le
  have one := At.one ha
  have Aγ : A0 ≤ γ * A0 := le_mul_of_one_le_left g0.le g1
  have q : r.At (AL / A) (L / A0) (6.2 * γ / 2 ^ 44) := by
    refine At.div ha hL hA (V := 1) (e := 6.1 * γ / 2 ^ 44) le_rfl ?_ (by rw [abs_of_nonneg l0]; exact l1) ?_ ?_ ?_
    · norm_num; linarith
    · have e : 6.1 * γ / 2 ^ 44 * (A0 - 0.52 * A0 / 2 ^ 44) = 6.1 * (γ * A0) / 2 ^ 44 * (1 - 0.52 / 2 ^ 44) := by ring
      have e' : 5.5 * γ * A0 = 5.5 * (γ * A0) := by ring
      rw [e, e']
      norm_num; linarith
    · norm_num; linarith
    · norm_num; linarith
  have x0 : 0 ≤ L * A0 := mul_nonneg hL0 g0.le
  have A2 : A0 ^ 2 ≤ γ ^ 2 := pow_le_pow_left₀ g0.le g3 2
  have x1 : L * A0 ≤ γ ^ 2 := le_trans (by rw [sq]; exact mul_le_mul_of_nonneg_right hLA g0.le) A2
  have A3 : γ * A0 ^ 2 ≤ γ ^ 3 := by
    calc γ * A0 ^ 2 ≤ γ * γ ^ 2 := mul_le_mul_of_nonneg_left A2 (by linarith)
      _ = _ := by ring
  have m : r.At (AL * A) (L * A0) (6.2 * γ ^ 3 / 2 ^ 44) := by
    refine At.mul ha hL hA (V := A0) (W := A0) (M := γ ^ 2) (e := 6.1 * γ ^ 3 / 2 ^ 44) (by rw [abs_of_nonneg hL0]; exact hLA)
      (by rw [abs_of_pos g0]) (by rw [abs_of_nonneg x0]; exact x1) ?_ ?_ ?_
    · have e : 5.5 * γ * A0 / 2 ^ 44 * A0 + A0 * (0.52 * A0 / 2 ^ 44) + 5.5 * γ * A0 / 2 ^ 44 * (0.52 * A0 / 2 ^ 44) =
        (5.5 / 2 ^ 44 + 5.5 * 0.52 / 2 ^ 88) * (γ * A0 ^ 2) + 0.52 / 2 ^ 44 * A0 ^ 2 := by ring
      rw [e]; norm_num; linarith
    · norm_num; linarith
    · norm_num; linarith
  refine ⟨⟨?_, ?_⟩, ?_, ?_⟩
  · exact At.add ha one q (M := 2) (abs_le.2 ⟨by linarith, by linarith⟩) (by norm_num; linarith) (by norm_num; linarith)
  · exact At.sub ha one q (M := 2) (abs_le.2 ⟨by linarith, by linarith⟩) (by norm_num; linarith) (by norm_num; linarith)
  · exact At.add ha one m (M := 1 + γ ^ 2) (abs_le.2 ⟨by linarith, by linarith⟩) (by norm_num; linarith) (by norm_num; linarith)
  · exact At.sub ha one m (M := 1 + γ ^ 2) (abs_le.2 ⟨by linarith, by linarith⟩) (by norm_num; linarith) (by norm_num; linarith)

omit ha in
theorem band_tol {γ : ℝ} (hγ : 1 ≤ γ) (hγ' : γ ≤ 4) :
    0 < 1 - 6.3 * γ / 2 ^ 44 ∧ 6.3 * γ / 2 ^ 44 ≤ 1 / 8 ∧
    2.5 / 2 ^ 44 + 2 * (6.3 * γ / 2 ^ 44) ≤ 15.9 * γ ^ 3 / 2 ^ 44 * (1 - 6.3 * γ / 2 ^ 44) ∧
    6.3 * γ / 2 ^ 44 + 1 * (6.3 * γ / 2 ^ 44) ≤ 15.9 * γ ^ 3 / 2 ^ 44 * (1 - 6.3 * γ / 2 ^ 44) ∧
    2.5 / 2 ^ 44 + 2 * γ ^ 2 * (6.3 * γ / 2 ^ 44) ≤ 15.9 * γ ^ 5 / 2 ^ 44 * (1 - 6.3 * γ / 2 ^ 44) ∧
    6.3 * γ ^ 3 / 2 ^ 44 + γ ^ 2 * (6.3 * γ / 2 ^ 44) ≤ 15.9 * γ ^ 5 / 2 ^ 44 * (1 - 6.3 * γ / 2 ^ 44) := by
  have g0 : 0 < γ := by linarith
  have e1 : 15.9 * γ ^ 3 / 2 ^ 44 * (1 - 6.3 * γ / 2 ^ 44) = 15.9 / 2 ^ 44 * γ ^ 3 - 15.9 * 6.3 / 2 ^ 88 * γ ^ 4 := by ring
  have e2 : 15.9 * γ ^ 5 / 2 ^ 44 * (1 - 6.3 * γ / 2 ^ 44) = 15.9 / 2 ^ 44 * γ ^ 5 - 15.9 * 6.3 / 2 ^ 88 * γ ^ 6 := by ring
  have e3 : 2 * γ ^ 2 * (6.3 * γ / 2 ^ 44) = 12.6 / 2 ^ 44 * γ ^ 3 := by ring
  have e4 : γ ^ 2 * (6.3 * γ / 2 ^ 44) = 6.3 / 2 ^ 44 * γ ^ 3 := by ring
  have p4 : γ ^ 4 ≤ 4 * γ ^ 3 := by
    calc γ ^ 4 = γ * γ ^ 3 := by ring
      _ ≤ 4 * γ ^ 3 := mul_le_mul_of_nonneg_right hγ' (by positivity)
  have p6 : γ ^ 6 ≤ 4 * γ ^ 5 := by
    calc γ ^ 6 = γ * γ ^ 5 := by ring
      _ ≤ 4 * γ ^ 5 := mul_le_mul_of_nonneg_right hγ' (by positivity)
  have p3 : γ ≤ γ ^ 3 := le_self_pow₀ hγ (by norm_num)
  have p5 : γ ^ 3 ≤ γ ^ 5 := pow_le_pow_right₀ hγ (by norm_num)
  rw [e1, e2, e3, e4]
  refine ⟨by norm_num; linarith, by norm_num; linarith, by norm_num; linarith, by norm_num; linarith, by norm_num; linarith,
    by norm_num; linarith⟩

omit ha in
theorem band_num {L A γ c : ℝ} (hg : GainBounds A γ) (hL : 0 ≤ L) (hc : |c| ≤ 1) :
    |1 + L * A| ≤ γ ^ 2 * (1 + L / A) ∧ |1 - L * A| ≤ γ ^ 2 * (1 + L / A) ∧ |-2 * c| ≤ 2 * γ ^ 2 * (1 + L / A) ∧
    |1 + L * A| + |-2 * c| + |1 - L * A| ≤ 4 * γ ^ 2 * (1 + L / A) := by
  obtain ⟨g0, g1, g2, g3, g4⟩ := hg
  have l0 : 0 ≤ L / A := div_nonneg hL g0.le
  have e : L * A = L / A * A ^ 2 := by field_simp
  have A2 : A ^ 2 ≤ γ ^ 2 := pow_le_pow_left₀ g0.le g3 2
  have x1 : L * A ≤ L / A * γ ^ 2 := by rw [e]; exact mul_le_mul_of_nonneg_left A2 l0
  have x0 : 0 ≤ L * A := mul_nonneg hL g0.le
  have one : 1 ≤ γ ^ 2 := one_le_pow₀ g1
  have t0 : 0 ≤ L / A * γ ^ 2 := by linarith
  have u1 : γ ^ 2 * (1 + L / A) = γ ^ 2 + L / A * γ ^ 2 := by ring
  have u2 : 2 * γ ^ 2 * (1 + L / A) = 2 * γ ^ 2 + 2 * (L / A * γ ^ 2) := by ring
  have u4 : 4 * γ ^ 2 * (1 + L / A) = 4 * γ ^ 2 + 4 * (L / A * γ ^ 2) := by ring
  have c2 : |-2 * c| ≤ 2 := by rw [abs_mul]; norm_num; exact hc
  have s1 : |1 + L * A| = 1 + L * A := abs_of_nonneg (by linarith)
  have s2 : |1 - L * A| ≤ 1 + L * A := abs_le.2 ⟨by linarith, by linarith⟩
  rw [u1, u2, u4, s1]
  refine ⟨by linarith, by linarith, by linarith, ?_⟩
  rcases le_total (L * A) 1 with h | h
  · rw [abs_of_nonneg (sub_nonneg.2 h)]; linarith
  · rw [abs_of_nonpos (sub_nonpos.2 h)]; linarith

theorem near_band {f g W : R} {f0 g0 W0 σ : ℝ} (hf : r.Fin f) (hg : r.Fin g) (hW : r.Fin W) (hn : |r.val f - f0| ≤ 1 / 2 ^ 50)
    (eg : r.val g = g0) (eW : r.val W = W0) (h0 : 0 < f0) (h1 : f0 < 1 / 2) (h2 : |g0| ≤ 24) (h3 : 0 < W0)
    (h4 : Real.sinh (Real.log 2 / 2 * W0 * (2 * Real.pi * f0) / Real.sin (2 * Real.pi * f0)) ≤ (10 : ℝ) ^ (g0 / 40))
    (h5 : (10 : ℝ) ^ (g0 / 40) + Real.sinh (Real.log 2 / 2 * W0 * (2 * Real.pi * f0) / Real.sin (2 * Real.pi * f0)) ≤
      σ * Real.sin (2 * Real.pi * f0) * Real.sinh (Real.log 2 / 2 * W0 * (2 * Real.pi * f0) / Real.sin (2 * Real.pi * f0)))
    (hσ : σ ≤ 2 ^ 10) :
    ∃ k, NearGain r σ ((10 : ℝ) ^ (|g0| / 40)) (.bandShelf f g W) (.bandShelf (fin f0) (fin g0) (fin W0)) k := by
  obtain ⟨hs, hc1, hc2⟩ := trig_facts h0 h1
  have hsc := Real.sin_sq_add_cos_sq (2 * Real.pi * f0)
  have hw := At.w0 ha ⟨hf, hn⟩ h0.le h1.le
  have hc := At.cos ha hw
  have hsn := At.sin ha hw
  have hA := At.gainA ha hg (by rw [eg]; exact h2)
  rw [eg] at hA
  have hG := gainBounds h2
  have hW' : r.At W W0 0 := ⟨hW, by rw [eW]; simp⟩
  have hpi := Real.pi_le_four
  have wpos : 0 ≤ 2 * Real.pi * f0 := by positivity
  have hw4 : 2 * Real.pi * f0 ≤ 4 := by
    have := mul_lt_mul_of_pos_left h1 (by positivity : 0 < 2 * Real.pi)
    linarith
  have hset := bandShelf_setup (g := g0) hs W0
  have hal := bandShelf_al h0 h1 h3
  have hs1 := Real.sin_le_one (2 * Real.pi * f0)
  have hsw := Real.sin_le wpos
  have hcabs := Real.abs_cos_le_one (2 * Real.pi * f0)
  have hh : 0 < Real.sinh (Real.log 2 / 2 * W0 * (2 * Real.pi * f0) / Real.sin (2 * Real.pi * f0)) := 
    (mul_pos_iff_of_pos_left hs).1 hal
  have hA0 := hG.pos
  have hσs : (10 : ℝ) ^ (g0 / 40) / Real.sinh (Real.log 2 / 2 * W0 * (2 * Real.pi * f0) / Real.sin (2 * Real.pi * f0)) + 1 ≤
      σ * Real.sin (2 * Real.pi * f0) := by
    rw [← div_self hh.ne', ← add_div, div_le_iff₀ hh]; exact h5
  have hq1 : 1 ≤ (10 : ℝ) ^ (g0 / 40) / Real.sinh (Real.log 2 / 2 * W0 * (2 * Real.pi * f0) / Real.sin (2 * Real.pi * f0)) :=
    (one_le_div hh).2 h4
  have hs9 : 1 / 2 ^ 9 ≤ Real.sin (2 * Real.pi * f0) := by
    have := mul_le_mul_of_nonneg_right hσ hs.le
    norm_num at this ⊢
    linarith
  have hAL := At.bandAL ha hw hsn hW' hG hs9 hs1 hsw hw4 h3 h4
  have CM := core_margin (σ := σ) (q := (10 : ℝ) ^ (g0 / 40) / Real.sinh (Real.log 2 / 2 * W0 * (2 * Real.pi * f0) / Real.sin (2 * Real.pi * f0)) / 2)
    hs hsc (by linarith) (by linarith)
  have eal : Real.sin (2 * Real.pi * f0) / (2 * ((10 : ℝ) ^ (g0 / 40) /
      Real.sinh (Real.log 2 / 2 * W0 * (2 * Real.pi * f0) / Real.sin (2 * Real.pi * f0)) / 2)) =
      Real.sin (2 * Real.pi * f0) * Real.sinh (Real.log 2 / 2 * W0 * (2 * Real.pi * f0) / Real.sin (2 * Real.pi * f0)) /
        (10 : ℝ) ^ (g0 / 40) := by
    field_simp
  rw [eal] at CM
  simp only at hset
  have LA : Real.sin (2 * Real.pi * f0) * Real.sinh (Real.log 2 / 2 * W0 * (2 * Real.pi * f0) / Real.sin (2 * Real.pi * f0)) ≤
      (10 : ℝ) ^ (g0 / 40) := (mul_le_of_le_one_left hh.le hs1).trans h4
  generalize Real.sin (2 * Real.pi * f0) * Real.sinh (Real.log 2 / 2 * W0 * (2 * Real.pi * f0) / Real.sin (2 * Real.pi * f0)) = L at *
  obtain ⟨σ0, σ2, -, -, -, l0, l1, m1, m2, m3⟩ := CM
  obtain ⟨⟨p1, p2⟩, p3, p4⟩ := At.bandCo ha hAL hA hG hal.le LA
  have p5 := At.m2 ha hc hcabs
  obtain ⟨w0, w2, w1, w⟩ := band_num hG hal.le hcabs
  obtain ⟨t1, t2, t3, t4, t5, t6⟩ := band_tol hG.one hG.four
  have c2 : |-2 * Real.cos (2 * Real.pi * f0)| ≤ 2 := by rw [abs_mul]; norm_num; exact hcabs
  refine ⟨⟨_, _, _, _, _, _⟩, hG.one, hG.four, ?_, ?_, hset, fun b => ?_, σ0, σ2, m1, m2, m3, ?_, w⟩
  · simp only; linarith
  · simp only; linarith
  · obtain ⟨b', k', e1, e2, e3, e4⟩ := stored_gain ha b hG.one hG.four p1 p5 p2 p3 p5 p4 (ω := 1) (by linarith) t1 t2
      (by linarith) (abs_le.2 ⟨by linarith, by linarith⟩) w0 w1 w2 t3 t4 t5 t6
    refine ⟨b', k', ?_, e2, e3, e4⟩
    rw [← e1]
    have n := ha.not_nan _ hAL.1
    simp [RBJ.Design.setupN, RBJ.bandShelf, Exec.throwIf, n]
    rfl
  · simp only; linarith

end near
end Iir
