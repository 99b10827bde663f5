import Verif.Props.Identify

/-! # C68: Butterworth filters built from RBJ filters; C57 in the time domain

The designs of two independent parts of the library, compared sample for sample. -/

set_option linter.unusedSectionVars false

namespace Iir
open FArith XR Spec Exec

/-! ## Statements -/

/-- RBJ filters in series, each set up and reset: the samples `x` fed to the first come out of the last as `y`. -/
def Spec.RBJSeries : List (RBJ.Design XR) → (ℕ → ℝ) → (ℕ → ℝ) → Prop
  | [], x, y => x = y
  | d :: ds, x, z => ∃ y, RBJRuns d x y ∧ RBJSeries ds y z

/-- `q` of the `k`-th of the `m` sections of a Butterworth filter of order `2m`. -/
noncomputable def Spec.bwQ (m k : ℕ) : ℝ := 1 / (2 * Real.sin (Real.pi * (2 * k + 1) / (4 * m)))

/-! ## Tools -/

theorem known_series (l : List ((RBJ.Design XR) × (ℝ → ℂ))) (h : ∀ p ∈ l, Known (RBJRuns p.1) p.2) :
    Known (RBJSeries (l.map Prod.fst)) fun fr => (l.map fun p => p.2 fr).prod := by
  induction l with
  | nil => exact known_id
  | cons p l ih => exact (h p (by simp)).comp (ih fun q hq => h q (by simp [hq]))

theorem known_rbj_design {d : RBJ.Design ℝ} (hd : ValidRBJ d) {H : ℝ → ℂ}
    (h : ∀ b, HasPrototype d b → ∀ fr, 0 < fr → fr < 1 / 2 → SectionResponse b fr (H fr)) :
    Known (RBJRuns (finRBJ d)) H :=
  known_rbj (C42_stable d hd) fun f => by
    obtain ⟨f', e, hs, hp⟩ := C66_rbj d hd f
    exact ⟨f', e, hs, h _ hp⟩

variable {S : Type → Type} [StateType S XR] [DelayLine XR S] {T : Type} [Sample T XR] {n n' o : ℕ}
  {S' : Type → Type} [StateType S' XR] [DelayLine XR S'] {T' : Type} [Sample T' XR] {call call' : Call XR}

theorem known_design {d : Design XR} (h : Asks call n o d) (hv : Valid o d) {H : ℝ → ℂ}
    (hH : ∀ f : PoleFilter S XR, HasTransfer o d f → ∀ fr, 0 < fr → fr < 1 / 2 → Response f fr (H fr)) :
    Known (SetupRuns S T n call) H :=
  known_setup (h.pos.trans h.le) h.small (C29_stable h hv) ((C66_response h hv).mono hH)

/-- two poles of a Butterworth filter that are conjugates -/
theorem bwPole_pair {o k : ℕ} (hk : k < o) : bwPole o k * bwPole o (o - 1 - k) = 1 ∧
    bwPole o k + bwPole o (o - 1 - k) = -(2 * Real.sin (Real.pi * (2 * k + 1) / (2 * o)) : ℝ) := by
  have ho : (o : ℂ) ≠ 0 := by exact_mod_cast (by omega : o ≠ 0)
  set φ : ℝ := Real.pi * (2 * k + 1) / (2 * o) with hφ
  have e1 : bwPole o k = Complex.I * Complex.exp (φ * Complex.I) := by
    have hE : Complex.I * Complex.exp (φ * Complex.I) =
        Complex.exp (Real.pi / 2 * Complex.I) * Complex.exp (φ * Complex.I) := by rw [Complex.exp_pi_div_two_mul_I]
    rw [bwPole, hE, ← Complex.exp_add, hφ]
    congr 1; push_cast; field_simp; ring
  have e2 : bwPole o (o - 1 - k) = -(Complex.I * Complex.exp (-(φ * Complex.I))) := by
    have hc : ((o - 1 - k : ℕ) : ℂ) = o - 1 - k := by
      rw [Nat.cast_sub (by omega), Nat.cast_sub (by omega), Nat.cast_one]
    have hE : -(Complex.I * Complex.exp (-(φ * Complex.I))) = Complex.exp (Real.pi * Complex.I) *
        (Complex.exp (Real.pi / 2 * Complex.I) * Complex.exp (-(φ * Complex.I))) := by
      rw [Complex.exp_pi_div_two_mul_I, Complex.exp_pi_mul_I]; ring
    rw [bwPole, hc, hE, ← Complex.exp_add, ← Complex.exp_add, hφ]
    congr 1; push_cast; field_simp; ring
  have e3 : Complex.exp (φ * Complex.I) * Complex.exp (-(φ * Complex.I)) = 1 := by
    rw [← Complex.exp_add, add_neg_cancel, Complex.exp_zero]
  constructor
  · rw [e1, e2]
    linear_combination (-(Complex.I) ^ 2) * e3 - Complex.I_sq
  · rw [e1, e2, ← neg_mul (φ : ℂ), ← Complex.ofReal_neg, Complex.exp_mul_I, Complex.exp_mul_I, Complex.ofReal_neg,
      Complex.cos_neg, Complex.sin_neg]
    push_cast
    linear_combination (2 * Complex.sin φ) * Complex.I_sq

theorem prod_pairs {M : Type} [CommMonoid M] (m : ℕ) (g : ℕ → M) :
    ∏ k ∈ Finset.range (2 * m), g k = ∏ k ∈ Finset.range m, g k * g (2 * m - 1 - k) := by
  rw [two_mul, Finset.prod_range_add, Finset.prod_mul_distrib]
  congr 1
  rw [← Finset.prod_range_reflect]
  refine Finset.prod_congr rfl fun k hk => congrArg g ?_
  have := Finset.mem_range.1 hk
  omega

theorem prod_list_range {M : Type} [CommMonoid M] (m : ℕ) (g : ℕ → M) :
    ((List.range m).map g).prod = ∏ k ∈ Finset.range m, g k := by
  induction m with
  | zero => simp
  | succ m ih => rw [List.range_succ, List.map_append, List.prod_append, ih, Finset.prod_range_succ]; simp

theorem bwLow_even (m : ℕ) (s : ℂ) : bwLow (2 * m) s =
    ((List.range m).map fun k => 1 / (s ^ 2 + (1 / bwQ m k : ℝ) * s + 1)).prod := by
  rw [bwLow, prod_pairs, prod_list_range]
  refine Finset.prod_congr rfl fun k hk => ?_
  obtain ⟨e1, e2⟩ := bwPole_pair (o := 2 * m) (k := k) (by have := Finset.mem_range.1 hk; omega)
  rw [div_mul_div_comm, neg_mul_neg, e1]
  congr 1
  have e3 : (1 / bwQ m k : ℝ) = 2 * Real.sin (Real.pi * (2 * k + 1) / (2 * (2 * m : ℕ))) := by
    rw [bwQ, one_div_one_div]; push_cast; ring_nf
  rw [e3]
  linear_combination e1 - s * e2

theorem bwQ_pos {m k : ℕ} (hk : k < m) : 0 < bwQ m k := by
  have hm : (0 : ℝ) < m := by exact_mod_cast (by omega : 0 < m)
  have hk' : (k : ℝ) + 1 ≤ m := by exact_mod_cast hk
  have hpi := Real.pi_pos
  refine one_div_pos.2 (mul_pos two_pos (Real.sin_pos_of_pos_of_lt_pi (by positivity) ?_))
  rw [div_lt_iff₀ (by positivity)]
  nlinarith

/-! ## C68 -/

section cut
variable {fc : ℝ} {m : ℕ}

/-- **C68**: a Butterworth low pass of order `2m` returns, sample for sample, what `m` RBJ low passes in series
return, all with its cutoff frequency and the `k`-th with `q = 1 / (2 sin (π(2k+1)/4m))`. -/
theorem C68_lowPass (h : Asks call n (2 * m) (.bwLowPass (fin fc))) (h0 : 0 < fc) (h1 : fc < 1 / 2) (x y : ℕ → ℝ) :
    SetupRuns S T n call x y ↔
      RBJSeries ((List.range m).map fun k => .lowPass (fin fc) (fin (bwQ m k))) x y := by
  have k1 : Known (SetupRuns S T n call) fun fr => bwLow (2 * m) (Complex.I * lowRatio fc fr) :=
    known_design h ⟨h0, h1⟩ fun f hf fr a b => hf.value fr a.le b
  have k2 := known_series ((List.range m).map fun k => (RBJ.Design.lowPass (fin fc) (fin (bwQ m k)),
      fun fr => 1 / ((Complex.I * lowRatio fc fr) ^ 2 + (1 / bwQ m k : ℝ) * (Complex.I * lowRatio fc fr) + 1)))
    fun p hp => by
      obtain ⟨k, hk, rfl⟩ := List.mem_map.1 hp
      refine known_rbj_design (d := .lowPass fc (bwQ m k)) ⟨h0, h1, bwQ_pos (List.mem_range.1 hk)⟩
        fun b hb fr a c => ?_
      have := hb.1 fr a.le c
      simpa using this
  rw [List.map_map] at k2
  refine k1.same k2 (fun fr a b => ?_) x y
  rw [bwLow_even, List.map_map]; rfl

/-- **C68** for high passes. -/
theorem C68_highPass (h : Asks call n (2 * m) (.bwHighPass (fin fc))) (h0 : 0 < fc) (h1 : fc < 1 / 2) (x y : ℕ → ℝ) :
    SetupRuns S T n call x y ↔
      RBJSeries ((List.range m).map fun k => .highPass (fin fc) (fin (bwQ m k))) x y := by
  have k1 : Known (SetupRuns S T n call) fun fr => bwLow (2 * m) (1 / (Complex.I * lowRatio fc fr)) :=
    known_design h ⟨h0, h1⟩ fun f hf fr a b => hf.value fr a b
  have k2 := known_series ((List.range m).map fun k => (RBJ.Design.highPass (fin fc) (fin (bwQ m k)),
      fun fr => (Complex.I * lowRatio fc fr) ^ 2 /
        ((Complex.I * lowRatio fc fr) ^ 2 + (1 / bwQ m k : ℝ) * (Complex.I * lowRatio fc fr) + 1)))
    fun p hp => by
      obtain ⟨k, hk, rfl⟩ := List.mem_map.1 hp
      refine known_rbj_design (d := .highPass fc (bwQ m k)) ⟨h0, h1, bwQ_pos (List.mem_range.1 hk)⟩
        fun b hb fr a c => ?_
      have := hb.1 fr a.le c
      simpa using this
  rw [List.map_map] at k2
  refine k1.same k2 (fun fr a b => ?_) x y
  rw [bwLow_even, List.map_map]
  congr 1
  refine List.map_congr_left fun k hk => ?_
  have hw : Complex.I * (lowRatio fc fr : ℂ) ≠ 0 :=
    mul_ne_zero Complex.I_ne_zero (by exact_mod_cast (lowRatio_pos h0 h1 a b).ne')
  show _ = (Complex.I * (lowRatio fc fr : ℂ)) ^ 2 / ((Complex.I * lowRatio fc fr) ^ 2 +
    (1 / bwQ m k : ℝ) * (Complex.I * lowRatio fc fr) + 1)
  generalize Complex.I * (lowRatio fc fr : ℂ) = w at hw
  generalize ((1 / bwQ m k : ℝ) : ℂ) = q
  rw [← mul_div_mul_left _ _ (pow_ne_zero 2 hw)]
  congr 1
  · rw [mul_one]
  · field_simp; ring

/-- `q` of the only section of order 2 -/
theorem bwQ_one : bwQ 1 0 = 1 / √2 := by
  rw [bwQ]
  have : Real.pi * (2 * (0 : ℕ) + 1) / (4 * (1 : ℕ)) = Real.pi / 4 := by push_cast; ring
  rw [this, Real.sin_pi_div_four, mul_div_cancel₀ _ (by norm_num : (2 : ℝ) ≠ 0)]

/-- **C68**, order 2: `RBJ::LowPass` with `q = 1/√2` and `Butterworth::LowPass<2>` are the same filter. -/
theorem C68_order_two (h : Asks call n 2 (.bwLowPass (fin fc))) (h0 : 0 < fc) (h1 : fc < 1 / 2) (x y : ℕ → ℝ) :
    SetupRuns S T n call x y ↔ RBJRuns (.lowPass (fin fc) (fin (1 / √2))) x y := by
  rw [C68_lowPass (m := 1) h h0 h1, ← bwQ_one]
  exact ⟨fun ⟨_, h, e⟩ => e ▸ h, fun h => ⟨_, h, rfl⟩⟩

/-- **C68**, order 2, high pass. -/
theorem C68_order_two_high (h : Asks call n 2 (.bwHighPass (fin fc))) (h0 : 0 < fc) (h1 : fc < 1 / 2) (x y : ℕ → ℝ) :
    SetupRuns S T n call x y ↔ RBJRuns (.highPass (fin fc) (fin (1 / √2))) x y := by
  rw [C68_highPass (m := 1) h h0 h1, ← bwQ_one]
  exact ⟨fun ⟨_, h, e⟩ => e ▸ h, fun h => ⟨_, h, rfl⟩⟩

/-- a case: order 4 at 1 kHz and 48 kHz is two RBJ filters -/
example (x y : ℕ → ℝ) : SetupRuns S T 4 (.setup (fin 48000) (.bwLowPass (fin 1000))) x y ↔
    ∃ u, RBJRuns (.lowPass (fin (1000 / 48000)) (fin (bwQ 2 0))) x u ∧
      RBJRuns (.lowPass (fin (1000 / 48000)) (fin (bwQ 2 1))) u y := by
  rw [C68_lowPass (m := 2) (fc := 1000 / 48000) ⟨rfl, congrArg _ (fin_div _ (by norm_num)), by norm_num,
    by norm_num, by norm_num⟩ (by norm_num) (by norm_num)]
  constructor
  · rintro ⟨u, h1, v, h2, rfl⟩
    exact ⟨u, h1, h2⟩
  · rintro ⟨u, h1, h2⟩
    exact ⟨u, h1, y, h2, rfl⟩

/-- the statements are about something: every input has an output -/
example (x : ℕ → ℝ) : ∃ y, SetupRuns S T 2 (.setupN (.bwHighPass (fin (1 / 4)))) x y := by
  have h : Asks (.setupN (.bwHighPass (fin (1 / 4)))) 2 2 (.bwHighPass (fin (1 / 4))) :=
    ⟨rfl, rfl, by norm_num, le_rfl, by norm_num⟩
  exact (known_design (H := fun fr => bwLow 2 (1 / (Complex.I * lowRatio (1 / 4) fr))) h ⟨by norm_num, by norm_num⟩
    fun f hf fr a b => hf.value fr a b).total x

end cut

/-! ### Shelves of order 2 -/

theorem sq_ofDb4 (g : ℝ) : ofDb (g / (2 * (2 : ℕ))) ^ 2 = ofDb (g / 2) := by
  rw [ofDb, ofDb, ← Real.rpow_natCast, ← Real.rpow_mul (by norm_num)]
  congr 1; push_cast; ring

theorem two_sin : 2 * Real.sin (Real.pi * (2 * (0 : ℕ) + 1) / (2 * (2 : ℕ))) = √2 := by
  have : Real.pi * (2 * (0 : ℕ) + 1) / (2 * (2 : ℕ)) = Real.pi / 4 := by push_cast; ring
  rw [this, Real.sin_pi_div_four, mul_div_cancel₀ _ (by norm_num : (2 : ℝ) ≠ 0)]

theorem bwLowShelf_two (g : ℝ) (s : ℂ) :
    let A := ofDb (g / 2)
    let c := √A * √((A + 1 / A) * (1 / 1 - 1) + 2)
    bwLowShelf 2 g s = (A * s ^ 2 + (A * c : ℝ) * s + (A * A : ℝ)) / (A * s ^ 2 + c * s + 1) := by
  intro A c
  have hG := ofDb_pos (g / (2 * (2 : ℕ)))
  have hA : A = ofDb (g / (2 * (2 : ℕ))) ^ 2 := (sq_ofDb4 g).symm
  have hc : c = ofDb (g / (2 * (2 : ℕ))) * √2 := by
    have : √A = ofDb (g / (2 * (2 : ℕ))) := by rw [hA, Real.sqrt_sq hG.le]
    show √A * √((A + 1 / A) * (1 / 1 - 1) + 2) = _
    rw [this, show (A + 1 / A) * (1 / 1 - 1) + 2 = 2 by ring]
  obtain ⟨e1, e2⟩ := bwPole_pair (o := 2) (k := 0) (by norm_num)
  rw [two_sin] at e2
  rw [bwLowShelf, show (2 : ℕ) = 2 * 1 from rfl, prod_pairs, Finset.prod_range_one]
  show (s - (ofDb (g / (2 * (2 : ℕ))) : ℂ) * bwPole 2 0) / (s - bwPole 2 0 / (ofDb (g / (2 * (2 : ℕ))) : ℂ)) *
    ((s - (ofDb (g / (2 * (2 : ℕ))) : ℂ) * bwPole 2 (2 - 1 - 0)) /
      (s - bwPole 2 (2 - 1 - 0) / (ofDb (g / (2 * (2 : ℕ))) : ℂ))) = _
  rw [hc, hA]
  have hG' : (ofDb (g / (2 * (2 : ℕ))) : ℂ) ≠ 0 := by exact_mod_cast hG.ne'
  push_cast at e2 hG' ⊢
  generalize (ofDb (g / (2 * 2)) : ℂ) = G at *
  generalize ((√2 : ℝ) : ℂ) = r at *
  rw [div_mul_div_comm, ← mul_div_mul_left _ _ (pow_ne_zero 2 hG')]
  congr 1
  · linear_combination G ^ 4 * e1 - G ^ 3 * s * e2
  · field_simp
    linear_combination e1 - G * s * e2

section shelf
variable {fc g : ℝ}

/-- **C68**: `Butterworth::LowShelf<2>` and `RBJ::LowShelf` with slope 1 (its default) are the same filter. -/
theorem C68_lowShelf (h : Asks call n 2 (.bwLowShelf (fin fc) (fin g))) (h0 : 0 < fc) (h1 : fc < 1 / 2) (x y : ℕ → ℝ) :
    SetupRuns S T n call x y ↔ RBJRuns (.lowShelf (fin fc) (fin g) (fin 1)) x y := by
  refine (known_design (H := fun fr => bwLowShelf 2 g (Complex.I * lowRatio fc fr)) h ⟨h0, h1⟩
    fun f hf fr a b => hf.value fr a.le b).same
    (known_rbj_design (d := .lowShelf fc g 1) ⟨h0, h1, one_pos, le_rfl⟩ fun b hb fr a c => hb.1 fr a.le c)
    (fun fr a b => ?_) x y
  rw [bwLowShelf_two]; simp only [Complex.ofReal_one]

/-- **C68**: `Butterworth::HighShelf<2>` and `RBJ::HighShelf` with slope 1 are the same filter. -/
theorem C68_highShelf (h : Asks call n 2 (.bwHighShelf (fin fc) (fin g))) (h0 : 0 < fc) (h1 : fc < 1 / 2)
    (x y : ℕ → ℝ) : SetupRuns S T n call x y ↔ RBJRuns (.highShelf (fin fc) (fin g) (fin 1)) x y := by
  refine (known_design (H := fun fr => bwLowShelf 2 g (1 / (Complex.I * lowRatio fc fr))) h ⟨h0, h1⟩
    fun f hf fr a b => hf.value fr a b).same
    (known_rbj_design (d := .highShelf fc g 1) ⟨h0, h1, one_pos, le_rfl⟩ fun b hb fr a c => hb.1 fr a.le c)
    (fun fr a b => ?_) x y
  have hw : Complex.I * (lowRatio fc fr : ℂ) ≠ 0 :=
    mul_ne_zero Complex.I_ne_zero (by exact_mod_cast (lowRatio_pos h0 h1 a b).ne')
  rw [bwLowShelf_two, ← mul_div_mul_left _ _ (pow_ne_zero 2 hw)]
  simp only [Complex.ofReal_one]
  generalize Complex.I * (lowRatio fc fr : ℂ) = w at hw
  congr 1 <;> field_simp <;> ring

/-- a case: 6 dB -/
example (x y : ℕ → ℝ) : SetupRuns S T 2 (.setupN (.bwLowShelf (fin (1 / 8)) (fin 6))) x y ↔
    RBJRuns (.lowShelf (fin (1 / 8)) (fin 6) (fin 1)) x y :=
  C68_lowShelf ⟨rfl, rfl, by norm_num, le_rfl, by norm_num⟩ (by norm_num) (by norm_num) x y

end shelf

/-! ### Bands of order 1 -/

theorem bwPole_one : bwPole 1 0 = -1 := by
  rw [bwPole, ← Complex.exp_pi_mul_I]; congr 1; push_cast; ring

theorem bwLow_one (s : ℂ) : bwLow 1 s = 1 / (s + 1) := by
  rw [bwLow, Finset.prod_range_one, bwPole_one, neg_neg, sub_neg_eq_add]

theorem bwLowShelf_one (g : ℝ) (s : ℂ) : bwLowShelf 1 g s = (s + ofDb (g / 2)) / (s + 1 / ofDb (g / 2)) := by
  rw [bwLowShelf, Finset.prod_range_one, bwPole_one, Nat.cast_one, mul_one]
  congr 1 <;> ring

section band
variable {fc fw f0 q g : ℝ}

/-- prewarped frequency of a band and of its centre -/
theorem bandRatio_rbj {f1 f2 fr : ℝ} (h0 : 0 < f0) (h1 : f0 < 1 / 2) (hb : 0 < Real.tan (Real.pi * (f2 - f1)))
    (hcos : 0 < Real.cos (Real.pi * (f2 - f1)))
    (hc : Real.cos (2 * Real.pi * f0) * Real.cos (Real.pi * (f2 - f1)) = Real.cos (Real.pi * (f1 + f2)))
    (hq : 2 * q * Real.tan (Real.pi * (f2 - f1)) = Real.sin (2 * Real.pi * f0)) (a : 0 < fr) (b : fr < 1 / 2) :
    bandRatio f1 f2 fr * lowRatio f0 fr = q * (lowRatio f0 fr ^ 2 - 1) := by
  have hC := cos_pi_pos h0.le h1
  have hc' := cos_pi_pos a.le b
  have hS : 0 < Real.sin (Real.pi * f0) := by
    have := tan_pi_pos h0 h1
    rw [Real.tan_eq_sin_div_cos] at this
    exact (div_pos_iff_of_pos_right hC).1 this
  have hs : 0 < Real.sin (Real.pi * fr) := by
    have := tan_pi_pos a b
    rw [Real.tan_eq_sin_div_cos] at this
    exact (div_pos_iff_of_pos_right hc').1 this
  rw [bandRatio, lowRatio, ← hc, Real.tan_eq_sin_div_cos (Real.pi * fr), Real.tan_eq_sin_div_cos (Real.pi * f0),
    sin_dbl, cos_dbl f0, cos_dbl fr]
  have hq' : q = Real.sin (Real.pi * f0) * Real.cos (Real.pi * f0) * Real.cos (Real.pi * (f2 - f1)) /
      Real.sin (Real.pi * (f2 - f1)) := by
    rw [sin_dbl, Real.tan_eq_sin_div_cos] at hq
    rw [Real.tan_eq_sin_div_cos] at hb
    have := (div_pos_iff_of_pos_right hcos).1 hb
    field_simp at hq ⊢
    linarith
  have hsd : 0 < Real.sin (Real.pi * (f2 - f1)) := by
    rw [Real.tan_eq_sin_div_cos] at hb
    exact (div_pos_iff_of_pos_right hcos).1 hb
  rw [hq']
  have x1 := Real.sin_sq_add_cos_sq (Real.pi * fr)
  have x2 := Real.sin_sq_add_cos_sq (Real.pi * f0)
  generalize Real.sin (Real.pi * fr) = s at *
  generalize Real.cos (Real.pi * fr) = c at *
  generalize Real.sin (Real.pi * f0) = s0 at *
  generalize Real.cos (Real.pi * f0) = c0 at *
  generalize Real.cos (Real.pi * (f2 - f1)) = C at *
  generalize Real.sin (Real.pi * (f2 - f1)) = D at *
  field_simp
  have e : c0 ^ 2 - s0 ^ 2 - (c ^ 2 - s ^ 2) = 2 * (s ^ 2 * c0 ^ 2 - s0 ^ 2 * c ^ 2) := by
    rw [show s ^ 2 = 1 - c ^ 2 by linarith, show s0 ^ 2 = 1 - c0 ^ 2 by linarith]; ring
  linear_combination e

/-- An RBJ filter with centre `f0` and quality `q` has the band of a Butterworth filter of order 1 with centre `fc` and
width `fw`. -/
structure Spec.SameBand (fc fw f0 q : ℝ) : Prop where
  pos : 0 < f0
  lt : f0 < 1 / 2
  centre : Real.cos (2 * Real.pi * f0) * Real.cos (Real.pi * (bandHi fc fw - bandLo fc fw)) =
    Real.cos (Real.pi * (bandLo fc fw + bandHi fc fw))
  width : 2 * q * Real.tan (Real.pi * (bandHi fc fw - bandLo fc fw)) = Real.sin (2 * Real.pi * f0)

theorem cos_band_pos (he : bandLo fc fw < bandHi fc fw) : 0 < Real.cos (Real.pi * (bandHi fc fw - bandLo fc fw)) := by
  have hpi := Real.pi_pos
  have h1 : 0 < bandLo fc fw := lt_of_lt_of_le (by positivity) (le_max_right _ _)
  have h2 : bandHi fc fw < 1 / 2 := (min_le_right _ _).trans_lt (sub_lt_self _ (by positivity))
  exact cos_pi_pos (by linarith) (by linarith)

theorem Spec.SameBand.q_pos (hb : SameBand fc fw f0 q) (he : bandLo fc fw < bandHi fc fw) : 0 < q := by
  have h1 := tan_band_pos he
  have h2 := (trig_facts hb.pos hb.lt).1
  rw [← hb.width] at h2
  by_contra h
  nlinarith

theorem Spec.SameBand.ratio (hb : SameBand fc fw f0 q) (he : bandLo fc fw < bandHi fc fw) {fr : ℝ} (a : 0 < fr)
    (b : fr < 1 / 2) : ((bandRatio (bandLo fc fw) (bandHi fc fw) fr : ℝ) : ℂ) * lowRatio f0 fr =
      q * ((lowRatio f0 fr : ℂ) ^ 2 - 1) := by
  have := bandRatio_rbj hb.pos hb.lt (tan_band_pos he) (cos_band_pos he) hb.centre hb.width a b
  exact_mod_cast this

/-- denominators -/
theorem band_den {B L Q : ℝ} (hL : 0 < L) (hQ : 0 < Q) :
    Complex.I * (B : ℂ) + Q ≠ 0 ∧ Complex.I * (L : ℂ) ≠ 0 := by
  refine ⟨fun h => ?_, mul_ne_zero Complex.I_ne_zero (by exact_mod_cast hL.ne')⟩
  have := congrArg Complex.re h
  simp at this
  exact hQ.ne' this

/-- **C68**: `Butterworth::BandPass<1>` and `RBJ::BandPass2` of the same band are the same filter. -/
theorem C68_bandPass (h : Asks call n 1 (.bwBandPass (fin fc) (fin fw))) (hv : ValidBand 1 fc fw [1])
    (hb : SameBand fc fw f0 q) (x y : ℕ → ℝ) :
    SetupRuns S T n call x y ↔ RBJRuns (.bandPass2 (fin f0) (fin q)) x y := by
  have he := hv.2.2.1
  have hq := hb.q_pos he
  refine (known_design (H := fun fr => bwLow 1 (Complex.I * bandRatio (bandLo fc fw) (bandHi fc fw) fr)) h hv
    fun f hf fr a b => hf.value fr a b).same
    (known_rbj_design (d := .bandPass2 f0 q) ⟨hb.pos, hb.lt, hq⟩ fun b hb fr a c => hb.1 fr a.le c)
    (fun fr a b => ?_) x y
  have hr := hb.ratio he a b
  have hL := lowRatio_pos hb.pos hb.lt a b
  obtain ⟨d1, d2⟩ := band_den (B := bandRatio (bandLo fc fw) (bandHi fc fw) fr) hL one_pos
  have hq' : (q : ℂ) ≠ 0 := by exact_mod_cast hq.ne'
  rw [bwLow_one]
  generalize (bandRatio (bandLo fc fw) (bandHi fc fw) fr : ℂ) = B at *
  generalize (lowRatio f0 fr : ℂ) = L at *
  push_cast at d1 ⊢
  have e : (q : ℂ) * ((Complex.I * L) ^ 2 + 1 / q * (Complex.I * L) + 1) = Complex.I * L * (Complex.I * B + 1) := by
    field_simp
    linear_combination (q * L ^ 2 - B * L) * Complex.I_sq + hr
  have e' : (q : ℂ) * (0 * (Complex.I * L) ^ 2 + 1 / q * (Complex.I * L) + 0) = Complex.I * L * 1 := by
    field_simp; ring
  simp only [one_mul]
  rw [← mul_div_mul_left _ ((Complex.I * L) ^ 2 + 1 / (q : ℂ) * (Complex.I * L) + 1) hq', e, e',
    mul_div_mul_left _ _ d2]

/-- **C68**: `Butterworth::BandStop<1>` and `RBJ::BandStop` of the same band are the same filter. -/
theorem C68_bandStop (h : Asks call n 1 (.bwBandStop (fin fc) (fin fw))) (hv : ValidBand 1 fc fw [1])
    (hb : SameBand fc fw f0 q) (x y : ℕ → ℝ) :
    SetupRuns S T n call x y ↔ RBJRuns (.bandStop (fin f0) (fin q)) x y := by
  have he := hv.2.2.1
  have hq := hb.q_pos he
  refine (known_design (H := fun fr => if bandRatio (bandLo fc fw) (bandHi fc fw) fr = 0 then 0 else
      bwLow 1 (1 / (Complex.I * bandRatio (bandLo fc fw) (bandHi fc fw) fr))) h hv
    fun f hf fr a b => ?_).same
    (known_rbj_design (d := .bandStop f0 q) ⟨hb.pos, hb.lt, hq⟩ fun b hb fr a c => hb.1 fr a.le c)
    (fun fr a b => ?_) x y
  · split
    · next h0 => exact hf.centre fr a b h0
    · next h0 => exact hf.value fr a b h0
  have hr := hb.ratio he a b
  have hL := lowRatio_pos hb.pos hb.lt a b
  obtain ⟨d1, d2⟩ := band_den (B := bandRatio (bandLo fc fw) (bandHi fc fw) fr) hL one_pos
  have hq' : (q : ℂ) ≠ 0 := by exact_mod_cast hq.ne'
  have e0 : (if bandRatio (bandLo fc fw) (bandHi fc fw) fr = 0 then 0 else
      bwLow 1 (1 / (Complex.I * bandRatio (bandLo fc fw) (bandHi fc fw) fr))) =
      Complex.I * (bandRatio (bandLo fc fw) (bandHi fc fw) fr : ℂ) /
        (Complex.I * (bandRatio (bandLo fc fw) (bandHi fc fw) fr : ℂ) + 1) := by
    split
    · next h0 => rw [h0]; simp
    · next h0 =>
      have hB : Complex.I * (bandRatio (bandLo fc fw) (bandHi fc fw) fr : ℂ) ≠ 0 :=
        mul_ne_zero Complex.I_ne_zero (by exact_mod_cast h0)
      rw [bwLow_one]
      generalize Complex.I * (bandRatio (bandLo fc fw) (bandHi fc fw) fr : ℂ) = B at *
      rw [← mul_div_mul_left _ _ hB, mul_one]
      congr 1
      field_simp; ring
  rw [e0]
  generalize (bandRatio (bandLo fc fw) (bandHi fc fw) fr : ℂ) = B at *
  generalize (lowRatio f0 fr : ℂ) = L at *
  push_cast at d1 ⊢
  have e : (q : ℂ) * ((Complex.I * L) ^ 2 + 1 / q * (Complex.I * L) + 1) = Complex.I * L * (Complex.I * B + 1) := by
    field_simp
    linear_combination (q * L ^ 2 - B * L) * Complex.I_sq + hr
  have e' : (q : ℂ) * ((Complex.I * L) ^ 2 + 0 * (Complex.I * L) + 1) = Complex.I * L * (Complex.I * B) := by
    linear_combination (q * L ^ 2 - B * L) * Complex.I_sq + hr
  simp only [one_mul]
  rw [← mul_div_mul_left _ ((Complex.I * L) ^ 2 + 1 / (q : ℂ) * (Complex.I * L) + 1) hq', e, e',
    mul_div_mul_left _ _ d2]

/-- **C68**: `Butterworth::BandShelf<1>` and `RBJ::BandShelf` of the same band are the same filter. -/
theorem C68_bandShelf {w : ℝ} (h : Asks call n 1 (.bwBandShelf (fin fc) (fin fw) (fin g)))
    (hv : Valid 1 (.bwBandShelf (fin fc) (fin fw) (fin g))) (hw : 0 < w)
    (hb : SameBand fc fw f0 (1 / invQ f0 w)) (x y : ℕ → ℝ) :
    SetupRuns S T n call x y ↔ RBJRuns (.bandShelf (fin f0) (fin g) (fin w)) x y := by
  have he := hv.2.2.1
  have hq := hb.q_pos he
  refine (known_design (H := fun fr => bwLowShelf 1 g (Complex.I * bandRatio (bandLo fc fw) (bandHi fc fw) fr)) h hv
    fun f hf fr a b => hf.value fr a b).same
    (known_rbj_design (d := .bandShelf f0 g w) ⟨hb.pos, hb.lt, hw⟩ fun b hb fr a c => hb.1 fr a.le c)
    (fun fr a b => ?_) x y
  have hr := hb.ratio he a b
  have hL := lowRatio_pos hb.pos hb.lt a b
  have hA := ofDb_pos (g / 2)
  obtain ⟨d1, d2⟩ := band_den (B := bandRatio (bandLo fc fw) (bandHi fc fw) fr) hL (one_div_pos.2 hA)
  have hq' : ((1 / invQ f0 w : ℝ) : ℂ) ≠ 0 := by exact_mod_cast hq.ne'
  have hA' : (ofDb (g / 2) : ℂ) ≠ 0 := by exact_mod_cast hA.ne'
  rw [bwLowShelf_one]
  have hi : invQ f0 w = 1 / (1 / invQ f0 w) := by rw [one_div_one_div]
  rw [hi]
  generalize 1 / invQ f0 w = q at *
  generalize (bandRatio (bandLo fc fw) (bandHi fc fw) fr : ℂ) = B at *
  generalize (lowRatio f0 fr : ℂ) = L at *
  generalize ofDb (g / 2) = A at *
  push_cast at d1 ⊢
  have e : (q : ℂ) * ((Complex.I * L) ^ 2 + 1 / q / A * (Complex.I * L) + 1) =
      Complex.I * L * (Complex.I * B + 1 / A) := by
    field_simp
    linear_combination (q * A * L ^ 2 - A * B * L) * Complex.I_sq + A * hr
  have e' : (q : ℂ) * ((Complex.I * L) ^ 2 + A * (1 / q) * (Complex.I * L) + 1) =
      Complex.I * L * (Complex.I * B + A) := by
    field_simp
    linear_combination (q * L ^ 2 - B * L) * Complex.I_sq + hr
  simp only [one_mul]
  rw [← mul_div_mul_left _ ((Complex.I * L) ^ 2 + 1 / (q : ℂ) / A * (Complex.I * L) + 1) hq', e, e',
    mul_div_mul_left _ _ d2]

theorem quarter_band : SameBand (1 / 4) (1 / 8) (1 / 4) (1 / (2 * Real.tan (Real.pi * (1 / 8)))) ∧
    ValidBand 1 (1 / 4) (1 / 8) [1] := by
  have hc : Real.cos (Real.pi * (1 / 2)) = 0 := by rw [mul_one_div, Real.cos_pi_div_two]
  have ht : 0 < Real.tan (Real.pi * (1 / 8)) := tan_pi_pos (by norm_num) (by norm_num)
  refine ⟨⟨by norm_num, by norm_num, ?_, ?_⟩, by norm_num, by norm_num, by rw [band_ex.1, band_ex.2]; norm_num,
    fun _ => ?_⟩
  · rw [band_ex.1, band_ex.2, show 2 * Real.pi * (1 / 4) = Real.pi * (1 / 2) by ring, hc,
      show Real.pi * (3 / 16 + 5 / 16 : ℝ) = Real.pi * (1 / 2) by ring, hc, MulZeroClass.zero_mul]
  · rw [band_ex.1, band_ex.2, show (5 / 16 - 3 / 16 : ℝ) = 1 / 8 by norm_num,
      show 2 * Real.pi * (1 / 4) = Real.pi / 2 by ring, Real.sin_pi_div_two]
    generalize Real.tan (Real.pi * (1 / 8)) = t at ht ⊢
    field_simp
  · rw [band_ex.1, band_ex.2, show (5 / 16 - 3 / 16 : ℝ) = 1 / 8 by norm_num, List.mem_singleton]
    intro h
    have h1 : Real.tan (Real.pi * (1 / 8)) < Real.tan (Real.pi * (1 / 4)) :=
      tanpi_lt (by norm_num) (by norm_num) (by norm_num)
    rw [h, mul_one_div, Real.tan_pi_div_four] at h1
    exact lt_irrefl _ h1

/-- a case: a band of an eighth of the sampling rate around a quarter of it -/
example (x y : ℕ → ℝ) : SetupRuns S T 1 (.setupN (.bwBandPass (fin (1 / 4)) (fin (1 / 8)))) x y ↔
    RBJRuns (.bandPass2 (fin (1 / 4)) (fin (1 / (2 * Real.tan (Real.pi * (1 / 8)))))) x y :=
  C68_bandPass ⟨rfl, rfl, le_rfl, le_rfl, by norm_num⟩ quarter_band.2 quarter_band.1 x y

end band

/-! ### Crossovers -/

section crossover
variable {fc : ℝ} {call1 call2 call1' call2' : Call XR} {n1 n2 n1' n2' : ℕ}

/-- **C69**: the low passes and the high passes of a Butterworth crossover of order 1 add up to the input, sample for
sample. -/
theorem C69_first_order (h : Asks call n 1 (.bwLowPass (fin fc))) (h' : Asks call' n' 1 (.bwHighPass (fin fc)))
    (h0 : 0 < fc) (h1 : fc < 1 / 2) {x y y' : ℕ → ℝ} (hy : SetupRuns S T n call x y)
    (hy' : SetupRuns S' T' n' call' x y') (k : ℕ) : y k + y' k = x k := by
  have e := (known_design (H := fun fr => bwLow 1 (Complex.I * lowRatio fc fr)) h ⟨h0, h1⟩
    fun f hf fr a b => hf.value fr a.le b).parallel
    (known_design (H := fun fr => bwLow 1 (1 / (Complex.I * lowRatio fc fr))) h' ⟨h0, h1⟩
    fun f hf fr a b => hf.value fr a b) known_id (c := 1) (c' := 1) (fun fr a b => ?_) hy hy'
  · have := congrFun e k
    simp only [one_mul] at this
    exact this.symm
  obtain ⟨d1, d2⟩ := band_den (B := lowRatio fc fr) (lowRatio_pos h0 h1 a b) one_pos
  rw [bwLow_one, bwLow_one]
  push_cast at d1 ⊢
  generalize Complex.I * (lowRatio fc fr : ℂ) = w at *
  have d3 : 1 / w + 1 ≠ 0 := by
    intro h
    rw [div_add_one d2, div_eq_zero_iff] at h
    exact h.elim (fun h => d1 (by rw [add_comm]; exact h)) d2
  have d4 : 1 + w ≠ 0 := by rw [add_comm]; exact d1
  field_simp
  ring

/-- **C69**, Linkwitz–Riley crossover of order 4: two Butterworth low passes of order 2 in series and two high passes
in series, all with the same cutoff frequency; the two outputs add up to what the RBJ all-pass with `q = 1/√2` makes of
the input. -/
theorem C69_linkwitz_riley (h1 : Asks call1 n1 2 (.bwLowPass (fin fc))) (h2 : Asks call2 n2 2 (.bwLowPass (fin fc)))
    (h1' : Asks call1' n1' 2 (.bwHighPass (fin fc))) (h2' : Asks call2' n2' 2 (.bwHighPass (fin fc)))
    (f0 : 0 < fc) (f1 : fc < 1 / 2) {x u y u' y' : ℕ → ℝ} (hu : SetupRuns S T n1 call1 x u)
    (hy : SetupRuns S T n2 call2 u y) (hu' : SetupRuns S' T' n1' call1' x u') (hy' : SetupRuns S' T' n2' call2' u' y') :
    RBJRuns (.allPass (fin fc) (fin (1 / √2))) x fun k => y k + y' k := by
  have lo : ∀ {n call} (h : Asks call n 2 (.bwLowPass (fin fc))),
      Known (SetupRuns S T n call) fun fr => bwLow 2 (Complex.I * lowRatio fc fr) := fun h =>
    known_design h ⟨f0, f1⟩ fun f hf fr a b => hf.value fr a.le b
  have hi : ∀ {n call} (h : Asks call n 2 (.bwHighPass (fin fc))),
      Known (SetupRuns S' T' n call) fun fr => bwLow 2 (1 / (Complex.I * lowRatio fc fr)) := fun h =>
    known_design h ⟨f0, f1⟩ fun f hf fr a b => hf.value fr a b
  have e := ((lo h1).comp (lo h2)).parallel ((hi h1').comp (hi h2'))
    (known_rbj_design (d := .allPass fc (1 / √2)) ⟨f0, f1, by positivity⟩ fun b hb fr a c => hb.1 fr a.le c)
    (c := 1) (c' := 1) (fun fr a b => ?_) ⟨u, hu, hy⟩ ⟨u', hu', hy'⟩
  · simp only [one_mul] at e
    exact e
  have hL := lowRatio_pos f0 f1 a b
  have hw : Complex.I * (lowRatio fc fr : ℂ) ≠ 0 :=
    mul_ne_zero Complex.I_ne_zero (by exact_mod_cast hL.ne')
  have bw : ∀ s : ℂ, bwLow 2 s = 1 / (s ^ 2 + (√2 : ℝ) * s + 1) := by
    intro s
    rw [show (2 : ℕ) = 2 * 1 from rfl, bwLow_even, List.range_one, List.map_singleton, List.prod_singleton, bwQ_one,
      one_div_one_div]
  have hden : (Complex.I * (lowRatio fc fr : ℂ)) ^ 2 + (√2 : ℝ) * (Complex.I * lowRatio fc fr) + 1 ≠ 0 := by
    intro h
    have := congrArg Complex.im h
    rw [mul_pow, Complex.I_sq] at this
    simp [pow_two] at this
    exact hL.ne' this
  rw [one_div_one_div, bw, bw]
  have hr : ((√2 : ℝ) : ℂ) ^ 2 = 2 := by rw [← Complex.ofReal_pow, Real.sq_sqrt (by norm_num)]; norm_num
  push_cast at hden ⊢
  generalize Complex.I * (lowRatio fc fr : ℂ) = w at *
  generalize ((√2 : ℝ) : ℂ) = r at *
  have hh : 1 / ((1 / w) ^ 2 + r * (1 / w) + 1) = w ^ 2 / (w ^ 2 + r * w + 1) := by
    rw [← mul_div_mul_left _ _ (pow_ne_zero 2 hw), mul_one]
    congr 1
    field_simp; ring
  rw [hh]
  simp only [one_mul]
  rw [div_mul_div_comm, div_mul_div_comm, ← add_div, div_eq_div_iff (mul_ne_zero hden hden) hden]
  linear_combination (w ^ 2 * (w ^ 2 + r * w + 1)) * hr

/-- a case: a crossover at 2 kHz -/
example {x u y u' y' : ℕ → ℝ} (hu : SetupRuns S T 2 (.setup (fin 48000) (.bwLowPass (fin 2000))) x u)
    (hy : SetupRuns S T 2 (.setup (fin 48000) (.bwLowPass (fin 2000))) u y)
    (hu' : SetupRuns S T 2 (.setup (fin 48000) (.bwHighPass (fin 2000))) x u')
    (hy' : SetupRuns S T 2 (.setup (fin 48000) (.bwHighPass (fin 2000))) u' y') :
    RBJRuns (.allPass (fin (2000 / 48000)) (fin (1 / √2))) x fun k => y k + y' k :=
  C69_linkwitz_riley ⟨rfl, congrArg _ (fin_div _ (by norm_num)), by norm_num, le_rfl, by norm_num⟩
    ⟨rfl, congrArg _ (fin_div _ (by norm_num)), by norm_num, le_rfl, by norm_num⟩
    ⟨rfl, congrArg _ (fin_div _ (by norm_num)), by norm_num, le_rfl, by norm_num⟩
    ⟨rfl, congrArg _ (fin_div _ (by norm_num)), by norm_num, le_rfl, by norm_num⟩ (by norm_num) (by norm_num)
    hu hy hu' hy'

end crossover

/-! ### All designs -/

/-- the response of a design is a function of order, parameters and frequency -/
theorem transfer_fun (o : ℕ) (d : Design XR) : ∃ H : ℝ → ℂ, ∀ (S : Type → Type) [StateType S XR] (f : PoleFilter S XR),
    HasTransfer o d f → ∀ fr, 0 < fr → fr < 1 / 2 → Response f fr (H fr) := by
  have low : ∀ H v fc, ∃ K : ℝ → ℂ, ∀ (S : Type → Type) [StateType S XR] (f : PoleFilter S XR),
      LowResponse H v fc f → ∀ fr, 0 < fr → fr < 1 / 2 → Response f fr (K fr) := fun H v fc =>
    ⟨_, fun S _ f hf fr a b => hf.value fr a.le b⟩
  have high : ∀ H v fc, ∃ K : ℝ → ℂ, ∀ (S : Type → Type) [StateType S XR] (f : PoleFilter S XR),
      HighResponse H v fc f → ∀ fr, 0 < fr → fr < 1 / 2 → Response f fr (K fr) := fun H v fc =>
    ⟨_, fun S _ f hf fr a b => hf.value fr a b⟩
  have band : ∀ H v f1 f2, ∃ K : ℝ → ℂ, ∀ (S : Type → Type) [StateType S XR] (f : PoleFilter S XR),
      BandResponse H v f1 f2 f → ∀ fr, 0 < fr → fr < 1 / 2 → Response f fr (K fr) := fun H v f1 f2 =>
    ⟨_, fun S _ f hf fr a b => hf.value fr a b⟩
  have stop : ∀ H v f1 f2, ∃ K : ℝ → ℂ, ∀ (S : Type → Type) [StateType S XR] (f : PoleFilter S XR),
      StopResponse H v f1 f2 f → ∀ fr, 0 < fr → fr < 1 / 2 → Response f fr (K fr) := fun H v f1 f2 =>
    ⟨fun fr => if bandRatio f1 f2 fr = 0 then v else H (1 / (Complex.I * bandRatio f1 f2 fr)),
      fun S _ f hf fr a b => by
        beta_reduce
        split
        · next h0 => exact hf.centre fr a b h0
        · next h0 => exact hf.value fr a b h0⟩
  unfold HasTransfer
  split
  all_goals first
    | with_reducible exact low _ _ _
    | with_reducible exact high _ _ _
    | with_reducible exact band _ _ _ _
    | with_reducible exact stop _ _ _ _
    | exact ⟨fun _ => 0, fun S _ f hf => hf.elim⟩

/-- **C67** for designs: objects asked for the same order and design return the same samples, whatever their sizes and
delay line types, by whatever overload they were asked and whatever was done with them before. -/
theorem C67_same_design {d : Design XR} (h : Asks call n o d) (h' : Asks call' n' o d) (hv : Valid o d) (x y : ℕ → ℝ) :
    SetupRuns S T n call x y ↔ SetupRuns S' T' n' call' x y := by
  obtain ⟨H, hH⟩ := transfer_fun o d
  exact (known_design h hv (hH S)).same (known_design h' hv (hH S')) (fun _ _ _ => rfl) x y

/-- a case: `ChebyshevII::LowPass` of order 3 on objects of sizes 3 and 8, with 48 kHz and normalised -/
example (x y : ℕ → ℝ) : SetupRuns S T 3 (.setup (fin 48000) (.c2LowPass (fin 12000) (fin 60))) x y ↔
    SetupRuns S' T' 8 (.setupNReq 3 (.c2LowPass (fin (1 / 4)) (fin 60))) x y :=
  C67_same_design (o := 3) (d := .c2LowPass (fin (1 / 4)) (fin 60))
    ⟨rfl, by simp [Call.normDesign, mapFreq, fin_div']; norm_num, by norm_num, le_rfl, by norm_num⟩
    ⟨rfl, rfl, by norm_num, by norm_num, by norm_num⟩ ⟨⟨by norm_num, by norm_num⟩, by norm_num⟩ x y

/-! ## C57 in the time domain -/

theorem ne_of_re {s p : ℂ} (hs : s.re = 0) (hp : p.re < 0) : s - p ≠ 0 := fun h => by
  have := congrArg Complex.re h
  simp at this
  linarith

theorem bwPole_re {o k : ℕ} (hk : k < o) : (bwPole o k).re < 0 := by
  have ho : (o : ℝ) ≠ 0 := by exact_mod_cast (by omega : o ≠ 0)
  have hk' : (k : ℝ) + 1 ≤ o := by exact_mod_cast hk
  have ho' : (0 : ℝ) < o := by positivity
  have hpi := Real.pi_pos
  have e : bwPole o k = Complex.exp ((Real.pi * (2 * k + 1) / (2 * o) + Real.pi / 2 : ℝ) * Complex.I) := by
    rw [bwPole]; congr 1; push_cast
    have : (o : ℂ) ≠ 0 := by exact_mod_cast ho
    field_simp
  rw [e, Complex.exp_ofReal_mul_I_re, Real.cos_add_pi_div_two, neg_lt_zero]
  refine Real.sin_pos_of_pos_of_lt_pi (by positivity) ?_
  rw [div_lt_iff₀ (by positivity)]
  nlinarith

theorem ellipse_re {o k : ℕ} (hk : k < o) {v : ℝ} (hv : 0 < v) : (ellipse o v k).re < 0 := by
  rw [ellipse_eq]; exact chebPole_re_neg hk hv

theorem bwLowShelf_inverse {o : ℕ} (g : ℝ) {s : ℂ} (hs : s.re = 0) :
    bwLowShelf o g s * bwLowShelf o (-g) s = 1 := by
  rw [bwLowShelf, bwLowShelf, ← Finset.prod_mul_distrib]
  refine Finset.prod_eq_one fun k hk => ?_
  have hp := bwPole_re (Finset.mem_range.1 hk)
  have hG := ofDb_pos (g / (2 * o))
  have hG' : (ofDb (g / (2 * o)) : ℂ) ≠ 0 := by exact_mod_cast hG.ne'
  rw [neg_div, ofDb_neg_inv]
  have d1 : s - ofDb (g / (2 * o)) * bwPole o k ≠ 0 := ne_of_re hs (by
    rw [Complex.re_ofReal_mul]; nlinarith)
  have d2 : s - bwPole o k / ofDb (g / (2 * o)) ≠ 0 := ne_of_re hs (by
    rw [Complex.div_ofReal_re]; exact div_neg_of_neg_of_pos hp hG)
  have e1 : s - ((1 / ofDb (g / (2 * o)) : ℝ) : ℂ) * bwPole o k = s - bwPole o k / ofDb (g / (2 * o)) := by
    push_cast; ring
  have e2 : s - bwPole o k / ((1 / ofDb (g / (2 * o)) : ℝ) : ℂ) = s - ofDb (g / (2 * o)) * bwPole o k := by
    push_cast; rw [div_div_eq_mul_div]; ring
  rw [e1, e2, div_mul_div_comm, mul_comm, div_self (mul_ne_zero d2 d1)]

theorem shelfEpsSq_neg {G r : ℝ} (hr : 0 < r) (hG : r < |G|) : shelfEpsSq (-G) r = ofDb G ^ 2 * shelfEpsSq G r := by
  have hG0 : G ≠ 0 := fun h => by rw [h, abs_zero] at hG; linarith
  have he : shelfEdgeDb (-G) r = -shelfEdgeDb G r := by
    unfold shelfEdgeDb
    rcases lt_or_gt_of_ne hG0 with h | h
    · rw [if_pos (by linarith), if_neg (by linarith)]; ring
    · rw [if_neg (by linarith), if_pos h]; ring
  have hp := shelfEpsSq_pos hr hG
  have hE1 : ofDb (shelfEdgeDb G r) ^ 2 ≠ 1 := by
    intro h
    rw [shelfEpsSq, ofDb_neg_inv (shelfEdgeDb G r), div_pow, one_pow, h] at hp
    simp at hp
  have hg := ofDb_pos G
  have hE := ofDb_pos (shelfEdgeDb G r)
  rw [shelfEpsSq, shelfEpsSq, he, neg_neg, neg_neg, ofDb_neg_inv, ofDb_neg_inv]
  have h1 : ofDb (shelfEdgeDb G r) ^ 2 - 1 ≠ 0 := sub_ne_zero.2 hE1
  have h2 : 1 - ofDb (shelfEdgeDb G r) ^ 2 ≠ 0 := sub_ne_zero.2 hE1.symm
  field_simp
  ring

theorem chebLowShelf_inverse {o : ℕ} {G r : ℝ} (hr : 0 < r) (hG : r < |G|) {s : ℂ} (hs : s.re = 0) :
    chebLowShelf o G r s * chebLowShelf o (-G) r s = 1 := by
  have hp := Real.sqrt_pos.2 (shelfEpsSq_pos hr hG)
  have hg := ofDb_pos G
  have e0 : √(shelfEpsSq (-G) r) = ofDb G * √(shelfEpsSq G r) := by
    rw [shelfEpsSq_neg hr hG, Real.sqrt_mul (by positivity), Real.sqrt_sq hg.le]
  have e1 : 1 / √(shelfEpsSq (-G) r) = ofDb (-G) / √(shelfEpsSq G r) := by
    rw [e0, ofDb_neg_inv, div_div]
  have e2 : ofDb (- -G) / √(shelfEpsSq (-G) r) = 1 / √(shelfEpsSq G r) := by
    rw [e0, neg_neg]; field_simp
  rw [chebLowShelf, chebLowShelf, ← Finset.prod_mul_distrib, e1, e2]
  refine Finset.prod_eq_one fun k hk => ?_
  have hk := Finset.mem_range.1 hk
  have ho : (0 : ℝ) < o := by exact_mod_cast (by omega : 0 < o)
  have v1 : 0 < Real.arsinh (1 / √(shelfEpsSq G r)) / o := div_pos (Real.arsinh_pos_iff.2 (by positivity)) ho
  have v2 : 0 < Real.arsinh (ofDb (-G) / √(shelfEpsSq G r)) / o :=
    div_pos (Real.arsinh_pos_iff.2 (div_pos (ofDb_pos _) hp)) ho
  rw [div_mul_div_comm, mul_comm,
    div_self (mul_ne_zero (ne_of_re hs (ellipse_re hk v2)) (ne_of_re hs (ellipse_re hk v1)))]

theorem re_I_mul (t : ℝ) : (Complex.I * (t : ℂ)).re = 0 := by simp

theorem re_inv_I_mul (t : ℝ) : (1 / (Complex.I * (t : ℂ))).re = 0 := by
  rw [one_div, Complex.inv_re]; simp

/-- **C57** in the time domain, for the shelves of all three families: what one shelf makes of a signal, the shelf with
the opposite gain turns back into the signal, sample for sample; whatever was done with both objects before, and also
for different delay line types. -/
theorem C57_shelves_restore {d d' : Design XR} (h : Asks call n o d) (h' : Asks call' n' o d') (hd : Opposite d d')
    (hv : Valid o d) (hv' : Valid o d') {x y : ℕ → ℝ} (hy : SetupRuns S T n call x y) :
    SetupRuns S' T' n' call' y x := by
  cases hd with
  | bwLow fc g =>
    exact (known_design h hv fun f hf fr a b => hf.value fr a.le b).inverse
      (known_design h' hv' fun f hf fr a b => hf.value fr a.le b)
      (fun fr a b => bwLowShelf_inverse g (re_I_mul _)) hy
  | bwHigh fc g =>
    exact (known_design h hv fun f hf fr a b => hf.value fr a b).inverse
      (known_design h' hv' fun f hf fr a b => hf.value fr a b)
      (fun fr a b => bwLowShelf_inverse g (re_inv_I_mul _)) hy
  | bwBand fc fw g =>
    exact (known_design h hv fun f hf fr a b => hf.value fr a b).inverse
      (known_design h' hv' fun f hf fr a b => hf.value fr a b)
      (fun fr a b => bwLowShelf_inverse g (re_I_mul _)) hy
  | c1Low fc g r | c2Low fc g r =>
    exact (known_design h hv fun f hf fr a b => hf.value fr a.le b).inverse
      (known_design h' hv' fun f hf fr a b => hf.value fr a.le b)
      (fun fr a b => chebLowShelf_inverse hv.2.1 hv.2.2 (re_I_mul _)) hy
  | c1High fc g r | c2High fc g r =>
    exact (known_design h hv fun f hf fr a b => hf.value fr a b).inverse
      (known_design h' hv' fun f hf fr a b => hf.value fr a b)
      (fun fr a b => chebLowShelf_inverse hv.2.1 hv.2.2 (re_inv_I_mul _)) hy
  | c1Band fc fw g r | c2Band fc fw g r =>
    exact (known_design h hv fun f hf fr a b => hf.value fr a b).inverse
      (known_design h' hv' fun f hf fr a b => hf.value fr a b)
      (fun fr a b => chebLowShelf_inverse hv.2.1 hv.2.2 (re_I_mul _)) hy

/-- a case: `ChebyshevI::LowShelf` of order 3 with 12 and -12 dB, on objects of different sizes -/
example {x y : ℕ → ℝ} (hy : SetupRuns S T 3 (.setupN (.c1LowShelf (fin (1 / 8)) (fin 12) (fin 1))) x y) :
    SetupRuns S' T' 5 (.setupNReq 3 (.c1LowShelf (fin (1 / 8)) (fin (-12)) (fin 1))) y x :=
  C57_shelves_restore (o := 3) (call := .setupN (.c1LowShelf (fin (1 / 8)) (fin 12) (fin 1)))
    (call' := .setupNReq 3 (.c1LowShelf (fin (1 / 8)) (fin (-12)) (fin 1)))
    (d := .c1LowShelf (fin (1 / 8)) (fin 12) (fin 1)) (d' := .c1LowShelf (fin (1 / 8)) (fin (-12)) (fin 1)) ⟨rfl, rfl, by norm_num, by norm_num, by norm_num⟩
    ⟨rfl, rfl, by norm_num, by norm_num, by norm_num⟩ (.c1Low _ _ _)
    ⟨⟨by norm_num, by norm_num⟩, by norm_num, by norm_num⟩ ⟨⟨by norm_num, by norm_num⟩, by norm_num, by norm_num⟩ hy

end Iir
