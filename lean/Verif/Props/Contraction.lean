import Verif.Props.PoleAccuracy
import Verif.Props.Accuracy
import Verif.Props.Rounding

/-! # C79: compilers may fuse products and sums in `filter`

`filter` is compiled with the flags of the client, and compilers may replace a product and a sum by one fused operation
with a single rounding (`Spec.Computes`).  The samples then depend on the compiler.  The distances from the exact responses
that C54, C76 and C77 state hold for every choice of the compiler. -/

set_option linter.unusedSectionVars false

namespace Iir
open FArith XR Spec Exec

variable {R : Type} [FArith R] {S : Type → Type} [StateType S R] [DelayLine R S]

/-! ## Code without fused operations -/

/-- **C79**: without a fused multiply-add instruction, `filter` returns what the model of `filter` returns. -/
theorem C79_plain_pole_filter {T : Type} [Sample T R] {c : Cls} {n : Nat} (hn1 : 1 ≤ n) (hn : n < 2 ^ 30) {f : PoleFilter S R}
    (hf : Reach S T c n f) (x y : ℕ → R) : f.ReturnsC none x y ↔ Returns (PoleFilter.filter (T := R)) f x y :=
  ⟨fun h => by rw [FeedC.of_none h]; exact f.returns_outAt x,
    fun h => by rw [h.unique (f.returns_outAt x)]; exact FeedC.plain (hf.wired hn1 hn) x⟩

theorem C79_plain_sos {f : Custom.SOS S R} (hf : f.states.length = f.stages.length) (x y : ℕ → R) :
    f.ReturnsC none x y ↔ Returns (Custom.SOS.filter (T := R)) f x y :=
  ⟨fun h => by rw [FeedC.of_none h]; exact f.returns_outAt x,
    fun h => by rw [h.unique (f.returns_outAt x)]; exact FeedC.plain hf x⟩

theorem C79_plain_rbj (f : RBJ.Filter R) (x y : ℕ → R) :
    f.ReturnsC none x y ↔ Returns (RBJ.Filter.filter (T := R)) f x y :=
  ⟨fun h => by rw [FeedC.of_none h]; exact f.returns_outAt x,
    fun h => by rw [h.unique (f.returns_outAt x)]; exact FeedC.plain (S := DirectFormI) (bs := [f.biquad]) (ss := [f.state]) rfl x⟩

/-- **C79**: the compiler need not use the instruction. -/
theorem C79_may {T : Type} [Sample T R] {c : Cls} {n : Nat} (hn1 : 1 ≤ n) (hn : n < 2 ^ 30) {f : PoleFilter S R}
    (hf : Reach S T c n f) {x y : ℕ → R} (h : Returns (PoleFilter.filter (T := R)) f x y) (F : Option (R → R → R → R)) :
    f.ReturnsC F x y := by
  rw [h.unique (f.returns_outAt x)]; exact FeedC.plain (hf.wired hn1 hn) x

/-! ## Bounds -/

theorem PoleFilter.ReturnsC.chain {F : Option (R → R → R → R)} {f : PoleFilter S R}
    (hl : f.states.length = f.base.cascade.stages.length) {x y : ℕ → R} (h : (PoleFilter.reset f).2.ReturnsC F x y) :
    ChainC F S f.base.cascade.stages x y := by
  refine FeedC.chainC ?_
  have e : (PoleFilter.reset f).2.states = List.replicate f.base.cascade.stages.length (initR S R) := by
    simp only [PoleFilter.reset, modify_def, reset_states, hl]
  have := h
  unfold PoleFilter.ReturnsC at this
  rwa [e] at this

theorem Custom.SOS.ReturnsC.chain {F : Option (R → R → R → R)} {f : Custom.SOS S R}
    (hl : f.states.length = f.stages.length) {x y : ℕ → R} (h : (Custom.SOS.reset f).2.ReturnsC F x y) :
    ChainC F S f.stages x y := by
  refine FeedC.chainC ?_
  have e : (Custom.SOS.reset f).2.states = List.replicate f.stages.length (initR S R) := by
    simp only [Custom.SOS.reset, modify_def, reset_states, hl]
  have := h
  unfold Custom.SOS.ReturnsC at this
  rwa [e] at this

theorem RBJ.Filter.ReturnsC.chain {F : Option (R → R → R → R)} {f : RBJ.Filter R} {x y : ℕ → R}
    (h : (RBJ.Filter.reset f).2.ReturnsC F x y) : ChainC F DirectFormI [f.biquad] x y :=
  FeedC.chainC h

/-- **C79** for pole filters: the bound of C54. -/
theorem C79_pole_filter {ks : List Coeffs} (hst : ∀ k ∈ ks, k.Stable) :
    ∃ C : ℝ, 0 < C ∧ ∀ (R : Type) [FArith R] (S : Type → Type) [StateType S R] [DelayLine R S]
      (T : Type) [Sample T R] (u η Ω : ℝ) (r : Rounds R u η Ω), (∀ k ∈ ks, k.Precise u) →
      ∀ (c : Cls) (n : Nat), 1 ≤ n → n < 2 ^ 30 → ∀ f : PoleFilter S R, Reach S T c n f →
      List.Forall₂ r.Values f.base.cascade.stages ks → ∀ (X : ℝ) (x : ℕ → R), r.Input X x → C * (X + η) ≤ Ω →
      ∀ F, (∀ fma ∈ F, r.Fused fma) → ∀ y', (PoleFilter.reset f).2.ReturnsC F x y' →
        ∀ y, DiffChain ks (fun n => r.val (x n)) y → r.Within (C * (u * X + η)) y' y := by
  by_cases h1 : ∀ k ∈ ks, k.a0 = 1
  · obtain ⟨C, hC, h⟩ := chain_within fun k hk => ⟨h1 k hk, hst k hk⟩
    refine ⟨C, by linarith, ?_⟩
    intro R _ S _ _ T _ u η Ω r hu c n hn1 hn f hf hv X x hx hΩ F hfm y' hy'
    exact h R S u η Ω r hu _ hv X x hx hΩ F hfm y' (PoleFilter.ReturnsC.chain (hf.wired hn1 hn) hy')
  · refine ⟨1, one_pos, ?_⟩
    intro R _ S _ _ T _ u η Ω r hu c n hn1 hn f hf hv
    exact absurd (fun k hk => C54_pole_filter.forall₂_a0 hv k hk) h1

/-- **C79** for SOS cascades: the bound of C54. -/
theorem C79_sos {ks : List Coeffs} (hst : ∀ k ∈ ks, k.Stable) :
    ∃ C : ℝ, 0 < C ∧ ∀ (R : Type) [FArith R] (S : Type → Type) [StateType S R] [DelayLine R S]
      (u η Ω : ℝ) (r : Rounds R u η Ω), (∀ k ∈ ks, k.Precise u) → ∀ f : Custom.SOS S R, f.states.length = f.stages.length →
      List.Forall₂ r.Values f.stages ks → ∀ (X : ℝ) (x : ℕ → R), r.Input X x → C * (X + η) ≤ Ω →
      ∀ F, (∀ fma ∈ F, r.Fused fma) → ∀ y', (Custom.SOS.reset f).2.ReturnsC F x y' →
        ∀ y, DiffChain ks (fun n => r.val (x n)) y → r.Within (C * (u * X + η)) y' y := by
  by_cases h1 : ∀ k ∈ ks, k.a0 = 1
  · obtain ⟨C, hC, h⟩ := chain_within fun k hk => ⟨h1 k hk, hst k hk⟩
    refine ⟨C, by linarith, ?_⟩
    intro R _ S _ _ u η Ω r hu f hf hv X x hx hΩ F hfm y' hy'
    exact h R S u η Ω r hu _ hv X x hx hΩ F hfm y' (Custom.SOS.ReturnsC.chain hf hy')
  · refine ⟨1, one_pos, ?_⟩
    intro R _ S _ _ u η Ω r hu f hf hv
    exact absurd (fun k hk => C54_pole_filter.forall₂_a0 hv k hk) h1

/-- **C79** for RBJ filters: the bound of C54. -/
theorem C79_rbj {k : Coeffs} (hst : k.Stable) :
    ∃ C : ℝ, 0 < C ∧ ∀ (R : Type) [FArith R] (u η Ω : ℝ) (r : Rounds R u η Ω), k.Precise u →
      ∀ f : RBJ.Filter R, r.Values f.biquad k → ∀ (X : ℝ) (x : ℕ → R), r.Input X x → C * (X + η) ≤ Ω →
      ∀ F, (∀ fma ∈ F, r.Fused fma) → ∀ y', (RBJ.Filter.reset f).2.ReturnsC F x y' →
        ∀ y, k.DiffEq (fun n => r.val (x n)) y → r.Within (C * (u * X + η)) y' y := by
  by_cases h1 : k.a0 = 1
  · obtain ⟨C, hC, h⟩ := chain_within (ks := [k]) (by simpa using ⟨h1, hst⟩)
    refine ⟨C, by linarith, ?_⟩
    intro R _ u η Ω r hu f hv X x hx hΩ F hfm y' hy' y hy
    exact h R DirectFormI u η Ω r (by simpa using hu) _ (.cons hv .nil) X x hx hΩ F hfm y' (RBJ.Filter.ReturnsC.chain hy') y
      (.cons hy (.nil _))
  · refine ⟨1, one_pos, ?_⟩
    intro R _ u η Ω r hu f hv
    exact absurd hv.a0 h1

/-- **C79**: RBJ filters designed with rounding errors, the bound of C76. -/
theorem C79_rbj_accurate {u η Ω : ℝ} (r : Rounds R u η Ω) (ha : r.Accurate) (fs : R) (d : RBJ.Design R) (hfs : r.Fin fs)
    (h0 : r.val fs ≠ 0) (hf : r.FinArgs d) {σ : ℝ} (hs : SharpRBJ σ (overRate (r.val fs) (r.valRBJ d))) (hσ : σ ≤ 2 ^ 10)
    (f : RBJ.Filter R) :
    ∃ f', RBJ.Filter.setup fs d f = (.ok (), f') ∧ ∀ X x, r.Input X x → 2 ^ 34 * (X + η) ≤ Ω →
      ∃ y, RBJRuns (finRBJ (overRate (r.val fs) (r.valRBJ d))) (fun n => r.val (x n)) y ∧
        ∀ F, (∀ fma ∈ F, r.Fused fma) → ∀ y', (RBJ.Filter.reset f').2.ReturnsC F x y' →
          r.Within (σ ^ 4 / 2 ^ 35 * (X + 2 ^ 70 * η)) y' y := by
  have both := near_rate ha hfs h0 hf hs
  obtain ⟨k, hk⟩ := near_ideal ha both.1 both.2 hs hσ
  obtain ⟨f', h1, h2⟩ := hk.accurate ha.u_le hσ f
  refine ⟨f', h1, fun X x hx hΩ => ?_⟩
  obtain ⟨y, h3, h4⟩ := h2 X x hx hΩ
  exact ⟨y, h3, fun F hfm y' hy' => h4 F hfm y' (RBJ.Filter.ReturnsC.chain hy')⟩

/-- **C79**: Butterworth low and high passes designed with rounding errors, the bound of C77. -/
theorem C79_butterworth {u η Ω : ℝ} {r : Rounds R u η Ω} [SignedZeros R] (hl : r.Library) {T : Type} [Sample T R]
    {n o : ℕ} (hn : n < 2 ^ 30) (ho : 1 ≤ o) (h16 : o ≤ 16) (hon : o ≤ n) {call : Call R} {f : PoleFilter S R}
    (h : Reach S T call.design.cls n f) (hord : call.order n = o) (hf : r.FinCall call) {φ : ℝ}
    (hd : IdealBw (mapCall (fun v => XR.fin (r.val v)) call).normDesign φ) (S0 : Type → Type) [StateType S0 XR]
    [DelayLine XR S0] (T0 : Type) [Sample T0 XR] :
    ∃ f', PoleFilter.setup n call f = (.ok (), f') ∧ ∀ X x, r.Input X x → 1 / 2 ^ 400 ≤ X → X ≤ 2 ^ 400 →
      ∃ y, SetupRuns S0 T0 n (mapCall (fun v => XR.fin (r.val v)) call) (fun i => r.val (x i)) y ∧
        ∀ F, (∀ fma ∈ F, r.Fused fma) → ∀ y', (PoleFilter.reset f').2.ReturnsC F x y' →
          r.Within (bwAmplifies φ o * (bwSharp φ o + n) / 2 ^ 30 * X) y' y := by
  obtain ⟨f', h1, hr, h2⟩ := NearBw.accurate hl (S0 := S0) (T0 := T0) hn ho h16 hon h rfl hord
    (near_of_ideal r hl.toAccurate hf hd) (call0 := mapCall (fun v => XR.fin (r.val v)) call) (n0 := n)
    ⟨(mapCall_order _ _ _).trans hord, rfl, ho, hon, hn⟩
  refine ⟨f', h1, fun X x hx hX1 hX2 => ?_⟩
  obtain ⟨y, h3, h4⟩ := h2 X x hx hX1 hX2
  exact ⟨y, h3, fun F hfm y' hy' => h4 F hfm y' (PoleFilter.ReturnsC.chain (hr.wired (by omega) hn) hy')⟩

/-! ## IEEE doubles -/

/-- The fused multiply-add of IEEE 754: the exact `a b + c`, rounded once. -/
noncomputable def Dbl.fma : Dbl → Dbl → Dbl → Dbl
  | .num s x, .num t y, .num w z =>
    .ofReal ((s ^^ t) && w) ((Dbl.num s x).val * (Dbl.num t y).val + (Dbl.num w z).val)
  | .num _ _, .num _ _, c => c
  | a, b, c => a * b + c

theorem Dbl.fma_fused : doubleRounds.Fused Dbl.fma where
  neg := by
    rintro (_ | s | ⟨s, x⟩) h <;> first | exact h.elim | exact ⟨trivial, Dbl.val_neg _⟩
  fma := by
    rintro (_ | s | ⟨s, x⟩) (_ | t | ⟨t, y⟩) (_ | w | ⟨w, z⟩) ha hb hc h <;>
      first | exact ha.elim | exact hb.elim | exact hc.elim | exact Dbl.ofReal_close _ h

theorem isDouble_square {v : ℝ} (h : IsDouble v) (h1 : |v - ((2 ^ 30 + 1) * (2 ^ 30 + 1))| ≤ 1) : v = 2 ^ 60 + 2 ^ 31 := by
  obtain ⟨m, e, h2, -, -, rfl⟩ := h
  obtain ⟨a1, a2⟩ := abs_le.1 h1
  have he : 7 ≤ e := by
    by_contra hlt
    have : (2 : ℝ) ^ e ≤ 2 ^ (6 : ℤ) := zpow_le_zpow_right₀ (by norm_num) (by omega)
    have h3 : (m : ℝ) < 2 ^ 53 := by exact_mod_cast (abs_lt.1 h2).2
    have h4 : (m : ℝ) * 2 ^ e ≤ 2 ^ 53 * 2 ^ (6 : ℤ) := by
      rcases le_or_gt 0 (m : ℝ) with h0 | h0
      · exact mul_le_mul h3.le this (by positivity) (by positivity)
      · have := mul_neg_of_neg_of_pos h0 (show (0 : ℝ) < 2 ^ e by positivity)
        linarith [show (0 : ℝ) < 2 ^ 53 * 2 ^ (6 : ℤ) by positivity]
    norm_num at h4 a1
    linarith
  obtain ⟨j, rfl⟩ : ∃ j : ℕ, e = 7 + j := ⟨(e - 7).toNat, by omega⟩
  have e1 : (m : ℝ) * (2 : ℝ) ^ ((7 : ℤ) + j) = ((m * 2 ^ j * 128 : ℤ) : ℝ) := by
    rw [zpow_add₀ (by norm_num), zpow_natCast]; push_cast; norm_num; ring
  rw [e1] at a1 a2 ⊢
  have b1 : (2 ^ 60 + 2 ^ 31 : ℤ) ≤ m * 2 ^ j * 128 := by
    have : ((2 ^ 60 + 2 ^ 31 : ℤ) : ℝ) ≤ ((m * 2 ^ j * 128 : ℤ) : ℝ) := by push_cast at *; linarith
    exact_mod_cast this
  have b2 : m * 2 ^ j * 128 ≤ (2 ^ 60 + 2 ^ 31 + 2 : ℤ) := by
    have : ((m * 2 ^ j * 128 : ℤ) : ℝ) ≤ ((2 ^ 60 + 2 ^ 31 + 2 : ℤ) : ℝ) := by push_cast at *; linarith
    exact_mod_cast this
  have b3 : m * 2 ^ j * 128 = 2 ^ 60 + 2 ^ 31 := by
    generalize m * 2 ^ j = t at *
    omega
  rw [b3]; push_cast; ring

/-- **C79**: fused operations do change samples: `a * a - c` with `a = 2³⁰ + 1` and `c = 2⁶⁰ + 2³¹` is 0 or 1. -/
theorem C79_differs : ∃ (a c v w : Dbl), Computes (some Dbl.fma) (.sub (.prod a a) (.var c)) v ∧
    Computes (some Dbl.fma) (.sub (.prod a a) (.var c)) w ∧ v.Finite ∧ w.Finite ∧ v.val = 0 ∧ w.val = 1 := by
  obtain ⟨a1, a2⟩ := Dbl.lit2_val (m := 2 ^ 30 + 1) (e := 0) (by norm_num) (by norm_num) (by norm_num)
  obtain ⟨c1, c2⟩ := Dbl.lit2_val (m := 2 ^ 29 + 1) (e := 31) (by norm_num) (by norm_num) (by norm_num)
  generalize Dbl.lit2 (2 ^ 30 + 1) 0 = a at *
  generalize Dbl.lit2 (2 ^ 29 + 1) 31 = c at *
  have a2 : a.val = 2 ^ 30 + 1 := by rw [a2]; norm_num
  have c2 : c.val = 2 ^ 60 + 2 ^ 31 := by rw [c2]; norm_num
  rcases a with _ | s | ⟨s, x⟩ <;> try exact a1.elim
  rcases c with _ | t | ⟨t, z⟩ <;> try exact c1.elim
  refine ⟨.num s x, .num t z, _, _, .sub (.prod _ _) (.var _), .fuseSubLeft rfl (.var _), ?_⟩
  have e : (2 : ℝ) ^ 60 + 2 ^ 31 - (2 ^ 30 + 1) * (2 ^ 30 + 1) = -1 := by norm_num
  have hc : IsDouble ((2 : ℝ) ^ 60 + 2 ^ 31) := ⟨2 ^ 29 + 1, 31, by norm_num, by norm_num, by norm_num, by norm_num⟩
  have hq : |((2 : ℝ) ^ 30 + 1) * (2 ^ 30 + 1)| ≤ maxDouble := by
    unfold maxDouble
    have : (1 : ℝ) * 2 ^ 20 ≤ 2 ^ 951 * 2 ^ 20 := mul_le_mul_of_nonneg_right (one_le_pow₀ (by norm_num)) (by norm_num)
    rw [← pow_add] at this
    refine le_trans ?_ (mul_le_mul_of_nonneg_left this (by norm_num))
    norm_num
  have hlt := roundReal_lt hq
  rw [abs_of_pos (by positivity)] at hlt
  have hr : roundReal ((2 ^ 30 + 1) * (2 ^ 30 + 1)) = 2 ^ 60 + 2 ^ 31 := by
    refine isDouble_square (isDouble_roundReal (by positivity) hlt).2 ?_
    have := roundReal_nearest ((2 ^ 30 + 1) * (2 ^ 30 + 1)) hc
    rwa [e, abs_neg, abs_one] at this
  have p1 : (Dbl.num s x * Dbl.num s x).Finite ∧ (Dbl.num s x * Dbl.num s x).val = 2 ^ 60 + 2 ^ 31 := by
    have h1 := Dbl.ofReal_finite (s ^^ s) (x := (Dbl.num s x).val * (Dbl.num s x).val) (by
      rw [a2, abs_of_pos (by positivity)]; exact hlt)
    refine ⟨h1.1, h1.2.trans ?_⟩
    rw [a2, if_neg (by norm_num), abs_of_pos (by positivity), hr]
  have q1 : ∀ d : Dbl, d.Finite → d.val = 2 ^ 60 + 2 ^ 31 → (d - Dbl.num t z).Finite ∧ (d - Dbl.num t z).val = 0 := by
    rintro (_ | r | ⟨r, y⟩) h1 h2 <;> try exact h1.elim
    have e1 : (Dbl.num r y).val + (-Dbl.num t z).val = 0 := by rw [Dbl.val_neg, h2, c2]; ring
    have h3 := Dbl.ofReal_isDouble (r && !t) Dbl.isDouble_zero
    rw [← e1] at h3
    exact ⟨h3.1, h3.2.trans e1⟩
  have q2 : (Dbl.fma (Dbl.num s x) (Dbl.num s x) (-Dbl.num t z)).Finite ∧
      (Dbl.fma (Dbl.num s x) (Dbl.num s x) (-Dbl.num t z)).val = 1 := by
    have e1 : (Dbl.num s x).val * (Dbl.num s x).val + (-Dbl.num t z).val = 1 := by rw [Dbl.val_neg, a2, c2]; norm_num
    have h3 := Dbl.ofReal_isDouble ((s ^^ s) && !t) (x := 1) (by simpa using Dbl.isDouble_int (i := 1) (by norm_num))
    rw [← e1] at h3
    exact ⟨h3.1, h3.2.trans e1⟩
  exact ⟨(q1 _ p1.1 p1.2).1, q2.1, (q1 _ p1.1 p1.2).2, q2.2⟩

/-- **C79** for RBJ filters in IEEE doubles with the IEEE fused multiply-add. -/
theorem C79_rbj_double (fs : Dbl) (d : RBJ.Design Dbl) (hfs : fs.Finite) (h0 : fs.val ≠ 0) (hf : doubleRounds.FinArgs d) {σ : ℝ}
    (hs : SharpRBJ σ (overRate fs.val (doubleRounds.valRBJ d))) (hσ : σ ≤ 2 ^ 10) (f : RBJ.Filter Dbl) :
    ∃ f', RBJ.Filter.setup fs d f = (.ok (), f') ∧ ∀ X x, doubleRounds.Input X x → (1 / 2) ^ 1000 ≤ X → X ≤ 2 ^ 900 →
      ∃ y, RBJRuns (finRBJ (overRate fs.val (doubleRounds.valRBJ d))) (fun n => (x n).val) y ∧
        ∀ y', (RBJ.Filter.reset f').2.ReturnsC (some Dbl.fma) x y' →
          ∀ n, (y' n).Finite ∧ |(y' n).val - y n| ≤ σ ^ 4 / 2 ^ 34 * X := by
  obtain ⟨f', h1, h2⟩ := C79_rbj_accurate doubleRounds doubleRounds_accurate fs d hfs h0 hf hs hσ f
  refine ⟨f', h1, fun X x hx hX1 hX2 => ?_⟩
  obtain ⟨r1, r2⟩ := double_range hX1 hX2
  obtain ⟨y, h4, h5⟩ := h2 X x hx r1
  refine ⟨y, h4, fun y' hy' n => ?_⟩
  have h6 := h5 (some Dbl.fma) (by simpa using Dbl.fma_fused) y' hy' n
  refine ⟨h6.1, h6.2.trans ?_⟩
  have e : σ ^ 4 / 2 ^ 34 * X = σ ^ 4 / 2 ^ 35 * (2 * X) := by ring
  rw [e]
  exact mul_le_mul_of_nonneg_left r2 (by positivity)

/-- **C79** for Butterworth low and high passes in IEEE doubles with the IEEE fused multiply-add. -/
theorem C79_butterworth_double {S : Type → Type} [StateType S Dbl] [DelayLine Dbl S] {T : Type} [Sample T Dbl]
    {n o : ℕ} (hn : n < 2 ^ 30) (ho : 1 ≤ o) (h16 : o ≤ 16) (hon : o ≤ n) {call : Call Dbl} {f : PoleFilter S Dbl}
    (h : Reach S T call.design.cls n f) (hord : call.order n = o) (hf : doubleRounds.FinCall call) {φ : ℝ}
    (hd : IdealBw (mapCall (fun v => XR.fin v.val) call).normDesign φ) (S0 : Type → Type) [StateType S0 XR]
    [DelayLine XR S0] (T0 : Type) [Sample T0 XR] :
    ∃ f', PoleFilter.setup n call f = (.ok (), f') ∧
      ∀ X x, (∀ i, (x i).Finite ∧ |(x i).val| ≤ X) → 1 / 2 ^ 400 ≤ X → X ≤ 2 ^ 400 →
      ∃ y, SetupRuns S0 T0 n (mapCall (fun v => XR.fin v.val) call) (fun i => (x i).val) y ∧
        ∀ y', (PoleFilter.reset f').2.ReturnsC (some Dbl.fma) x y' →
          ∀ i, (y' i).Finite ∧ |(y' i).val - y i| ≤ bwAmplifies φ o * (bwSharp φ o + n) / 2 ^ 30 * X := by
  obtain ⟨f', h1, h2⟩ := C79_butterworth (r := doubleRounds) doubleRounds_library hn ho h16 hon h hord hf hd S0 T0
  refine ⟨f', h1, fun X x hx hX1 hX2 => ?_⟩
  obtain ⟨y, h3, h4⟩ := h2 X x hx hX1 hX2
  exact ⟨y, h3, fun y' hy' => h4 (some Dbl.fma) (by simpa using Dbl.fma_fused) y' hy'⟩

/-! ## Cases -/

/-- all of it: a new low pass of order two, set up in double arithmetic and fed with samples of magnitude at most one;
whatever the compiler made of `filter`, the samples are within `27 / 2 ^ 30` of those of the same filter without rounding -/
example (x : ℕ → Dbl) (hx : ∀ i, (x i).Finite ∧ |(x i).val| ≤ 1) :
    ∃ f', PoleFilter.setup 2 exQuarter (PoleFilter.init DirectFormII .bwLowPass 2) = (.ok (), f') ∧
      ∃ y, SetupRuns DirectFormII XR 2 (mapCall (fun v => XR.fin v.val) exQuarter) (fun i => (x i).val) y ∧
        ∀ y', (PoleFilter.reset f').2.ReturnsC (some Dbl.fma) x y' → ∀ i, (y' i).Finite ∧ |(y' i).val - y i| ≤ 27 / 2 ^ 30 := by
  obtain ⟨h1, -⟩ := Dbl.lit2_val (m := 12000) (e := 0) (by norm_num) (by norm_num) (by norm_num)
  obtain ⟨h2, -⟩ := Dbl.lit2_val (m := 48000) (e := 0) (by norm_num) (by norm_num) (by norm_num)
  obtain ⟨f', h3, h4⟩ := C79_butterworth_double (S := DirectFormII) (T := Dbl) (n := 2) (o := 2) (call := exQuarter) (by norm_num)
    (by norm_num) (by norm_num) le_rfl .new rfl ⟨h2, h1⟩ exQuarter_ideal DirectFormII XR
  obtain ⟨y, h6, h7⟩ := h4 1 x hx (div_le_one_of_le₀ (one_le_pow₀ (by norm_num)) (by positivity)) (one_le_pow₀ (by norm_num))
  refine ⟨f', h3, y, h6, fun y' hy' i => ⟨(h7 y' hy' i).1, (h7 y' hy' i).2.trans ?_⟩⟩
  have := exQuarter_bound
  rw [mul_one]
  exact_mod_cast this

/-- code that fuses all it can, with Direct Form I -/
example (b : Biquad Dbl) (x : Dbl) (s : DirectFormI Dbl) : ∃ s', StepC (S := DirectFormI) (some Dbl.fma) x b s
    (Dbl.fma (-b.a2) s.y2 (Dbl.fma (-b.a1) s.y1 (Dbl.fma b.b2 s.x2 (Dbl.fma b.b1 s.x1 (b.b0 * x))))) s' :=
  ⟨_, .fuseSubRight rfl (.fuseSubRight rfl (.fuseRight rfl (.fuseRight rfl (.prod _ _)))), rfl⟩

/-- the example of C54 meets the hypotheses of `C79_sos` and `C79_rbj` in arithmetic with a fused operation that rounds down -/
example (m : ℕ) (Ω : ℝ) : (chopRounds m Ω).Fused (R := Chop m)
    (fun a b c => XR.chop m (XR.add (XR.mul a b) c)) where
  neg := by
    rintro _ ⟨a, rfl⟩
    exact ⟨⟨_, rfl⟩, rfl⟩
  fma := by
    rintro _ _ _ ⟨a, rfl⟩ ⟨b, rfl⟩ ⟨c, rfl⟩ -
    refine ⟨⟨_, rfl⟩, ?_⟩
    rw [add_zero]
    exact chop_close m (a * b + c)

end Iir
