import Verif.Lemmas.RoundClose

/-! # Sections with rounded coefficients, run with rounding errors: errors relative to the gain of the section

`section_within` adds up all rounding errors as if the feed forward coefficients were about one.  Here the error is
proportional to the sum of the feed forward coefficients, so that it can be compared with the gain of the section. -/

namespace Iir
open FArith Spec

variable {R : Type} [FArith R] {u η Ω : ℝ}

/-- A small change of the feed back coefficients at most doubles the gain. -/
theorem GainBound.close {k k' : Coeffs} {K δ : ℝ} (hg : GainBound k K) (h1 : |k'.a1 - k.a1| ≤ δ) (h2 : |k'.a2 - k.a2| ≤ δ)
    (hδ : 4 * (δ * K) ≤ 1) : GainBound k' (2 * K) := by
  intro d E N h n hn
  have hK := hg.pos
  have hδ0 : 0 ≤ δ := (abs_nonneg _).trans h1
  obtain ⟨m0, hm0, hmax⟩ := Finset.exists_max_image (Finset.range N) (fun m => |d m|) ⟨n, Finset.mem_range.2 hn⟩
  obtain ⟨B, hB⟩ : ∃ B, B = |d m0| := ⟨_, rfl⟩
  have hB0 : 0 ≤ B := hB ▸ abs_nonneg _
  have hd : ∀ m < N, |d m| ≤ B := fun m hm => hB ▸ hmax m (Finset.mem_range.2 hm)
  have key := hg.bound (d := d) (E := E + 2 * (δ * B)) (N := N) (fun m hm => ?_) m0 (Finset.mem_range.1 hm0)
  · rw [← hB] at key
    have e : K * (E + 2 * (δ * B)) = K * E + (4 * (δ * K)) * (B / 2) := by ring
    have := mul_le_mul_of_nonneg_right hδ (show 0 ≤ B / 2 by positivity)
    have := hd n hn
    nlinarith
  · have d1 := delayed_abs_le hB0 (fun j hj => hd j (lt_trans hj hm)) 1 le_rfl
    have d2 := delayed_abs_le hB0 (fun j hj => hd j (lt_trans hj hm)) 2 (by omega)
    have e1 : |(k'.a1 - k.a1) * delayed 1 d m| ≤ δ * B := by
      rw [abs_mul]; exact mul_le_mul h1 d1 (abs_nonneg _) hδ0
    have e2 : |(k'.a2 - k.a2) * delayed 2 d m| ≤ δ * B := by
      rw [abs_mul]; exact mul_le_mul h2 d2 (abs_nonneg _) hδ0
    have e3 := abs_le.1 (h m hm)
    have e1 := abs_le.1 e1
    have e2 := abs_le.1 e2
    exact abs_le.2 ⟨by linarith, by linarith⟩

section arith
variable {F K B X M δ : ℝ}

theorem sharp_arith1 (hu0 : 0 ≤ u) (hη : 0 ≤ η) (hK : 1 ≤ K) (hF : 0 ≤ F) (hX : 0 ≤ X) (hB : B ≤ 3.1)
    (huK : 2 ^ 8 * (u * K) ≤ 1) (hη1 : 2 ^ 10 * η ≤ u * (F * X)) :
    F * X + B * (K * (F * X + 9 * (u * (6 * (K * (F * X))) + η))) + 9 * (u * (6 * (K * (F * X))) + η) ≤ 6 * (K * (F * X)) ∧
    K * (9 * (u * (6 * (K * (F * X))) + η)) ≤ 70 * (K ^ 2 * (F * (u * X))) := by
  obtain ⟨Y, hY⟩ : ∃ Y, Y = F * X := ⟨_, rfl⟩
  have hY0 : 0 ≤ Y := by rw [hY]; positivity
  rw [← hY] at hη1 ⊢
  have e0 : K ^ 2 * (F * (u * X)) = u * K * (K * Y) := by rw [hY]; ring
  rw [e0]
  have hKY : 0 ≤ K * Y := by positivity
  have hKY1 : Y ≤ K * Y := le_mul_of_one_le_left hY0 hK
  have huKY : u * Y ≤ u * K * Y := by
    have := mul_le_mul_of_nonneg_left hKY1 hu0; linarith
  have hδ : u * (6 * (K * Y)) + η ≤ 6.001 * (u * K * Y) := by
    have : (0:ℝ) ≤ u * K * Y := by positivity
    norm_num at *; linarith
  have hδ2 : u * (6 * (K * Y)) + η ≤ 0.0235 * Y := by
    have := mul_le_mul_of_nonneg_right huK hY0
    norm_num at *; linarith
  constructor
  · have h1 : B * (K * (Y + 9 * (u * (6 * (K * Y)) + η))) ≤ 3.1 * (K * (1.22 * Y)) := by
      refine mul_le_mul hB ?_ (by positivity) (by norm_num)
      exact mul_le_mul_of_nonneg_left (by norm_num at *; linarith) (by linarith)
    norm_num at *
    linarith
  · have := mul_le_mul_of_nonneg_left hδ (by linarith : (0:ℝ) ≤ K)
    have h0 : 0 ≤ u * K * (K * Y) := by positivity
    norm_num at *
    nlinarith

theorem sharp_arith2 (hu0 : 0 ≤ u) (hη : 0 ≤ η) (hK : 1 ≤ K) (hF : 0 ≤ F) (hX : 0 ≤ X) 
    (hB : B ≤ 3.1) (huK : 2 ^ 8 * (u * K) ≤ 1) (hη1 : 2 ^ 10 * η ≤ u * (F * X)) (hη2 : 2 ^ 10 * η ≤ u * X) :
    X + B * (K * (X + 4 * (u * (6 * (K * X)) + η))) + 9 * (u * (6 * (K * X)) + η) ≤ 6 * (K * X) ∧
    F * (K * (X + 4 * (u * (6 * (K * X)) + η))) + 9 * (u * (2 * (K * (F * X))) + η) ≤ 2 * (K * (F * X)) ∧
    K * (4 * F * (u * (6 * (K * X)) + η) + 5 * (1 + B) * (u * (2 * (K * (F * X))) + η)) ≤ 70 * (K ^ 2 * (F * (u * X))) := by
  have hKX : 0 ≤ K * X := by positivity
  have hKX1 : X ≤ K * X := le_mul_of_one_le_left hX hK
  have huKX : u * X ≤ u * K * X := by
    have := mul_le_mul_of_nonneg_left hKX1 hu0; linarith
  obtain ⟨δ, hδ⟩ : ∃ δ, δ = u * (6 * (K * X)) + η := ⟨_, rfl⟩
  have hδ0 : 0 ≤ δ := by rw [hδ]; positivity
  have hδ1 : δ ≤ 6.001 * (u * K * X) := by
    have : (0:ℝ) ≤ u * K * X := by positivity
    rw [hδ]; norm_num at *; linarith
  have hδ2 : δ ≤ 0.0235 * X := by
    have := mul_le_mul_of_nonneg_right huK hX
    rw [hδ]; norm_num at *; linarith
  rw [← hδ]
  obtain ⟨Y, hY⟩ : ∃ Y, Y = F * X := ⟨_, rfl⟩
  have hY0 : 0 ≤ Y := by rw [hY]; positivity
  rw [← hY] at hη1 ⊢
  have hKY1 : Y ≤ K * Y := le_mul_of_one_le_left hY0 hK
  have hKY : 0 ≤ K * Y := by positivity
  have hFδ : F * δ ≤ 0.0235 * Y := by
    have := mul_le_mul_of_nonneg_left hδ2 hF; rw [hY]; linarith
  have hFδ1 : F * δ ≤ 6.001 * (u * K * Y) := by
    have := mul_le_mul_of_nonneg_left hδ1 hF; rw [hY]; linarith
  have huKY : u * Y ≤ u * K * Y := by
    have := mul_le_mul_of_nonneg_left hKY1 hu0; linarith
  have hd : u * (2 * (K * Y)) + η ≤ 2.001 * (u * K * Y) := by
    have : (0:ℝ) ≤ u * K * Y := by positivity
    norm_num at *; linarith
  have hd2 : u * (2 * (K * Y)) + η ≤ 0.01 * Y := by
    have := mul_le_mul_of_nonneg_right huK hY0
    norm_num at *; linarith
  refine ⟨?_, ?_, ?_⟩
  · have h1 : B * (K * (X + 4 * δ)) ≤ 3.1 * (K * (1.1 * X)) := by
      refine mul_le_mul hB ?_ (by positivity) (by norm_num)
      exact mul_le_mul_of_nonneg_left (by norm_num at *; linarith) (by linarith)
    norm_num at *
    linarith
  · have h1 : F * (K * (X + 4 * δ)) = K * (Y + 4 * (F * δ)) := by rw [hY]; ring
    have h2 : K * (Y + 4 * (F * δ)) ≤ K * (1.1 * Y) := mul_le_mul_of_nonneg_left (by norm_num at *; linarith) (by linarith)
    rw [h1]
    norm_num at *
    linarith
  · have e0 : K ^ 2 * (F * (u * X)) = K * (u * K * Y) := by rw [hY]; ring
    have e1 : 70 * (K * (u * K * Y)) = K * (70 * (u * K * Y)) := by ring
    rw [e0, e1]
    refine mul_le_mul_of_nonneg_left ?_ (by linarith)
    have h2 : 5 * (1 + B) * (u * (2 * (K * Y)) + η) ≤ 20.5 * (2.001 * (u * K * Y)) :=
      mul_le_mul (by norm_num at *; linarith) hd (by positivity) (by norm_num)
    have : 4 * F * δ = 4 * (F * δ) := by ring
    have h0 : (0:ℝ) ≤ u * K * Y := by positivity
    rw [this]
    norm_num at *
    linarith

end arith

variable {b : Biquad R} {k : Coeffs} {X : ℝ} {x : ℕ → R} {F : Option (R → R → R → R)} {out : ℕ → R}

/-- One section, any delay line: the error is proportional to the size of the feed forward coefficients. -/
theorem section_sharp (S : Type → Type) [StateType S R] [D : DelayLine R S] (r : Rounds R u η Ω)
    (hfm : ∀ fma ∈ F, r.Fused fma) (hrun : SecC F S b x out) (hv : r.Values b k) {K : ℝ} (hg : GainBound k K) (hB : k.back ≤ 3.1) (hx : r.Input X x)
    (huK : 2 ^ 8 * (u * K) ≤ 1) (hη1 : 2 ^ 10 * η ≤ u * (k.forward * X)) (hη2 : 2 ^ 10 * η ≤ u * X)
    (hΩ : 6 * (K * ((1 + k.forward) * X)) ≤ Ω) {y : ℕ → ℝ} (hy : k.DiffEq (fun n => r.val (x n)) y) :
    r.Within (70 * (K ^ 2 * (k.forward * (u * X)))) out y := by
  have hX : 0 ≤ X := (abs_nonneg _).trans (hx 0).2
  have hF := Coeffs_forward_nonneg k
  have hA := Coeffs_back_nonneg k
  have hK1 := hg.one_le
  have hK := hg.pos
  have hKX : 0 ≤ K * X := by positivity
  have hKFX : 0 ≤ K * (k.forward * X) := by positivity
  have hsplit : 6 * (K * ((1 + k.forward) * X)) = 6 * (K * X) + 6 * (K * (k.forward * X)) := by ring
  obtain ⟨a1, a2⟩ := sharp_arith1 r.u_nonneg r.η_nonneg hK1 hF hX hB huK hη1
  obtain ⟨c1, c2, c3⟩ := sharp_arith2 r.u_nonneg r.η_nonneg hK1 hF hX hB huK hη1 hη2
  have hM : 6 * (K * (k.forward * X)) ≤ Ω := by linarith
  have hM2 : 6 * (K * X) ≤ Ω := by linarith
  have hM3 : 2 * (K * (k.forward * X)) ≤ Ω := by linarith
  intro n
  cases D
  · exact ⟨(df1_run r hfm hrun hv hg hx (by positivity) hM a1 n).1,
      (deviation hg hv.a0 hy (fun n => (df1_run r hfm hrun hv hg hx (by positivity) hM a1 n).2) n).trans a2⟩
  · exact ⟨(df2_run r hfm hrun hv hg hx (by positivity) hM2 (by positivity) hM3 c1 c2 n).1,
      (deviation hg hv.a0 hy (fun n => (df2_run r hfm hrun hv hg hx (by positivity) hM2 (by positivity) hM3 c1 c2 n).2) n).trans c3⟩
  · exact ⟨(tdf2_run r hfm hrun hv hg hx (by positivity) hM a1 n).1,
      (deviation hg hv.a0 hy (fun n => (tdf2_run r hfm hrun hv hg hx (by positivity) hM a1 n).2) n).trans a2⟩

/-- The coefficients of `k'` are those of `k`: the feed back ones up to `δ`, the feed forward ones up to `β` times the sum
of their magnitudes. -/
structure Nearby (δ β : ℝ) (k' k : Coeffs) : Prop where
  a0 : k'.a0 = 1
  a0' : k.a0 = 1
  a1 : |k'.a1 - k.a1| ≤ δ
  a2 : |k'.a2 - k.a2| ≤ δ
  b : |k'.b0 - k.b0| + |k'.b1 - k.b1| + |k'.b2 - k.b2| ≤ β * k.forward

theorem gain_diffEq {K : ℝ} (hg : GainBound k K) (h0 : k.a0 = 1) {x y : ℕ → ℝ} (h : k.DiffEq x y) {X : ℝ}
    (hx : ∀ n, |x n| ≤ X) (n : ℕ) : |y n| ≤ K * (k.forward * X) := by
  refine hg.bound (d := y) (N := n + 1) (fun m _ => ?_) n (Nat.lt_succ_self n)
  have h2 := h m
  rw [h0, div_one] at h2
  have e : y m + k.a1 * delayed 1 y m + k.a2 * delayed 2 y m =
      k.b0 * x m + k.b1 * delayed 1 x m + k.b2 * delayed 2 x m := by linear_combination h2
  rw [e]
  refine (abs_add_three _ _ _).trans ?_
  rw [abs_mul, abs_mul, abs_mul, Coeffs.forward]
  have := mul_le_mul_of_nonneg_left (hx m) (abs_nonneg k.b0)
  have := mul_le_mul_of_nonneg_left (delayed_bound hx 1 m) (abs_nonneg k.b1)
  have := mul_le_mul_of_nonneg_left (delayed_bound hx 2 m) (abs_nonneg k.b2)
  linarith

/-- Two sections with nearby coefficients return nearby signals. -/
theorem nearby_diffEq {k' : Coeffs} {K δ β : ℝ} (hg : GainBound k K) (hn : Nearby δ β k' k) (hδ : 4 * (δ * K) ≤ 1)
    {x y y' : ℕ → ℝ} (h : k.DiffEq x y) (h' : k'.DiffEq x y') {X : ℝ} (hx : ∀ n, |x n| ≤ X) (n : ℕ) :
    |y n - y' n| ≤ 2 * K * (2 * (δ * (K * (k.forward * X))) + β * (k.forward * X)) := by
  have hg' := hg.close hn.a1 hn.a2 hδ
  have hX : 0 ≤ X := (abs_nonneg _).trans (hx 0)
  have hy := gain_diffEq hg hn.a0' h hx
  have hδ0 : 0 ≤ δ := (abs_nonneg _).trans hn.a1
  refine deviation hg' hn.a0 h' (fun m => ?_) n
  have h2 := h m
  rw [hn.a0', div_one] at h2
  have e : y m + k'.a1 * delayed 1 y m + k'.a2 * delayed 2 y m -
      (k'.b0 * x m + k'.b1 * delayed 1 x m + k'.b2 * delayed 2 x m) =
      ((k'.a1 - k.a1) * delayed 1 y m + (k'.a2 - k.a2) * delayed 2 y m) -
      ((k'.b0 - k.b0) * x m + (k'.b1 - k.b1) * delayed 1 x m + (k'.b2 - k.b2) * delayed 2 x m) := by
    linear_combination h2
  rw [e]
  refine (abs_sub _ _).trans ?_
  have t1 := abs_add_le ((k'.a1 - k.a1) * delayed 1 y m) ((k'.a2 - k.a2) * delayed 2 y m)
  have t2 := abs_add_three ((k'.b0 - k.b0) * x m) ((k'.b1 - k.b1) * delayed 1 x m) ((k'.b2 - k.b2) * delayed 2 x m)
  rw [abs_mul, abs_mul] at t1
  rw [abs_mul, abs_mul, abs_mul] at t2
  have s1 := mul_le_mul hn.a1 (delayed_bound hy 1 m) (abs_nonneg _) hδ0
  have s2 := mul_le_mul hn.a2 (delayed_bound hy 2 m) (abs_nonneg _) hδ0
  have := mul_le_mul_of_nonneg_left (hx m) (abs_nonneg (k'.b0 - k.b0))
  have := mul_le_mul_of_nonneg_left (delayed_bound hx 1 m) (abs_nonneg (k'.b1 - k.b1))
  have := mul_le_mul_of_nonneg_left (delayed_bound hx 2 m) (abs_nonneg (k'.b2 - k.b2))
  have := mul_le_mul_of_nonneg_right hn.b hX
  linarith

/-- The difference equation of a normalised section has a solution. -/
theorem diffEq_exists (k : Coeffs) (x : ℕ → ℝ) : ∃ y, k.DiffEq x y := by
  obtain ⟨y, h⟩ : ∃ y, DiffChain [k] x y := ⟨_, chain_diffChain [k] _⟩
  cases h with
  | cons h1 h2 => cases h2; exact ⟨_, h1⟩

/-- One section, designed and run with rounding errors: what is known about its distance from the ideal section. -/
theorem section_nearby (S : Type → Type) [StateType S R] [D : DelayLine R S] (r : Rounds R u η Ω)
    (hfm : ∀ fma ∈ F, r.Fused fma) (hrun : SecC F S b x out) {k' : Coeffs} (hv : r.Values b k') {K δ β : ℝ} (hg : GainBound k K) (hn : Nearby δ β k' k) (hδ : 4 * (δ * K) ≤ 1)
    (hδ' : δ ≤ 0.05) (hβ : β ≤ 1 / 2) (hB : k.back ≤ 3) (hx : r.Input X x) (huK : 2 ^ 9 * (u * K) ≤ 1)
    (hη1 : 2 ^ 11 * η ≤ u * (k.forward * X)) (hη2 : 2 ^ 10 * η ≤ u * X)
    (hΩ : 12 * (K * ((1 + 2 * k.forward) * X)) ≤ Ω) {y : ℕ → ℝ} (hy : k.DiffEq (fun n => r.val (x n)) y) :
    r.Within (K * k.forward * (4 * (δ * K) + 2 * β + 560 * (u * K)) * X) out y := by
  obtain ⟨y', hy'⟩ := diffEq_exists k' (fun n => r.val (x n))
  have hX : 0 ≤ X := (abs_nonneg _).trans (hx 0).2
  have hu0 := r.u_nonneg
  have hF := Coeffs_forward_nonneg k
  have hF' := Coeffs_forward_nonneg k'
  have hK := hg.pos
  have hg' := hg.close hn.a1 hn.a2 hδ
  have hB' : k'.back ≤ 3.1 := by
    unfold Coeffs.back at hB ⊢
    have := abs_sub_abs_le_abs_sub k'.a1 k.a1
    have := abs_sub_abs_le_abs_sub k'.a2 k.a2
    have := hn.a1
    have := hn.a2
    norm_num at *
    linarith
  have hd : |k'.forward - k.forward| ≤ β * k.forward := by
    refine le_trans ?_ hn.b
    have e0 := abs_abs_sub_abs_le k'.b0 k.b0
    have e1 := abs_abs_sub_abs_le k'.b1 k.b1
    have e2 := abs_abs_sub_abs_le k'.b2 k.b2
    rw [abs_le] at e0 e1 e2
    unfold Coeffs.forward
    exact abs_le.2 ⟨by linarith, by linarith⟩
  have hβF : β * k.forward ≤ 1 / 2 * k.forward := mul_le_mul_of_nonneg_right hβ hF
  rw [abs_le] at hd
  have hlo : k.forward ≤ 2 * k'.forward := by linarith
  have hhi : k'.forward ≤ 2 * k.forward := by linarith
  have hw := section_sharp S r hfm hrun hv hg' hB' hx (by norm_num at *; linarith) (by
    have : u * (k.forward * X) ≤ u * (2 * k'.forward * X) := by gcongr
    norm_num at *
    linarith) hη2 (by
    refine le_trans ?_ hΩ
    have : K * ((1 + k'.forward) * X) ≤ K * ((1 + 2 * k.forward) * X) := by gcongr
    linarith) hy'
  intro n
  refine ⟨(hw n).1, ?_⟩
  have h1 := (hw n).2
  have h2 := nearby_diffEq hg hn hδ hy hy' (fun n => (hx n).2) n
  rw [abs_sub_comm] at h2
  refine (abs_sub_le _ (y' n) _).trans ((add_le_add h1 h2).trans ?_)
  have : (2 * K) ^ 2 * (k'.forward * (u * X)) ≤ (2 * K) ^ 2 * (2 * k.forward * (u * X)) := by gcongr
  nlinarith

end Iir
