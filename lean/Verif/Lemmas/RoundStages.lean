import Verif.Lemmas.RoundScale
import Verif.Lemmas.RoundGains

/-! # The sections `setLayout` stores: their distance from the ideal sections -/

namespace Iir
open FArith Spec Cx Biquad Cascade

variable {R : Type} [FArith R] {u η Ω : ℝ} {r : Rounds R u η Ω}

/-- The same arithmetic, with a larger error bound. -/
def Spec.Rounds.coarse (r : Rounds R u η Ω) {u' : ℝ} (h : u ≤ u') : Rounds R u' η Ω where
  Fin := r.Fin
  val := r.val
  u_nonneg := r.u_nonneg.trans h
  η_nonneg := r.η_nonneg
  zero := r.zero
  add x y hx hy hb := ⟨(r.add x y hx hy hb).1, (r.add x y hx hy hb).2.trans
    (by have := mul_le_mul_of_nonneg_right h (abs_nonneg (r.val x + r.val y)); linarith)⟩
  sub x y hx hy hb := ⟨(r.sub x y hx hy hb).1, (r.sub x y hx hy hb).2.trans
    (by have := mul_le_mul_of_nonneg_right h (abs_nonneg (r.val x - r.val y)); linarith)⟩
  mul x y hx hy hb := ⟨(r.mul x y hx hy hb).1, (r.mul x y hx hy hb).2.trans
    (by have := mul_le_mul_of_nonneg_right h (abs_nonneg (r.val x * r.val y)); linarith)⟩

theorem Spec.Rounds.Fused.coarse {fma : R → R → R → R} (hf : r.Fused fma) {u' : ℝ} (h : u ≤ u') : (r.coarse h).Fused fma where
  neg := hf.neg
  fma a b c ha hb hc hΩ := ⟨(hf.fma a b c ha hb hc hΩ).1, (hf.fma a b c ha hb hc hΩ).2.trans
    (by have := mul_le_mul_of_nonneg_right h (abs_nonneg (r.val a * r.val b + r.val c))
        show _ ≤ u' * |r.val a * r.val b + r.val c| + η
        linarith)⟩

/-- An ideal section of a low or high pass before scaling, and its gain. -/
structure Ideal (s : ℝ) (k : Coeffs) (g : ℝ) : Prop extends Tame s k g where
  a0 : k.a0 = 1
  gain : GainBound k g
  fwd : 1 + s * k.b1 + k.b2 = k.forward
  g_le : g ≤ 2 ^ 26
  fwd_le : k.forward ≤ 4
  bot_le : 1 + s * k.a1 + k.a2 ≤ k.forward

/-- The feed forward coefficients scaled. -/
noncomputable def scaleK (c : ℝ) (k : Coeffs) : Coeffs := { k with b0 := c * k.b0, b1 := c * k.b1, b2 := c * k.b2 }

theorem scaleK_forward {c : ℝ} (hc : 0 ≤ c) (k : Coeffs) : (scaleK c k).forward = c * k.forward := by
  simp only [scaleK, Coeffs.forward, abs_mul, abs_of_nonneg hc]; ring

section ops
variable (hl : r.Library)
include hl

/-- `setLayout`, for layouts of low and high passes. -/
theorem setLayout_near {s : ℝ} {l : Layout R} {c : Cascade R} {M m : ℕ} (hc : c.Ok M) (hm : (l.numPoles + 1) / 2 = m + 1)
    (hm8 : m + 1 ≤ 8) (hlen : m + 1 ≤ l.pairs.length) (hM : m + 1 ≤ M) {K : ℕ → Coeffs} {G : ℕ → ℝ}
    (hp : ∀ i < m + 1, ∃ pr, l.pairs[i]? = some pr ∧ r.PairIs s pr (K i)) (hK : ∀ i < m + 1, Ideal s (K i) (G i))
    (hf : AtEnd r s (l.normalW / (2 * pi))) (hg : r.In l.normalGain 1 1) :
    ∃ c' bI f, ∃ B : ℕ → Biquad R, Cascade.setLayout l c = (.ok (), c') ∧ identR = .ok bI ∧ c'.numStages = m + 1 ∧
      c'.stages = scaled f (B 0) :: ((List.range m).map (fun i => B (i + 1)) ++ List.replicate (M - (m + 1)) bI) ∧
      (∀ i < m + 1, ∃ k', Sect r s (B i) k' ∧ CoefNear r (B i) (K i)) ∧ (r.Fin f ∧ |r.val f| ≤ 2 ^ 303) ∧
      Rel (r.val f) ((∏ i ∈ Finset.range (m + 1), (1 + s * (K i).a1 + (K i).a2)) / ∏ i ∈ Finset.range (m + 1), (1 + s * (K i).b1 + (K i).b2))
        (0.86 * (∑ i ∈ Finset.range (m + 1), G i) / 2 ^ 32) := by
  obtain ⟨b0, k0, hi, hk0⟩ := ident_sect hl
  have htl : (l.pairs.take (m + 1)).length = m + 1 := by rw [List.length_take]; omega
  obtain ⟨qs, e1, e2, e3⟩ : ∃ qs, placePairs (l.pairs.take (m + 1)) (List.replicate M b0) =
      (.ok (), qs ++ (List.replicate M b0).drop (l.pairs.take (m + 1)).length) ∧ qs.length = m + 1 ∧
      ∀ i < m + 1, ∃ q k', qs[i]? = some q ∧ Sect r s q k' ∧ CoefNear r q (K i) := by
    have key : ∀ (ps : List (PoleZeroPair R)) (bs : List (Biquad R)) (K : ℕ → Coeffs), ps.length ≤ bs.length →
        (∀ i < ps.length, ∃ pr, ps[i]? = some pr ∧ r.PairIs s pr (K i)) →
        ∃ qs, placePairs ps bs = (.ok (), qs ++ bs.drop ps.length) ∧ qs.length = ps.length ∧
          ∀ i < ps.length, ∃ q k', qs[i]? = some q ∧ Sect r s q k' ∧ CoefNear r q (K i) := by
      intro ps
      induction ps with
      | nil => exact fun bs K _ _ => ⟨[], by cases bs <;> rfl, rfl, by simp⟩
      | cons p ps ih =>
        intro bs K h hp
        cases bs with
        | nil => simp at h
        | cons b bs =>
          obtain ⟨pr, h1, h2⟩ := hp 0 (by simp)
          obtain rfl : p = pr := by simpa using h1
          obtain ⟨q, k', e, hq⟩ := pair_near hl hf.sign h2
          obtain ⟨qs, e1, e2, e3⟩ := ih bs (fun i => K (i + 1)) (by simpa using h) fun i hi => by
            obtain ⟨pr, h1, h2⟩ := hp (i + 1) (by simpa using hi)
            exact ⟨pr, by simpa using h1, h2⟩
          refine ⟨q :: qs, by simp [placePairs, e, e1], by simp [e2], fun i hi => ?_⟩
          cases i with
          | zero => exact ⟨q, k', by simp, hq⟩
          | succ i =>
            obtain ⟨q', k'', h1, h2⟩ := e3 i (by simpa using hi)
            exact ⟨q', k'', by simpa using h1, h2⟩
    obtain ⟨qs, h1, h2, h3⟩ := key (l.pairs.take (m + 1)) (List.replicate M b0) K (by rw [htl, List.length_replicate]; exact hM)
      (fun i hi => by
        rw [htl] at hi
        obtain ⟨pr, h1, h2⟩ := hp i hi
        exact ⟨pr, by rw [List.getElem?_take_of_lt hi, h1], h2⟩)
    rw [htl] at h2 h3
    exact ⟨qs, h1, h2, h3⟩
  rw [htl, List.drop_replicate] at e1
  obtain ⟨h, e4, g1, g2⟩ := factor_close hl hf hg (n := m + 1)
    (c := { numStages := m + 1, maxStages := M, stages := qs ++ List.replicate (M - (m + 1)) b0 }) rfl (by omega) hm8
    (K := K) (G := G) (fun i hi => by
      obtain ⟨q, k', h1, h2, h3⟩ := e3 i hi
      exact ⟨q, k', by rw [List.getElem?_append_left (by omega), h1], h2, h3, (hK i hi).toTame⟩) (by
      have : ∑ i ∈ Finset.range (m + 1), G i ≤ ∑ i ∈ Finset.range (m + 1), (2 ^ 26 : ℝ) :=
        Finset.sum_le_sum fun i hi => (hK i (Finset.mem_range.1 hi)).g_le
      refine this.trans ?_
      rw [Finset.sum_const, Finset.card_range, nsmul_eq_mul]
      have : ((m + 1 : ℕ) : ℝ) ≤ 8 := by exact_mod_cast hm8
      norm_num at this ⊢
      linarith)
  obtain ⟨q, qs', rfl⟩ : ∃ q qs', qs = q :: qs' := by
    cases qs with
    | nil => simp at e2
    | cons q qs => exact ⟨q, qs, rfl⟩
  refine ⟨{ numStages := m + 1, maxStages := M, stages := scaled (l.normalGain / cabs h) q :: (qs' ++ List.replicate (M - (m + 1)) b0) },
    b0, l.normalGain / cabs h, fun i => ((q :: qs')[i]?).getD b0, ?_, hi, rfl, ?_, ?_, g1, g2⟩
  · rw [setLayout_eq hc hi (by omega) (by omega)]
    simp only [hm]
    rw [e1]
    simp only
    unfold finish
    simp only
    rw [e4]
    simp only [show ¬ m + 1 < 1 by omega, if_false, List.cons_append, List.modify_zero_cons]
  · show scaled _ q :: _ = _
    congr 1
    congr 1
    apply List.ext_getElem
    · simp at e2 ⊢; omega
    · intro i h1 h2
      simp [List.getElem?_eq_getElem h1]
  · intro i hi
    obtain ⟨q', k', h1, h2⟩ := e3 i hi
    exact ⟨k', by simp only [h1, Option.getD_some]; exact h2⟩


/-- A section close to an ideal one meets its error bound. -/
theorem sound_of (S : Type → Type) [StateType S R] [DelayLine R S] {b : Biquad R} {k' k : Coeffs} {G δ β e : ℝ}
    (hv : r.Values b k') (hg : GainBound k G) (hn : Nearby δ β k' k) (hG : G ≤ 2 ^ 26) (hδ0 : 0 ≤ δ) (hδ : δ ≤ 1 / 2 ^ 38)
    (hβ0 : 0 ≤ β) (hβ : β ≤ 1 / 2) (hF : 1 / 2 ^ 230 ≤ k.forward) (hF4 : k.forward ≤ 4) (hB : k.back ≤ 3)
    (he : 4 * (δ * G) + 2 * β + 560 * (1 / 2 ^ 53 * G) ≤ e) :
    (⟨b, k, G * k.forward, e⟩ : Stage R).Sound S (r.coarse hl.u_le) (1 / 2 ^ 640) (2 ^ 700) := by
  have hG0 := hg.pos
  have hF0 := Coeffs_forward_nonneg k
  have hδG : δ * G ≤ 1 / 2 ^ 38 * 2 ^ 26 := mul_le_mul hδ hG hG0.le (by positivity)
  refine ⟨hn.a0', by positivity, le_trans (by positivity) he, ?_, ?_⟩
  · intro x y X hy hx n
    have := gain_diffEq hg hn.a0' hy hx n
    rwa [← mul_assoc] at this
  · intro F hfm X x out y hrun hx hlo hhi hy
    have hX : 0 ≤ X := le_trans (by positivity) hlo
    have hη := tiny_le hl (n := 940) (by norm_num)
    have hη0 := r.η_nonneg
    have key : ∀ {f : ℝ}, 1 / 2 ^ 230 ≤ f → 2 ^ 4 * (1 / 2 ^ 940 : ℝ) ≤ (1 / 2 ^ 60) * (f * X) := by
      intro f hf
      have h1 : (1 : ℝ) / 2 ^ 230 * (1 / 2 ^ 640) ≤ f * X := mul_le_mul hf hlo (by positivity) (le_trans (by positivity) hf)
      refine le_trans ?_ (mul_le_mul_of_nonneg_left h1 (by positivity))
      rw [one_div_mul_one_div, one_div_mul_one_div, ← pow_add, ← pow_add, mul_one_div,
        div_le_div_iff₀ (by positivity) (by positivity), one_mul, ← pow_add]
      exact pow_le_pow_right₀ (by norm_num) (by norm_num)
    have k1 := key hF
    have k2 := key (f := 1) (by rw [div_le_one (by positivity)]; exact one_le_pow₀ (by norm_num))
    rw [one_mul] at k2
    have w := section_nearby S (r.coarse hl.u_le) hfm hrun (b := b) (k' := k') (k := k) ⟨hv.a0, hv.a1, hv.a2, hv.b0, hv.b1, hv.b2⟩ hg hn
      (by norm_num at hδG ⊢; linarith) (hδ.trans (by norm_num)) hβ hB hx
      (by norm_num at hG ⊢; linarith) ?_ ?_ ?_ hy
    · intro n
      refine ⟨(w n).1, (w n).2.trans ?_⟩
      exact mul_le_mul_of_nonneg_right (mul_le_mul_of_nonneg_left he (by positivity)) hX
    · have : 0 ≤ k.forward * X := by positivity
      generalize k.forward * X = Y at *
      generalize (1 : ℝ) / 2 ^ 940 = Z at *
      clear key hlo hhi hF
      norm_num at *
      linarith
    · generalize (1 : ℝ) / 2 ^ 940 = Z at *
      clear key hlo hhi hF
      norm_num at *
      linarith
    · have h1 : (1 + 2 * k.forward) * X ≤ 2 ^ 4 * 2 ^ 700 := mul_le_mul (by linarith) hhi hX (by positivity)
      have h2 : G * ((1 + 2 * k.forward) * X) ≤ 2 ^ 26 * (2 ^ 4 * 2 ^ 700) := mul_le_mul hG h1 (by positivity) (by positivity)
      refine le_trans ?_ hl.Ω_huge
      calc 12 * (G * ((1 + 2 * k.forward) * X)) ≤ 2 ^ 4 * (2 ^ 26 * (2 ^ 4 * 2 ^ 700)) :=
            mul_le_mul (by norm_num) h2 (by positivity) (by positivity)
        _ = 2 ^ 734 := by rw [← pow_add, ← pow_add, ← pow_add]
        _ ≤ 2 ^ 1000 := pow_le_pow_right₀ (by norm_num) (by norm_num)

omit hl in
theorem CoefNear.nearby {s : ℝ} {b : Biquad R} {k' k : Coeffs} {G : ℝ} (h : CoefNear r b k) (hs : Sect r s b k') (hi : Ideal s k G) :
    Nearby (1 / 2 ^ 38) (1 / 2 ^ 46) k' k := by
  obtain ⟨v0, v1, v2, v3, v4, v5⟩ := hs.values
  have F := hi.fwd
  have T := hi.top
  refine ⟨v0, hi.a0, by rw [← v1.2]; exact h.a1, by rw [← v2.2]; exact h.a2, ?_⟩
  rw [← v3.2, ← v4.2, ← v5.2, ← F]
  have := h.b0
  have := h.b1
  have := h.b2
  norm_num at *
  linarith

omit hl in
theorem Ideal.back_le {s : ℝ} {k : Coeffs} {G : ℝ} (h : Ideal s k G) : k.back ≤ 3 := by
  unfold Coeffs.back
  have := h.a1
  have := h.a2
  linarith

/-- An unscaled section. -/
theorem sound_plain (S : Type → Type) [StateType S R] [DelayLine R S] {s : ℝ} {b : Biquad R} {k' k : Coeffs} {G : ℝ}
    (hs : Sect r s b k') (h : CoefNear r b k) (hi : Ideal s k G) :
    (⟨b, k, G * k.forward, 1.01 / 2 ^ 36 * G⟩ : Stage R).Sound S (r.coarse hl.u_le) (1 / 2 ^ 640) (2 ^ 700) := by
  have F := hi.fwd
  have T := hi.top
  have g1 := hi.one_le
  refine sound_of hl S hs.values hi.gain (h.nearby hs hi) hi.g_le (by norm_num) le_rfl (by norm_num) (by norm_num) ?_ hi.fwd_le hi.back_le ?_
  · rw [← F]
    refine le_trans ?_ T
    rw [div_le_iff₀ (by positivity)]
    have : (1 : ℝ) ≤ 2 ^ 230 := one_le_pow₀ (by norm_num)
    linarith
  · norm_num
    linarith

/-- The identity. -/
theorem sound_ident (S : Type → Type) [StateType S R] [DelayLine R S] {b : Biquad R} (hb : identR = .ok b) :
    (⟨b, idK, 1, 1 / 2 ^ 43⟩ : Stage R).Sound S (r.coarse hl.u_le) (1 / 2 ^ 640) (2 ^ 700) := by
  obtain ⟨b', k0, e, hk⟩ := ident_sect hl
  obtain rfl : b = b' := by rw [e] at hb; exact (Res.ok.inj hb).symm
  obtain ⟨i1, i2, i3, i4, i5⟩ := ident_near hl hb
  obtain ⟨v0, v1, v2, v3, v4, v5⟩ := hk.values
  have fw : idK.forward = 1 := by simp [idK, Coeffs.forward]
  have hg : GainBound idK 1 := by
    intro d E N h n hn
    have := h n hn
    simpa [idK] using this
  have := sound_of hl S (b := b) (k' := k0) (k := idK) (G := 1) (δ := 0) (β := 1 / 2 ^ 49) (e := 1 / 2 ^ 43) hk.values hg
    ⟨v0, rfl, by rw [← v1.2, i1]; simp [idK], by rw [← v2.2, i2]; simp [idK], by
      rw [← v3.2, ← v4.2, ← v5.2, i4, i5, fw]
      simpa [idK] using i3⟩
    (by norm_num) le_rfl (by norm_num) (by norm_num) (by norm_num) (by
      rw [fw, div_le_one (by positivity)]; exact one_le_pow₀ (by norm_num)) (by rw [fw]; norm_num)
    (by simp [idK, Coeffs.back]) (by norm_num)
  rwa [fw, one_mul] at this


omit hl in
/-- One scaled coefficient, in real numbers. -/
theorem coef_scaled {v b κ f c E η' : ℝ} (hc : 0 < c) (hE : E ≤ 1) (hb : |b - κ| ≤ 1 / 2 ^ 47)
    (hf : Rel f c E) (hη : η' ≤ c / 2 ^ 60) (hv : |v - b * f| ≤ 1 / 2 ^ 53 * |b * f| + η') :
    |v - c * κ| ≤ c * (|κ| * (E + 1 / 2 ^ 52) + 1 / 2 ^ 45) := by
  unfold Rel at hf
  have hf1 : |f| ≤ 2 * c := by
    have := abs_le.1 hf
    have : E * c ≤ c := mul_le_of_le_one_left hc.le hE
    exact abs_le.2 ⟨by linarith, by linarith⟩
  have hb1 : |b| ≤ |κ| + 1 / 2 ^ 47 := by
    have := abs_sub_abs_le_abs_sub b κ; linarith
  have hbf : |b * f| ≤ (|κ| + 1 / 2 ^ 47) * (2 * c) := by
    rw [abs_mul]; exact mul_le_mul hb1 hf1 (abs_nonneg _) (by positivity)
  have h1 : |b * f - c * κ| ≤ 1 / 2 ^ 47 * (2 * c) + |κ| * (E * c) := by
    have e : b * f - c * κ = (b - κ) * f + κ * (f - c) := by ring
    rw [e]
    refine (abs_add_le _ _).trans ?_
    rw [abs_mul, abs_mul]
    exact add_le_add (mul_le_mul hb hf1 (abs_nonneg _) (by positivity)) (mul_le_mul_of_nonneg_left hf (abs_nonneg _))
  refine (abs_sub_le _ (b * f) _).trans ?_
  have hκ := abs_nonneg κ
  have hκc : 0 ≤ |κ| * c := by positivity
  generalize |κ| = k at *
  norm_num at *
  nlinarith

/-- The scaled section. -/
theorem sound_head (S : Type → Type) [StateType S R] [DelayLine R S] {s : ℝ} {b : Biquad R} {k' k : Coeffs} {G c σ : ℝ} {f : R}
    (hs : Sect r s b k') (h : CoefNear r b k) (hi : Ideal s k G) (hf : r.Fin f) (hfb : |r.val f| ≤ 2 ^ 303)
    (hc : 1 / 2 ^ 228 ≤ c) (hc1 : c ≤ 1) (hσ : 1 ≤ σ) (hσ' : σ ≤ 2 ^ 29) (hr : Rel (r.val f) c (0.86 * σ / 2 ^ 32)) :
    (⟨scaled f b, scaleK c k, G * (scaleK c k).forward, 1.01 / 2 ^ 36 * G + 0.87 * σ / 2 ^ 31⟩ : Stage R).Sound S (r.coarse hl.u_le)
      (1 / 2 ^ 640) (2 ^ 700) := by
  have c0 : 0 < c := lt_of_lt_of_le (by positivity) hc
  have F := hi.fwd
  have T := hi.top
  have g1 := hi.one_le
  have hη : η ≤ c / 2 ^ 60 := by
    have t := tiny_le hl (n := 288) (by norm_num)
    have e : (1 : ℝ) / 2 ^ 288 = 1 / 2 ^ 228 / 2 ^ 60 := by rw [div_div, ← pow_add]
    have := r.η_nonneg
    rw [e] at t
    have t2 := t.trans (div_le_div_of_nonneg_right hc (by positivity : (0 : ℝ) ≤ 2 ^ 60))
    clear t e hc
    linarith
  have key : ∀ {x : R}, r.In x (-9) 9 → r.Fin (x * f) ∧ |r.val (x * f) - r.val x * r.val f| ≤ 1 / 2 ^ 53 * |r.val x * r.val f| + η := by
    intro x hx
    obtain ⟨m1, m2⟩ := r.mul x f hx.1 hf (by
      rw [abs_mul]
      calc |r.val x| * |r.val f| ≤ 2 ^ 4 * 2 ^ 303 :=
            mul_le_mul ((abs_le.2 hx.2).trans (by norm_num)) hfb (abs_nonneg _) (by norm_num)
        _ = 2 ^ 307 := by rw [← pow_add]
        _ ≤ 2 ^ 1000 := pow_le_pow_right₀ (by norm_num) (by norm_num)
        _ ≤ Ω := hl.Ω_huge)
    refine ⟨m1, m2.trans ?_⟩
    have := mul_le_mul_of_nonneg_right hl.u_le (abs_nonneg (r.val x * r.val f))
    linarith
  obtain ⟨v0, v1, v2, -, -, -⟩ := hs.values
  have E1 : 0.86 * σ / 2 ^ 32 ≤ 1 := by norm_num at hσ' ⊢; linarith
  have d0 := coef_scaled c0 E1 h.b0 hr hη (key hs.b0).2
  have d1 := coef_scaled c0 E1 h.b1 hr hη (key hs.b1).2
  have d2 := coef_scaled c0 E1 h.b2 hr hη (key hs.b2).2
  have n0 := h.nearby hs hi
  have fs := scaleK_forward c0.le k
  refine sound_of hl S (k' := { k' with b0 := r.val (b.b0 * f), b1 := r.val (b.b1 * f), b2 := r.val (b.b2 * f) })
    (δ := 1 / 2 ^ 38) (β := 0.87 * σ / 2 ^ 32)
    ⟨v0, v1, v2, ⟨(key hs.b0).1, rfl⟩, ⟨(key hs.b1).1, rfl⟩, ⟨(key hs.b2).1, rfl⟩⟩ hi.gain ⟨n0.a0, n0.a0', n0.a1, n0.a2, ?_⟩ hi.g_le
    (by norm_num) le_rfl (by positivity) (by norm_num at hσ' ⊢; linarith) ?_ ?_ hi.back_le ?_
  · rw [fs]
    refine (add_le_add (add_le_add d0 d1) d2).trans ?_
    have e : c * (|k.b0| * (0.86 * σ / 2 ^ 32 + 1 / 2 ^ 52) + 1 / 2 ^ 45) + c * (|k.b1| * (0.86 * σ / 2 ^ 32 + 1 / 2 ^ 52) + 1 / 2 ^ 45) +
        c * (|k.b2| * (0.86 * σ / 2 ^ 32 + 1 / 2 ^ 52) + 1 / 2 ^ 45) =
        c * (k.forward * (0.86 * σ / 2 ^ 32 + 1 / 2 ^ 52) + 3 / 2 ^ 45) := by unfold Coeffs.forward; ring
    have e2 : 0.87 * σ / 2 ^ 32 * (c * k.forward) = c * (k.forward * (0.87 * σ / 2 ^ 32)) := by ring
    rw [e, e2]
    refine mul_le_mul_of_nonneg_left ?_ c0.le
    have F2 : 2 ≤ k.forward := by linarith
    clear e e2 hc hfb
    generalize k.forward = F at *
    norm_num at *
    nlinarith
  · rw [fs]
    have F2 : 2 ≤ k.forward := by linarith
    have : (1 : ℝ) / 2 ^ 230 ≤ 1 / 2 ^ 228 := one_div_le_one_div_of_le (by positivity) (pow_le_pow_right₀ (by norm_num) (by norm_num))
    exact this.trans (hc.trans (le_mul_of_one_le_right c0.le (by linarith)))
  · rw [fs]
    exact (mul_le_of_le_one_left (Coeffs_forward_nonneg k) hc1).trans hi.fwd_le
  · norm_num
    linarith


omit hl in
theorem list_prod_range (f : ℕ → ℝ) (n : ℕ) : ((List.range n).map f).prod = ∏ i ∈ Finset.range n, f i := by
  rw [Finset.prod_eq_multiset_prod, Finset.range_val, ← Multiset.coe_range, Multiset.map_coe, Multiset.prod_coe]

omit hl in
theorem list_sum_range (f : ℕ → ℝ) (n : ℕ) : ((List.range n).map f).sum = ∑ i ∈ Finset.range n, f i := by
  rw [Finset.sum_eq_multiset_sum, Finset.range_val, ← Multiset.coe_range, Multiset.map_coe, Multiset.sum_coe]

/-- The ideal sections of a low or high pass: the first one scaled, identities at the end. -/
noncomputable def idealChain (c : ℝ) (K : ℕ → Coeffs) (m j : ℕ) : List Coeffs :=
  scaleK c (K 0) :: ((List.range m).map (fun i => K (i + 1)) ++ List.replicate j idK)

/-- The scale factor of the ideal filter. -/
noncomputable def idealScale (s : ℝ) (K : ℕ → Coeffs) (m : ℕ) : ℝ :=
  (∏ i ∈ Finset.range (m + 1), (1 + s * (K i).a1 + (K i).a2)) / ∏ i ∈ Finset.range (m + 1), (1 + s * (K i).b1 + (K i).b2)

omit hl in
theorem Ideal.ratio {s : ℝ} {k : Coeffs} {g : ℝ} (h : Ideal s k g) :
    1 / 2 ^ 28 ≤ (1 + s * k.a1 + k.a2) / (1 + s * k.b1 + k.b2) ∧ (1 + s * k.a1 + k.a2) / (1 + s * k.b1 + k.b2) ≤ 1 := by
  have T := h.top
  have B := h.bot
  have L := h.bot_le
  have F4 := h.fwd_le
  have F := h.fwd
  have g1 := h.one_le
  have g2 := h.g_le
  have b0 : 1 ≤ 2 ^ 26 * (1 + s * k.a1 + k.a2) := by
    have : 0 ≤ 1 + s * k.a1 + k.a2 := by
      by_contra hc
      have := mul_nonpos_of_nonneg_of_nonpos (by linarith : 0 ≤ g) (not_le.1 hc).le
      linarith
    exact B.trans (mul_le_mul_of_nonneg_right g2 this)
  rw [div_le_div_iff₀ (by positivity) (by linarith), div_le_one (by linarith)]
  norm_num at b0 ⊢
  exact ⟨by linarith, by linarith⟩

omit hl in
theorem idealScale_bounds {s : ℝ} {K : ℕ → Coeffs} {G : ℕ → ℝ} {m : ℕ} (hm : m + 1 ≤ 8) (hK : ∀ i < m + 1, Ideal s (K i) (G i)) :
    1 / 2 ^ 224 ≤ idealScale s K m ∧ idealScale s K m ≤ 1 := by
  unfold idealScale
  rw [← Finset.prod_div_distrib]
  constructor
  · have h1 : ∏ _i ∈ Finset.range (m + 1), (1 / 2 ^ 28 : ℝ) ≤ ∏ i ∈ Finset.range (m + 1),
        (1 + s * (K i).a1 + (K i).a2) / (1 + s * (K i).b1 + (K i).b2) :=
      Finset.prod_le_prod (fun _ _ => by positivity) fun i hi => (hK i (Finset.mem_range.1 hi)).ratio.1
    refine le_trans ?_ h1
    rw [Finset.prod_const, Finset.card_range, one_div_pow, ← pow_mul]
    exact one_div_le_one_div_of_le (by positivity) (pow_le_pow_right₀ (by norm_num) (by omega))
  · exact Finset.prod_le_one (fun i hi => le_trans (by positivity) (hK i (Finset.mem_range.1 hi)).ratio.1)
      fun i hi => (hK i (Finset.mem_range.1 hi)).ratio.2

/-- **The stored chain against the ideal chain.** -/
theorem chain_near (S : Type → Type) [StateType S R] [DelayLine R S] {F : Option (R → R → R → R)} (hfm : ∀ fma ∈ F, r.Fused fma) {s : ℝ} {K : ℕ → Coeffs} {G : ℕ → ℝ} {m j : ℕ} (hm : m + 1 ≤ 8)
    (hj : j ≤ 2 ^ 30) (hK : ∀ i < m + 1, Ideal s (K i) (G i)) {bI : Biquad R} (hI : identR = .ok bI) {B : ℕ → Biquad R}
    (hB : ∀ i < m + 1, ∃ k', Sect r s (B i) k' ∧ CoefNear r (B i) (K i)) {f : R} (hf : r.Fin f) (hfb : |r.val f| ≤ 2 ^ 303)
    (hr : Rel (r.val f) (idealScale s K m) (0.86 * (∑ i ∈ Finset.range (m + 1), G i) / 2 ^ 32))
    {X : ℝ} {x out : ℕ → R} {y : ℕ → ℝ}
    (hrun : ChainC F S (scaled f (B 0) :: ((List.range m).map (fun i => B (i + 1)) ++ List.replicate j bI)) x out)
    (hx : r.Input X x) (hX1 : 1 / 2 ^ 400 ≤ X) (hX2 : X ≤ 2 ^ 400)
    (hy : DiffChain (idealChain (idealScale s K m) K m j) (fun n => r.val (x n)) y) :
    r.Within (1 / 2 ^ 30 * (∏ i ∈ Finset.range (m + 1), G i * (1 + s * (K i).a1 + (K i).a2)) *
        (∑ i ∈ Finset.range (m + 1), G i + j) * X) out y := by
  obtain ⟨c1, c2⟩ := idealScale_bounds hm hK
  have c0 : 0 < idealScale s K m := lt_of_lt_of_le (by positivity) c1
  obtain ⟨c, hc⟩ : ∃ c, c = idealScale s K m := ⟨_, rfl⟩
  obtain ⟨σ, hσ⟩ : ∃ σ, σ = ∑ i ∈ Finset.range (m + 1), G i := ⟨_, rfl⟩
  have hcF : c * (∏ i ∈ Finset.range (m + 1), (K i).forward) = ∏ i ∈ Finset.range (m + 1), (1 + s * (K i).a1 + (K i).a2) := by
    have e : ∏ i ∈ Finset.range (m + 1), (K i).forward = ∏ i ∈ Finset.range (m + 1), (1 + s * (K i).b1 + (K i).b2) :=
      Finset.prod_congr rfl fun i hi => (hK i (Finset.mem_range.1 hi)).fwd.symm
    rw [hc, e, idealScale, div_mul_cancel₀]
    rw [← e]
    refine (Finset.prod_pos fun i hi => ?_).ne'
    have := (hK i (Finset.mem_range.1 hi))
    rw [← this.fwd]; linarith [this.top]
  rw [← hc] at c0 c1 c2 hr hy
  rw [← hσ] at hr ⊢
  have g1 : ∀ i < m + 1, 1 ≤ G i := fun i hi => (hK i hi).one_le
  have σ1 : 1 ≤ σ := by
    rw [hσ, Finset.sum_range_succ']
    have : 0 ≤ ∑ i ∈ Finset.range m, G (i + 1) := Finset.sum_nonneg fun i hi => by
      have := g1 (i + 1) (by have := Finset.mem_range.1 hi; omega); linarith
    linarith [g1 0 (by omega)]
  have σ2 : σ ≤ 2 ^ 29 := by
    have : σ ≤ ∑ i ∈ Finset.range (m + 1), (2 ^ 26 : ℝ) := by
      rw [hσ]; exact Finset.sum_le_sum fun i hi => (hK i (Finset.mem_range.1 hi)).g_le
    refine this.trans ?_
    rw [Finset.sum_const, Finset.card_range, nsmul_eq_mul]
    have : ((m + 1 : ℕ) : ℝ) ≤ 8 := by exact_mod_cast hm
    norm_num at this ⊢
    linarith
  obtain ⟨k0, s0, n0⟩ := hB 0 (by omega)
  obtain ⟨hd, hhd⟩ : ∃ hd : Stage R, hd = ⟨scaled f (B 0), scaleK c (K 0), G 0 * (scaleK c (K 0)).forward,
    1.01 / 2 ^ 36 * G 0 + 0.87 * σ / 2 ^ 31⟩ := ⟨_, rfl⟩
  obtain ⟨tl, htl⟩ : ∃ tl : List (Stage R), tl = (List.range m).map (fun i => ⟨B (i + 1), K (i + 1), G (i + 1) * (K (i + 1)).forward,
    1.01 / 2 ^ 36 * G (i + 1)⟩) ++ List.replicate j ⟨bI, idK, 1, 1 / 2 ^ 43⟩ := ⟨_, rfl⟩
  have shd : hd.Sound S (r.coarse hl.u_le) (1 / 2 ^ 640) (2 ^ 700) := by
    rw [hhd]
    exact sound_head hl S s0 n0 (hK 0 (by omega)) hf hfb
      ((one_div_le_one_div_of_le (by positivity) (pow_le_pow_right₀ (by norm_num) (by norm_num))).trans c1) c2 σ1 σ2 hr
  have stl : ∀ s ∈ tl, s.Sound S (r.coarse hl.u_le) (1 / 2 ^ 640) (2 ^ 700) := by
    intro t ht
    rw [htl] at ht
    rcases List.mem_append.1 ht with h | h
    · obtain ⟨i, h1, rfl⟩ := List.mem_map.1 h
      obtain ⟨k, a, b⟩ := hB (i + 1) (by have := List.mem_range.1 h1; omega)
      exact sound_plain hl S a b (hK _ (by have := List.mem_range.1 h1; omega))
    · rw [List.eq_of_mem_replicate h]; exact sound_ident hl S hI
  have gtl : ∀ s ∈ tl, 1 ≤ s.g := by
    intro t ht
    rw [htl] at ht
    rcases List.mem_append.1 ht with h | h
    · obtain ⟨i, h1, rfl⟩ := List.mem_map.1 h
      have h2 := hK (i + 1) (by have := List.mem_range.1 h1; omega)
      exact one_le_mul_of_one_le_of_one_le h2.one_le (by have := h2.fwd; have := h2.top; linarith)
    · rw [List.eq_of_mem_replicate h]
  have sall : ∀ s ∈ hd :: tl, s.Sound S (r.coarse hl.u_le) (1 / 2 ^ 640) (2 ^ 700) := by
    intro t ht
    rcases List.mem_cons.1 ht with rfl | h
    · exact shd
    · exact stl t h
  have gain : gainOf (hd :: tl) = ∏ i ∈ Finset.range (m + 1), G i * (1 + s * (K i).a1 + (K i).a2) := by
    rw [Finset.prod_mul_distrib, ← hcF]
    rw [gainOf, htl, hhd]
    simp only [List.map_cons, List.map_append, List.map_map, List.map_replicate, List.prod_cons, List.prod_append,
      List.prod_replicate, one_pow, mul_one]
    rw [show (Stage.g ∘ fun i => (⟨B (i + 1), K (i + 1), G (i + 1) * (K (i + 1)).forward, 1.01 / 2 ^ 36 * G (i + 1)⟩ : Stage R)) =
      fun i => G (i + 1) * (K (i + 1)).forward from rfl, list_prod_range, Finset.prod_mul_distrib, Finset.prod_range_succ',
      Finset.prod_range_succ', scaleK_forward c0.le]
    ring
  have errs : ((hd :: tl).map Stage.e).sum = 1.01 / 2 ^ 36 * σ + 0.87 * σ / 2 ^ 31 + j * (1 / 2 ^ 43) := by
    rw [htl, hhd]
    simp only [List.map_cons, List.map_append, List.map_map, List.map_replicate, List.sum_cons, List.sum_append,
      List.sum_replicate, nsmul_eq_mul]
    rw [show (Stage.e ∘ fun i => (⟨B (i + 1), K (i + 1), G (i + 1) * (K (i + 1)).forward, 1.01 / 2 ^ 36 * G (i + 1)⟩ : Stage R)) =
      fun i => 1.01 / 2 ^ 36 * G (i + 1) from rfl, list_sum_range, ← Finset.mul_sum]
    rw [hσ, Finset.sum_range_succ']
    ring
  have hj' : (j : ℝ) ≤ 1073741824 := by
    have : (j : ℝ) ≤ 2 ^ 30 := by exact_mod_cast hj
    exact this.trans (by norm_num)
  have hj0 : (0 : ℝ) ≤ j := Nat.cast_nonneg j
  have half : ((hd :: tl).map Stage.e).sum ≤ 1 / 2 := by
    rw [errs]
    norm_num at σ2 ⊢
    linarith
  obtain ⟨q1, q2, q3⟩ := gainErr_le sall half
  have A0 : 0 ≤ gainOf (hd :: tl) := gainOf_nonneg sall
  have A1 : gainOf (hd :: tl) ≤ 2 ^ 224 := by
    rw [gain]
    have h1 : ∏ i ∈ Finset.range (m + 1), G i * (1 + s * (K i).a1 + (K i).a2) ≤ ∏ _i ∈ Finset.range (m + 1), (2 ^ 28 : ℝ) := by
      refine Finset.prod_le_prod (fun i hi => ?_) fun i hi => ?_
      · linarith [(hK i (Finset.mem_range.1 hi)).bot]
      · have h := hK i (Finset.mem_range.1 hi)
        have := mul_le_mul h.g_le (h.bot_le.trans h.fwd_le) (by
          by_contra hc
          have := mul_nonpos_of_nonneg_of_nonpos (by linarith [h.one_le] : 0 ≤ G i) (not_le.1 hc).le
          linarith [h.bot]) (by positivity)
        exact this.trans (by norm_num)
    refine h1.trans ?_
    rw [Finset.prod_const, Finset.card_range, ← pow_mul]
    exact pow_le_pow_right₀ (by norm_num) (by omega)
  have X0 : 0 ≤ X := le_trans (by positivity) hX1
  have fits : Fits (1 / 2 ^ 640) (2 ^ 700) X (hd :: tl) := by
    have top : gainErr (hd :: tl) * X ≤ 2 ^ 700 := by
      have h1 : gainErr (hd :: tl) ≤ 2 ^ 224 * 2 :=
        q1.trans (mul_le_mul A1 (by linarith) (by linarith) (by positivity))
      calc gainErr (hd :: tl) * X ≤ 2 ^ 224 * 2 * 2 ^ 400 := mul_le_mul h1 hX2 X0 (by positivity)
        _ = 2 ^ 625 := by rw [← pow_succ, ← pow_add]
        _ ≤ 2 ^ 700 := pow_le_pow_right₀ (by norm_num) (by norm_num)
    refine ⟨⟨?_, ?_⟩, fits_of_le stl gtl ?_ ?_ ?_⟩
    · exact (one_div_le_one_div_of_le (by positivity) (pow_le_pow_right₀ (by norm_num) (by norm_num))).trans hX1
    · exact hX2.trans (pow_le_pow_right₀ (by norm_num) (by norm_num))
    · have h1 : c ≤ hd.g * (1 + hd.e) := by
        have e0 := shd.e_nonneg
        have g0 : c ≤ hd.g := by
          rw [hhd]
          simp only
          rw [scaleK_forward c0.le]
          have h := hK 0 (by omega)
          have h2 : 1 ≤ G 0 * (K 0).forward := one_le_mul_of_one_le_of_one_le h.one_le (by have := h.fwd; have := h.top; linarith)
          calc c ≤ c * (G 0 * (K 0).forward) := le_mul_of_one_le_right c0.le h2
            _ = _ := by ring
        exact g0.trans (le_mul_of_one_le_right (c0.le.trans g0) (by linarith))
      calc (1 : ℝ) / 2 ^ 640 ≤ 1 / 2 ^ 624 := one_div_le_one_div_of_le (by positivity) (pow_le_pow_right₀ (by norm_num) (by norm_num))
        _ = 1 / 2 ^ 224 * (1 / 2 ^ 400) := by rw [one_div_mul_one_div, ← pow_add]
        _ ≤ _ := mul_le_mul (c1.trans h1) hX1 (by positivity) (c0.le.trans h1)
    · have := shd.e_nonneg
      have := shd.g_nonneg
      positivity
    · refine le_trans (le_of_eq ?_) top
      simp only [gainErr, List.map_cons, List.prod_cons]; ring
  have eb : (hd :: tl).map Stage.b = scaled f (B 0) :: ((List.range m).map (fun i => B (i + 1)) ++ List.replicate j bI) := by
    rw [htl, hhd]; simp [Function.comp_def]
  have w := gains_within (fun fma h => (hfm fma h).coarse hl.u_le) (l := hd :: tl) sall (X := X) (x := x) (y := y)
    (by rw [eb]; exact hrun) hx fits (by
    have : (hd :: tl).map Stage.k = idealChain c K m j := by
      rw [htl, hhd]; simp [idealChain, Function.comp_def]
    rw [this]; exact hy)
  intro n
  refine ⟨(w n).1, (w n).2.trans (mul_le_mul_of_nonneg_right ?_ X0)⟩
  rw [← gain]
  rw [errs] at q1
  have q4 : gainErr (hd :: tl) - gainOf (hd :: tl) ≤ gainOf (hd :: tl) * (2 * (1.01 / 2 ^ 36 * σ + 0.87 * σ / 2 ^ 31 + j * (1 / 2 ^ 43))) := by
    linarith
  refine q4.trans ?_
  rw [mul_comm (1 / 2 ^ 30 : ℝ), mul_assoc]
  refine mul_le_mul_of_nonneg_left ?_ A0
  norm_num
  linarith

end ops
end Iir
