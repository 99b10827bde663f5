import Verif.Lemmas.RoundMap

/-! # Rounding errors of the low pass prototypes -/

namespace Iir
open FArith Cx Exec Spec Proto

/-! ## Trigonometric functions -/

theorem cos_near {x y : ℝ} : |Real.cos x - Real.cos y| ≤ |x - y| := by
  have := Real.lipschitzWith_cos.dist_le_mul x y
  simpa [Real.dist_eq] using this

theorem sin_near {x y : ℝ} : |Real.sin x - Real.sin y| ≤ |x - y| := by
  have := Real.lipschitzWith_sin.dist_le_mul x y
  simpa [Real.dist_eq] using this

/-- `cos (j π / 2n)` for an angle between the axes of the poles -/
theorem cos_angle {n : ℕ} (hn : 1 ≤ n) {j : ℤ} (hj : |j| + 1 ≤ n) :
    1 / (n : ℝ) ≤ Real.cos (j * Real.pi / (2 * n)) := by
  have hn0 : (0 : ℝ) < n := by exact_mod_cast hn
  have hj' : |(j : ℝ)| + 1 ≤ n := by exact_mod_cast hj
  have hpi := Real.pi_pos
  have e1 : |(j : ℝ) * Real.pi / (2 * n)| = |(j : ℝ)| * Real.pi / (2 * n) := by
    rw [abs_div, abs_mul, abs_of_pos hpi, abs_of_pos (a := 2 * (n : ℝ)) (by positivity)]
  rw [← Real.cos_abs, e1, ← Real.sin_pi_div_two_sub]
  have e2 : 2 / Real.pi * (Real.pi / 2 - |(j : ℝ)| * Real.pi / (2 * n)) = (n - |(j : ℝ)|) / n := by
    field_simp
  have h0 : 0 ≤ |(j : ℝ)| * Real.pi / (2 * n) := by positivity
  have h1 : |(j : ℝ)| * Real.pi / (2 * n) ≤ Real.pi / 2 := by
    rw [div_le_div_iff₀ (by positivity) (by norm_num)]
    nlinarith
  have := Real.mul_le_sin (x := Real.pi / 2 - |(j : ℝ)| * Real.pi / (2 * n)) (by linarith) (by linarith)
  rw [e2] at this
  refine le_trans ?_ this
  exact div_le_div_of_nonneg_right (by linarith) hn0.le

variable {R : Type} [FArith R] {u η Ω : ℝ} {r : Rounds R u η Ω}

section ops
variable (hl : r.Library)
include hl

theorem ofI_val {i : ℤ} (h : |i| ≤ 64) : r.Fin (ofI i : R) ∧ r.val (ofI i : R) = i :=
  hl.int i (h.trans (by norm_num))

/-- `j * pi / n2` -/
theorem angle_near {n : ℕ} (hn : 1 ≤ n) (h16 : n ≤ 16) {j : ℤ} (hj : |j| ≤ 32) :
    r.Fin (ofI j * pi / ofI (2 * (n : ℤ)) : R) ∧
      |r.val (ofI j * pi / ofI (2 * (n : ℤ)) : R) - j * Real.pi / (2 * n)| ≤ 1 / 2 ^ 39 := by
  obtain ⟨j1, j2⟩ := ofI_val hl (hj.trans (by norm_num))
  obtain ⟨n1, n2⟩ := ofI_val hl (i := 2 * (n : ℤ)) (by rw [abs_of_nonneg (by omega)]; omega)
  obtain ⟨p1, p2⟩ := hl.pi
  have hjr : |(j : ℝ)| ≤ 32 := by exact_mod_cast hj
  have hp := In.abs (pi_in hl) (B := 4) (by norm_num) (by norm_num)
  have hM : |r.val (ofI j : R) * r.val (pi : R)| ≤ 128 := by
    rw [j2, abs_mul]
    have := mul_le_mul hjr hp (abs_nonneg _) (by norm_num)
    linarith
  obtain ⟨m1, m2⟩ := raw_mul hl.toAccurate j1 p1 hM (by norm_num)
  rw [j2] at m2
  have e1 : |(j : ℝ) * r.val (pi : R) - j * Real.pi| ≤ 32 * (1 / 2 ^ 45) := by
    rw [← mul_sub, abs_mul]
    exact mul_le_mul hjr p2 (abs_nonneg _) (by norm_num)
  have e2 : |r.val (ofI j * pi : R) - j * Real.pi| ≤ 1 / 2 ^ 39 := by
    have : |r.val (ofI j * pi : R) - j * Real.pi| ≤ |r.val (ofI j * pi : R) - j * r.val (pi : R)| +
        |(j : ℝ) * r.val (pi : R) - j * Real.pi| := by
      calc |r.val (ofI j * pi : R) - j * Real.pi| = |(r.val (ofI j * pi : R) - j * r.val (pi : R)) +
            ((j : ℝ) * r.val (pi : R) - j * Real.pi)| := by ring_nf
        _ ≤ _ := abs_add_le _ _
    norm_num at *
    linarith
  have hn2 : (2 : ℝ) ≤ 2 * n := by
    have : (1 : ℝ) ≤ n := by exact_mod_cast hn
    linarith
  have ev : r.val (ofI (2 * (n : ℤ)) : R) = 2 * n := by rw [n2]; push_cast; ring
  have e3 : |r.val (ofI j * pi : R) / (2 * n) - j * Real.pi / (2 * n)| ≤ 1 / 2 ^ 40 := by
    rw [← sub_div, abs_div, abs_of_pos (a := 2 * (n : ℝ)) (by linarith), div_le_iff₀ (by linarith)]
    norm_num at e2 ⊢
    linarith
  have hM2 : |r.val (ofI j * pi : R) / r.val (ofI (2 * (n : ℤ)) : R)| ≤ 100 := by
    rw [ev, abs_div, abs_of_pos (a := 2 * (n : ℝ)) (by linarith), div_le_iff₀ (by linarith)]
    have h1 : |r.val (ofI j * pi : R)| ≤ |r.val (ofI j * pi : R) - j * r.val (pi : R)| + |(j : ℝ) * r.val (pi : R)| := by
      calc |r.val (ofI j * pi : R)| = |(r.val (ofI j * pi : R) - j * r.val (pi : R)) + (j : ℝ) * r.val (pi : R)| := by ring_nf
        _ ≤ _ := abs_add_le _ _
    rw [j2] at hM
    norm_num at m2
    linarith
  obtain ⟨d1, d2⟩ := raw_div hl.toAccurate m1 n1 (by rw [ev]; linarith) hM2 (by norm_num)
  refine ⟨d1, ?_⟩
  rw [ev] at d2
  have : |r.val (ofI j * pi / ofI (2 * (n : ℤ)) : R) - j * Real.pi / (2 * n)| ≤
      |r.val (ofI j * pi / ofI (2 * (n : ℤ)) : R) - r.val (ofI j * pi : R) / (2 * n)| +
        |r.val (ofI j * pi : R) / (2 * n) - j * Real.pi / (2 * n)| := abs_sub_le _ _ _
  norm_num at *
  linarith

/-- `j * (pi / n2)` -/
theorem angle_near' {n : ℕ} (hn : 1 ≤ n) (h16 : n ≤ 16) {j : ℤ} (hj : |j| ≤ 32) :
    r.Fin (ofI j * (pi / ofI (2 * (n : ℤ))) : R) ∧
      |r.val (ofI j * (pi / ofI (2 * (n : ℤ))) : R) - j * Real.pi / (2 * n)| ≤ 1 / 2 ^ 39 := by
  obtain ⟨j1, j2⟩ := ofI_val hl (hj.trans (by norm_num))
  obtain ⟨n1, n2⟩ := ofI_val hl (i := 2 * (n : ℤ)) (by rw [abs_of_nonneg (by omega)]; omega)
  obtain ⟨p1, p2⟩ := hl.pi
  have hjr : |(j : ℝ)| ≤ 32 := by exact_mod_cast hj
  have hp := In.abs (pi_in hl) (B := 4) (by norm_num) (by norm_num)
  have hn2 : (2 : ℝ) ≤ 2 * n := by
    have : (1 : ℝ) ≤ n := by exact_mod_cast hn
    linarith
  have ev : r.val (ofI (2 * (n : ℤ)) : R) = 2 * n := by rw [n2]; push_cast; ring
  have hM : |r.val (pi : R) / r.val (ofI (2 * (n : ℤ)) : R)| ≤ 2 := by
    rw [ev, abs_div, abs_of_pos (a := 2 * (n : ℝ)) (by linarith), div_le_iff₀ (by linarith)]
    linarith
  obtain ⟨m1, m2⟩ := raw_div hl.toAccurate p1 n1 (by rw [ev]; linarith) hM (by norm_num)
  have e1 : |r.val (pi : R) / (2 * n) - Real.pi / (2 * n)| ≤ 1 / 2 ^ 46 := by
    rw [← sub_div, abs_div, abs_of_pos (a := 2 * (n : ℝ)) (by linarith), div_le_iff₀ (by linarith)]
    norm_num at p2 ⊢
    linarith
  have e2 : |r.val (pi / ofI (2 * (n : ℤ)) : R) - Real.pi / (2 * n)| ≤ 1 / 2 ^ 45 := by
    have := abs_sub_le (r.val (pi / ofI (2 * (n : ℤ)) : R)) (r.val (pi : R) / (2 * n)) (Real.pi / (2 * n))
    rw [ev] at m2
    norm_num at *
    linarith
  have e3 : |j * r.val (pi / ofI (2 * (n : ℤ)) : R) - j * (Real.pi / (2 * n))| ≤ 32 * (1 / 2 ^ 45) := by
    rw [← mul_sub, abs_mul]
    exact mul_le_mul hjr e2 (abs_nonneg _) (by norm_num)
  have hM2 : |r.val (ofI j : R) * r.val (pi / ofI (2 * (n : ℤ)) : R)| ≤ 100 := by
    rw [j2, abs_mul]
    have h1 : |r.val (pi / ofI (2 * (n : ℤ)) : R)| ≤ 3 := by
      have : |r.val (pi / ofI (2 * (n : ℤ)) : R)| ≤ |r.val (pi / ofI (2 * (n : ℤ)) : R) - r.val (pi : R) / (2 * n)| +
          |r.val (pi : R) / (2 * n)| := by
        have := abs_sub_le (r.val (pi / ofI (2 * (n : ℤ)) : R)) (r.val (pi : R) / (2 * n)) 0
        rwa [_root_.sub_zero, _root_.sub_zero] at this
      rw [ev] at m2 hM
      norm_num at *
      linarith
    have := mul_le_mul hjr h1 (abs_nonneg _) (by norm_num)
    linarith
  obtain ⟨d1, d2⟩ := raw_mul hl.toAccurate j1 m1 hM2 (by norm_num)
  refine ⟨d1, ?_⟩
  rw [j2] at d2
  have h3 := abs_sub_le (r.val (ofI j * (pi / ofI (2 * (n : ℤ))) : R)) (j * r.val (pi / ofI (2 * (n : ℤ)) : R))
    (j * (Real.pi / (2 * n)))
  rw [mul_div_assoc]
  norm_num at *
  linarith

/-! ## Butterworth -/

theorem butterworth_pole {n i : ℕ} (hn : 1 ≤ n) (h16 : n ≤ 16) (hi : i < n / 2) :
    ∃ c, polarC (1 : R) (pi2 + ofI (2 * (i : ℤ) + 1) * pi / ofI (2 * (n : ℤ))) = .ok c ∧ r.APole c := by
  have hj : |(2 * (i : ℤ) + 1)| ≤ 32 := by rw [abs_of_nonneg (by omega)]; omega
  obtain ⟨a1, a2⟩ := angle_near hl hn h16 hj
  obtain ⟨q1, q2⟩ := hl.pi2
  set A : R := ofI (2 * (i : ℤ) + 1) * pi / ofI (2 * (n : ℤ)) with hA
  set α : ℝ := ((2 * (i : ℤ) + 1 : ℤ) : ℝ) * Real.pi / (2 * n) with hα
  have hn0 : (0 : ℝ) < n := by exact_mod_cast hn
  have hpi := Real.pi_lt_d2
  have hpi' := Real.pi_gt_d2
  have α0 : 0 ≤ α := by rw [hα]; push_cast; positivity
  have α1 : α ≤ Real.pi / 2 := by
    have : ((2 * (i : ℤ) + 1 : ℤ) : ℝ) ≤ n := by
      have : (2 * (i : ℤ) + 1 : ℤ) ≤ n := by omega
      exact_mod_cast this
    rw [hα, div_le_div_iff₀ (by positivity) (by norm_num)]
    nlinarith
  have hM : |r.val (pi2 : R) + r.val A| ≤ 4 := by
    rw [abs_le] at a2 q2 ⊢
    norm_num at *
    exact ⟨by linarith, by linarith⟩
  obtain ⟨t1, t2⟩ := raw_add hl.toAccurate q1 a1 hM (by norm_num)
  set t : R := pi2 + A with ht
  have hone := In.one hl.toAccurate (r := r)
  have hv1 : r.val (1 : R) = 1 := le_antisymm hone.2.2 hone.2.1
  obtain ⟨z, e, hz, hn'⟩ := hl.polar 1 t hone.1 t1 (by rw [hv1]; norm_num) (by rw [hv1]; exact one_le_pow₀ (by norm_num))
  refine ⟨z, by unfold polarC; rw [e], ?_⟩
  rw [hv1, Complex.ofReal_one, one_mul] at hn'
  have hη := hl.η_le
  have et : |r.val t - (Real.pi / 2 + α)| ≤ 1 / 2 ^ 38 := by
    rw [abs_le] at a2 q2 t2 ⊢
    norm_num at *
    exact ⟨by linarith, by linarith⟩
  have hs : 1 / 16 ≤ Real.sin α := by
    have h1 := Real.mul_le_sin α0 α1
    have h2 : 2 / Real.pi * α = ((2 * (i : ℤ) + 1 : ℤ) : ℝ) / n := by rw [hα]; field_simp
    rw [h2] at h1
    refine le_trans ?_ h1
    rw [div_le_div_iff₀ (by norm_num) hn0]
    have : (n : ℝ) ≤ 16 := by exact_mod_cast h16
    push_cast
    have : (0 : ℝ) ≤ i := by positivity
    linarith
  have hc : Real.cos (Real.pi / 2 + α) = -Real.sin α := by rw [add_comm, Real.cos_add_pi_div_two]
  have c1 := (cos_near (x := r.val t) (y := Real.pi / 2 + α)).trans et
  rw [hc] at c1
  have r1 := (Complex.abs_re_le_norm _).trans hn'
  have r2 := (Complex.abs_im_le_norm _).trans hn'
  rw [Complex.sub_re, cval_re, Complex.exp_ofReal_mul_I_re] at r1
  rw [Complex.sub_im, cval_im, Complex.exp_ofReal_mul_I_im] at r2
  have hu : Real.cos (r.val t) ^ 2 + Real.sin (r.val t) ^ 2 ≤ 1 := (Real.cos_sq_add_sin_sq _).le
  have he : 1 / 2 ^ 45 + 16 * η ≤ 1 / 2 ^ 43 := by norm_num at *; linarith
  obtain ⟨k1, -⟩ := circle_near (by positivity) le_rfl hu (r1.trans he) (r2.trans he)
  rw [Real.cos_sq_add_sin_sq] at k1
  refine ⟨hz, ?_, ?_, ?_⟩
  · rw [abs_le] at c1 r1
    norm_num at *
    linarith
  · rw [abs_le] at k1
    norm_num at *
    linarith
  · rw [abs_le] at k1
    norm_num at *
    linarith

theorem Butterworth.analog {n L : ℕ} (hn : 1 ≤ n) (h16 : n ≤ 16) (hL : (n + 1) / 2 ≤ L) :
    Done (fun l => l.pairs.length = L ∧ (r.Fin l.normalW ∧ r.val l.normalW = 0) ∧ r.In l.normalGain (-2) 2)
      (Butterworth.lowPassBuild (n : ℤ)) (Layout.Analog r n L) := by
  unfold Butterworth.lowPassBuild
  refine Trip.bind (Q := fun _ => Layout.Analog r 0 L)
    (holds_reset (W := fun w g => (r.Fin w ∧ r.val w = 0) ∧ r.In g (-2) 2)) fun _ =>
    Done.intChecked_ok (by omega) ?_
  simp only [tdiv_two, int_odd]
  refine holds_build hL (fun i hi => ?_) ?_
  · obtain ⟨c, h1, h2⟩ := butterworth_pole hl hn h16 hi
    refine ⟨c, Cx.infinity, ?_, not_nan_of_fin hl h2.fin, infinity_not_nan hl, h2, .inl rfl⟩
    rw [h1]; rfl
  · by_cases h : n % 2 = 1
    · simp only [h, decide_true, if_true]
      have hone := In.one hl.toAccurate (r := r)
      have hv1 : r.val (1 : R) = 1 := le_antisymm hone.2.2 hone.2.1
      obtain ⟨h2, h3⟩ := hl.neg _ hone.1
      have hfin : r.CFin (ofR (-1 : R)) := ⟨h2, r.zero.1⟩
      have := holds_add (D := fun _ p z => r.APole p ∧ r.AZero z) (S := fun p z => r.AReal p ∧ z = Cx.infinity)
        (W := fun w g => (r.Fin w ∧ r.val w = 0) ∧ r.In g (-2) 2)
        (m := 2 * (n / 2)) (L := L) (p := ofR (-1)) (z := Cx.infinity) (feq_zero hl) (not_nan_of_fin hl hfin)
        (infinity_not_nan hl) (feq_zero hl) (feq_zero hl)
        ⟨⟨hfin, r.zero.2, by show r.val (-1 : R) ≤ _; rw [h3, hv1]; norm_num,
          by show _ ≤ r.val (-1 : R); rw [h3, hv1]; norm_num⟩, rfl⟩
        (by omega) (by omega)
      rwa [show 2 * (n / 2) + 1 = n by omega] at this
    · simp only [h, decide_false, Bool.false_eq_true, if_false]
      refine Trip.pure fun s hs => ?_
      rwa [show 2 * (n / 2) = n by omega] at hs

end ops

end Iir
