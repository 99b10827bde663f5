import Verif.Exact.Analog
import Mathlib.Analysis.SpecialFunctions.Arsinh

/-! # The Chebyshev prototypes in exact arithmetic -/

namespace Iir
open FArith Cx Exec Spec XR

noncomputable section

/-- `k`-th of `n` points on the ellipse with half axes `sinh u`, `cosh u`. -/
def chebPole (n : ℕ) (u : ℝ) (k : ℕ) : ℂ :=
  ⟨-(Real.sinh u * Real.sin (angle n k)), Real.cosh u * Real.cos (angle n k)⟩

theorem chebPole_eq (n : ℕ) (u : ℝ) (k : ℕ) :
    chebPole n u k = Complex.I * Complex.cos (angle n k - u * Complex.I) := by
  rw [Complex.cos_sub, Complex.cos_mul_I, Complex.sin_mul_I, ← Complex.ofReal_cos, ← Complex.ofReal_sin,
    ← Complex.ofReal_cosh, ← Complex.ofReal_sinh]
  unfold chebPole
  generalize Real.sin (angle n k) = s
  generalize Real.cos (angle n k) = c
  generalize Real.sinh u = a
  generalize Real.cosh u = b
  apply Complex.ext <;> simp <;> ring

theorem chebPole_reflect {n k : ℕ} (hk : k < n) (u : ℝ) :
    chebPole n u (n - 1 - k) = starRingEnd ℂ (chebPole n u k) := by
  rw [chebPole, angle_reflect hk, Real.sin_pi_sub, Real.cos_pi_sub]
  apply Complex.ext <;> simp [chebPole]

theorem chebPole_mid {n : ℕ} (h : n % 2 = 1) (u : ℝ) : chebPole n u (n / 2) = (-Real.sinh u : ℝ) := by
  rw [chebPole, angle_mid h]
  generalize Real.sinh u = a
  apply Complex.ext <;> simp

theorem chebPole_re_neg {n k : ℕ} (hk : k < n) {u : ℝ} (hu : 0 < u) : (chebPole n u k).re < 0 := by
  have := sin_angle_pos hk
  have := Real.sinh_pos_iff.2 hu
  simp only [chebPole]; nlinarith

/-- Chebyshev I low pass prototype. -/
def chebyshevI (n : ℕ) (v : ℝ) : Analog where
  n := n
  pole k := starRingEnd ℂ (chebPole n v k)
  zero _ := none

theorem chebyshevI_sym (n : ℕ) (v : ℝ) : (chebyshevI n v).Sym where
  pole k hk := by
    simp only [chebyshevI] at hk ⊢
    rw [chebPole_reflect hk]
  zero _ _ := rfl

/-- Chebyshev shelf prototype. -/
def chebyshevShelf (n : ℕ) (u v : ℝ) : Analog where
  n := n
  pole k := chebPole n u k
  zero k := some (chebPole n v k)

theorem chebyshevShelf_sym (n : ℕ) (u v : ℝ) : (chebyshevShelf n u v).Sym where
  pole k hk := chebPole_reflect hk u
  zero k hk := by
    simp only [chebyshevShelf] at hk ⊢
    rw [chebPole_reflect hk, conjO_some]

/-- Chebyshev II low pass prototype. -/
def chebyshevII (n : ℕ) (v : ℝ) : Analog where
  n := n
  pole k := (chebPole n v k)⁻¹
  zero k := if 2 * k + 1 = n then none else some (Complex.I * (1 / Real.cos (angle n k) : ℝ))

theorem chebyshevII_sym (n : ℕ) (v : ℝ) : (chebyshevII n v).Sym where
  pole k hk := by
    simp only [chebyshevII] at hk ⊢
    rw [chebPole_reflect hk, map_inv₀]
  zero k hk := by
    simp only [chebyshevII] at hk ⊢
    by_cases h : 2 * k + 1 = n
    · rw [if_pos h, if_pos (by omega)]; rfl
    · rw [if_neg h, if_neg (by omega), angle_reflect hk, Real.cos_pi_sub, conjO_some, map_mul,
        Complex.conj_I, Complex.conj_ofReal]
      congr 1
      push_cast; rw [one_div, one_div, inv_neg]; ring

/-! ## The builds -/

theorem asinh_fin (x : ℝ) : Iir.asinh (fin x) = fin (Real.arsinh x) := by
  have h1 : 0 ≤ x * x + 1 := by nlinarith
  have h2 : 0 < x + Real.sqrt (x * x + 1) := by
    have h3 : |x| < Real.sqrt (x * x + 1) := by
      apply Real.lt_sqrt_of_sq_lt
      rw [sq_abs]; nlinarith
    have := neg_abs_le x
    linarith
  rw [Iir.asinh, lit_one, fin_mul, fin_add, sqrt_fin h1, fin_add, log_fin h2, Real.arsinh]
  congr 4; ring

variable {n L : ℕ} {w g : XR} {ps : List (PoleZeroPair XR)} {m : ℕ}

/-- `eps` of a Chebyshev I filter: `eps² = 10^(ripple/10) - 1` -/
def chebEps (rippleDb : ℝ) : ℝ := Real.sqrt ((10 : ℝ) ^ (rippleDb / 10) - 1)

theorem chebEps_pos {r : ℝ} (hr : 0 < r) : 0 < chebEps r := by
  apply Real.sqrt_pos.2
  have := Real.one_lt_rpow (x := 10) (z := r / 10) (by norm_num) (by positivity)
  linarith

theorem chebEps_sq {r : ℝ} (hr : 0 < r) : chebEps r ^ 2 = (10 : ℝ) ^ (r / 10) - 1 := by
  apply Real.sq_sqrt
  have := Real.one_lt_rpow (x := 10) (z := r / 10) (by norm_num) (by positivity)
  linarith

theorem exp_ripple (r : ℝ) : Real.exp (r * (0.1 : ℝ) * Real.log 10) = (10 : ℝ) ^ (r / 10) := by
  rw [Real.rpow_def_of_pos (by norm_num)]; congr 1; norm_num; ring

/-- the parameter of the ellipse of the poles -/
def chebV (n : ℕ) (eps : ℝ) : ℝ := Real.arsinh (1 / eps) / n

theorem chebV_pos (hn1 : 1 ≤ n) {eps : ℝ} (h : 0 < eps) : 0 < chebV n eps := by
  have hn0 : (0 : ℝ) < n := by positivity
  unfold chebV
  have : 0 < Real.arsinh (1 / eps) := Real.arsinh_pos_iff.2 (by positivity)
  positivity

theorem sinh_chebV (hn1 : 1 ≤ n) (eps : ℝ) : Real.sinh (n * chebV n eps) = 1 / eps := by
  have hn0 : (n : ℝ) ≠ 0 := by positivity
  rw [chebV, mul_div_cancel₀ _ hn0, Real.sinh_arsinh]

theorem sub_half (k : ℝ) (hn0 : (n : ℝ) ≠ 0) : (k - n) * Real.pi / (2 * n) = k * Real.pi / (2 * n) - Real.pi / 2 := by
  field_simp

theorem ChebyshevI.done_lowPassBuild (hn1 : 1 ≤ n) (hn : n < 1073741824) (hL : (n + 1) / 2 ≤ L)
    {r : ℝ} (hr : 0 < r) :
    Done (Layout.Stored ps m L w g) (ChebyshevI.lowPassBuild (n : ℤ) (fin r))
      (Layout.Stored (chebyshevI n (chebV n (chebEps r))).stored n L (fin 0)
        (if n % 2 = 1 then fin 1 else fin ((10 : ℝ) ^ (-r / 20)))) := by
  have hn0 : (n : ℝ) ≠ 0 := by positivity
  have hn2 : (2 * n : ℝ) ≠ 0 := by positivity
  have he : FArith.sqrt ((1 : XR) / FArith.exp (-fin r * 0.1 * ln10) - 1) = fin (chebEps r) := by
    simp only [fin_neg, lit_sci, fin_mul, ln10_eq, exp_fin, lit_one, neg_mul]
    rw [Real.exp_neg, exp_ripple, fin_div _ (by positivity), fin_sub, one_div, inv_inv, sqrt_fin, chebEps]
    have := Real.one_lt_rpow (x := 10) (z := r / 10) (by norm_num) (by positivity)
    linarith
  have hv : Iir.asinh ((1 : XR) / fin (chebEps r)) / Proto.ofI (n : ℤ) = fin (chebV n (chebEps r)) := by
    simp only [Proto.ofI, ofInt_eq, lit_one]
    push_cast
    rw [fin_div _ (chebEps_pos hr).ne', asinh_fin, fin_div _ hn0, chebV]
  unfold ChebyshevI.lowPassBuild
  refine Trip.bind done_reset fun _ => ?_
  simp only [he, hv]
  refine Done.intChecked_ok (by omega) ?_
  simp only [tdiv_two, int_odd]
  set v := chebV n (chebEps r)
  refine Trip.bind ((chebyshevI n v).done_pairs hL fun i hi => ?_) fun _ => ?_
  · have hi' : i < n := by simp only [chebyshevI] at hi; omega
    have e : (Proto.ofI (2 * (i : ℤ) + 1 - (n : ℤ)) * pi / Proto.ofI (2 * (n : ℤ)) : XR) =
        fin (angle n i - Real.pi / 2) := by
      simp only [Proto.ofI, ofInt_eq, pi_eq, fin_mul]
      push_cast
      rw [fin_div _ hn2, angle, ← sub_half _ hn0]
    rw [e]
    simp only [sinh_fin, cosh_fin, fin_neg, cos_fin, sin_fin, fin_mul, Real.cos_sub_pi_div_two,
      Real.sin_sub_pi_div_two, chebyshevI, rootX_none, mk_eq_ofC]
    congr 2
    apply Complex.ext <;> simp [chebPole]
  · by_cases h : n % 2 = 1
    · simp only [h, decide_true, if_true]
      refine Trip.bind (Q := fun _ => Layout.Stored (chebyshevI n v).stored n L w g) ?_ fun _ => ?_
      · have := Analog.done_odd (chebyshevI_sym n v) (w := w) (g := g) hL h
        simp only [chebyshevI, chebPole_mid h, rootX_none, Complex.conj_ofReal] at this
        simp only [sinh_fin, fin_neg, lit_zero, mk_eq_ofC]
        exact this
      · rw [lit_zero, lit_one]; exact done_setNormal _ _
    · simp only [h, decide_false, Bool.false_eq_true, if_false]
      have e2 : (FArith.pow 10 (-fin r / 20) : XR) = fin ((10 : ℝ) ^ (-r / 20)) := by
        rw [lit_ofNat, lit_ofNat, fin_neg, fin_div _ (by norm_num), pow_fin _ (by norm_num)]
      rw [lit_zero, e2]
      exact Trip.pre (done_setNormal _ _) fun s hs => Analog.stored_even (A := chebyshevI n v) h hs

/-- `eps` of a Chebyshev II filter: `eps² = 1 / (10^(stopBandDb/10) - 1)` -/
def chebEpsII (s : ℝ) : ℝ := 1 / chebEps s

theorem chebEpsII_pos {r : ℝ} (hr : 0 < r) : 0 < chebEpsII r := one_div_pos.2 (chebEps_pos hr)

theorem inv_chebPole (n : ℕ) (v : ℝ) (k : ℕ) :
    (chebPole n v k)⁻¹ = ⟨-(Real.sinh v * Real.sin (angle n k)) / ((Real.sinh v * Real.sin (angle n k)) ^ 2 +
      (Real.cosh v * Real.cos (angle n k)) ^ 2), -(Real.cosh v * Real.cos (angle n k)) /
      ((Real.sinh v * Real.sin (angle n k)) ^ 2 + (Real.cosh v * Real.cos (angle n k)) ^ 2)⟩ := by
  have hsq : Complex.normSq (chebPole n v k) = (Real.sinh v * Real.sin (angle n k)) ^ 2 +
      (Real.cosh v * Real.cos (angle n k)) ^ 2 := by
    rw [Complex.normSq_apply]; simp only [chebPole]; ring
  apply Complex.ext
  · rw [Complex.inv_re, hsq]; simp only [chebPole]
  · rw [Complex.inv_im, hsq]; simp only [chebPole]

theorem ChebyshevII.done_lowPassBuild (hn1 : 1 ≤ n) (hn : n < 1073741824) (hL : (n + 1) / 2 ≤ L)
    {r : ℝ} (hr : 0 < r) :
    Done (Layout.Stored ps m L w g) (ChebyshevII.lowPassBuild (n : ℤ) (fin r))
      (Layout.Stored (chebyshevII n (chebV n (chebEpsII r))).stored n L w g) := by
  have hn0 : (n : ℝ) ≠ 0 := by positivity
  have hn2 : (2 * n : ℝ) ≠ 0 := by positivity
  have he : FArith.sqrt ((1 : XR) / (FArith.exp (fin r * 0.1 * ln10) - 1)) = fin (chebEpsII r) := by
    simp only [lit_sci, fin_mul, ln10_eq, exp_fin, lit_one, fin_sub]
    have := Real.one_lt_rpow (x := 10) (z := r / 10) (by norm_num) (by positivity)
    rw [exp_ripple, fin_div _ (by linarith), sqrt_fin, chebEpsII, chebEps, one_div, one_div, Real.sqrt_inv]
    rw [one_div, inv_nonneg]; linarith
  have hv : Iir.asinh ((1 : XR) / fin (chebEpsII r)) / Proto.ofI (n : ℤ) = fin (chebV n (chebEpsII r)) := by
    simp only [Proto.ofI, ofInt_eq, lit_one]
    push_cast
    rw [fin_div _ (chebEpsII_pos hr).ne', asinh_fin, fin_div _ hn0, chebV]
  have hvpos : 0 < chebV n (chebEpsII r) := chebV_pos hn1 (chebEpsII_pos hr)
  unfold ChebyshevII.lowPassBuild
  refine Trip.bind done_reset fun _ => ?_
  simp only [he, hv]
  refine Done.intChecked_ok (by omega) ?_
  simp only [tdiv_two, int_odd]
  set v := chebV n (chebEpsII r)
  have hs : 0 < Real.sinh v := Real.sinh_pos_iff.2 hvpos
  refine Analog.done_build (chebyshevII_sym n v) hL (fun i hi => ?_) ?_
  · have hi2 : i < n / 2 := hi
    have hi' : i < n := by omega
    have ec : ∀ j : ℤ, (Proto.ofI j * (pi / Proto.ofI (2 * (n : ℤ))) : XR) = fin (j * Real.pi / (2 * n)) := by
      intro j
      simp only [Proto.ofI, ofInt_eq, pi_eq]
      push_cast
      rw [fin_div _ hn2, fin_mul, mul_div_assoc]
    have e1 : (Proto.ofI (2 * (i : ℤ) + 1 - (n : ℤ)) * (pi / Proto.ofI (2 * (n : ℤ))) : XR) =
        fin (angle n i - Real.pi / 2) := by
      rw [ec]; push_cast
      rw [angle, ← sub_half _ hn0]
    have e2 : (Proto.ofI (2 * (i : ℤ) + 1) * (pi / Proto.ofI (2 * (n : ℤ))) : XR) = fin (angle n i) := by
      rw [ec]; push_cast; rw [angle]
    have hsin := sin_angle_pos hi'
    have hcos := cos_angle_pos hi2
    have hd : (Real.sinh v * Real.sin (angle n i)) ^ 2 + (Real.cosh v * Real.cos (angle n i)) ^ 2 ≠ 0 := by
      positivity
    rw [e1, e2]
    have hmid : 2 * i + 1 ≠ n := by omega
    simp only [sinh_fin, cosh_fin, fin_neg, cos_fin, sin_fin, fin_mul, Real.cos_sub_pi_div_two,
      Real.sin_sub_pi_div_two, fin_add, lit_one, lit_zero]
    rw [show -Real.sinh v * Real.sin (angle n i) * (-Real.sinh v * Real.sin (angle n i)) +
      Real.cosh v * -Real.cos (angle n i) * (Real.cosh v * -Real.cos (angle n i)) =
      (Real.sinh v * Real.sin (angle n i)) ^ 2 + (Real.cosh v * Real.cos (angle n i)) ^ 2 by ring,
      fin_div _ hd, fin_div _ hd, fin_div _ hcos.ne', mk_eq_ofC, mk_eq_ofC]
    simp only [chebyshevII, if_neg hmid, rootX_some, inv_chebPole]
    congr 2
    · apply Complex.ext <;> simp
    · generalize Real.cos (angle n i) = c
      apply Complex.ext <;> simp
  · by_cases h : n % 2 = 1
    · have hmid : 2 * (n / 2) + 1 = n := by omega
      simp only [h, decide_true, if_true, chebyshevII, chebPole_mid h, if_pos hmid, rootX_none, sinh_fin,
        fin_neg, lit_one]
      rw [fin_div _ (neg_ne_zero.2 hs.ne'), ofR_fin]
      congr 2
      push_cast; rw [one_div]
    · simp [h, chebyshevII]

/-! ## Shelves -/

/-- gain of the prototype at infinity over that at 0: `gainDb` decibels down -/
def shelfG (gainDb : ℝ) : ℝ := (10 : ℝ) ^ (-gainDb / 20)

/-- gain at the band edge -/
def shelfGb (gainDb rippleDb : ℝ) : ℝ :=
  (10 : ℝ) ^ ((-gainDb - (if -gainDb < 0 then -rippleDb else rippleDb)) / 20)

def shelfEps (gainDb rippleDb : ℝ) : ℝ :=
  Real.sqrt ((shelfG gainDb ^ 2 - shelfGb gainDb rippleDb ^ 2) / (shelfGb gainDb rippleDb ^ 2 - 1))

theorem shelfG_pos (x : ℝ) : 0 < shelfG x := by unfold shelfG; positivity
theorem shelfGb_pos (x y : ℝ) : 0 < shelfGb x y := by unfold shelfGb; positivity

theorem shelf_order {G r : ℝ} (hr : 0 < r) (hrG : r < |G|) :
    (1 < shelfGb G r ∧ shelfGb G r < shelfG G) ∨ (shelfGb G r < 1 ∧ shelfG G < shelfGb G r) := by
  have h10 : (1 : ℝ) < 10 := by norm_num
  unfold shelfGb shelfG
  rcases lt_or_ge (-G) 0 with h | h
  · right
    rw [abs_of_pos (by linarith)] at hrG
    rw [if_pos h]
    exact ⟨Real.rpow_lt_one_of_one_lt_of_neg h10 (by linarith),
      Real.rpow_lt_rpow_of_exponent_lt h10 (by linarith)⟩
  · left
    rw [if_neg h.not_gt]
    rw [abs_of_nonpos (by linarith)] at hrG
    exact ⟨Real.one_lt_rpow h10 (by linarith), Real.rpow_lt_rpow_of_exponent_lt h10 (by linarith)⟩

theorem shelfEps_arg_pos {G r : ℝ} (hr : 0 < r) (hrG : r < |G|) :
    0 < (shelfG G ^ 2 - shelfGb G r ^ 2) / (shelfGb G r ^ 2 - 1) := by
  have h1 := shelfG_pos G
  have h2 := shelfGb_pos G r
  rcases shelf_order hr hrG with ⟨h3, h4⟩ | ⟨h3, h4⟩
  · apply div_pos <;> nlinarith
  · apply div_pos_of_neg_of_neg <;> nlinarith

theorem shelfEps_pos {G r : ℝ} (hr : 0 < r) (hrG : r < |G|) : 0 < shelfEps G r :=
  Real.sqrt_pos.2 (shelfEps_arg_pos hr hrG)

theorem shelfGb_ne_one {G r : ℝ} (hr : 0 < r) (hrG : r < |G|) : shelfGb G r ≠ 1 := by
  rcases shelf_order hr hrG with ⟨h3, _⟩ | ⟨h3, _⟩
  · exact h3.ne'
  · exact h3.ne

theorem shelfEps_sq {G r : ℝ} (hr : 0 < r) (hrG : r < |G|) :
    shelfEps G r ^ 2 * (shelfGb G r ^ 2 - 1) = shelfG G ^ 2 - shelfGb G r ^ 2 := by
  have h : shelfGb G r ^ 2 - 1 ≠ 0 := by
    have h2 := shelfGb_pos G r
    rcases shelf_order hr hrG with ⟨h3, _⟩ | ⟨h3, _⟩ <;> nlinarith
  rw [shelfEps, Real.sq_sqrt (shelfEps_arg_pos hr hrG).le, div_mul_cancel₀ _ h]

theorem ChebyshevI.done_lowShelfBuild (hn1 : 1 ≤ n) (hn : n < 1073741824) (hL : (n + 1) / 2 ≤ L)
    {G r : ℝ} (hr : 0 < r) (hrG : r < |G|) :
    Done (Layout.Stored ps m L w g) (ChebyshevI.lowShelfBuild (n : ℤ) (fin G) (fin r))
      (Layout.Stored (chebyshevShelf n (chebV n (shelfEps G r / shelfG G)) (chebV n (shelfEps G r))).stored
        n L w g) := by
  have hn0 : (n : ℝ) ≠ 0 := by positivity
  have hn2 : (2 * n : ℝ) ≠ 0 := by positivity
  have hG := shelfG_pos G
  have hGb := shelfGb_pos G r
  have heps := shelfEps_pos hr hrG
  have hsq := shelfEps_sq hr hrG
  have hg0 : FArith.pow (1 : XR) (1 / Proto.ofI (n : ℤ)) = fin 1 := by
    simp only [Proto.ofI, ofInt_eq, lit_one]
    push_cast
    rw [fin_div _ hn0, pow_fin _ one_pos, Real.one_rpow]
  have e1 : FArith.pow 10 (-fin G / 20) = fin (shelfG G) := by
    rw [lit_ofNat, lit_ofNat, fin_neg, fin_div _ (by norm_num), pow_fin _ (by norm_num), shelfG]
  have e2 : (if fle (fabs (-fin G)) (fin r) = true then fabs (-fin G) else fin r) = fin r := by
    simp [hrG]
  have e3 : FArith.pow 10 ((-fin G - (if flt (-fin G) 0 = true then -fin r else fin r)) / 20) =
      fin (shelfGb G r) := by
    have : (if flt (-fin G) 0 = true then -fin r else fin r) = fin (if -G < 0 then -r else r) := by
      by_cases h : -G < 0
      · have h' : 0 < G := by linarith
        simp [h']
      · have h' : ¬0 < G := by linarith
        simp [h']
    rw [this, lit_ofNat, lit_ofNat, fin_neg, fin_sub, fin_div _ (by norm_num), pow_fin _ (by norm_num), shelfGb]
  have hsqrt : Real.sqrt (1 + 1 / (shelfEps G r * shelfEps G r)) * shelfGb G r =
      Real.sqrt (1 + (shelfG G / shelfEps G r) ^ 2) := by
    conv_lhs => rw [← Real.sqrt_sq hGb.le]
    rw [← Real.sqrt_mul (by positivity)]
    congr 1
    field_simp; linarith
  have h1e : (0 : ℝ) ≤ 1 + 1 / (shelfEps G r * shelfEps G r) := by positivity
  have e4 : (if fne (fin (shelfGb G r)) 1 = true then
      FArith.sqrt ((fin (shelfG G) * fin (shelfG G) - fin (shelfGb G r) * fin (shelfGb G r)) /
        (fin (shelfGb G r) * fin (shelfGb G r) - 1 * 1)) else fin (shelfG G) - 1) = fin (shelfEps G r) := by
    have hne : shelfGb G r * shelfGb G r - 1 * 1 ≠ 0 := by
      rcases shelf_order hr hrG with ⟨h3, _⟩ | ⟨h3, _⟩ <;> nlinarith
    have := shelfEps_arg_pos hr hrG
    simp only [lit_one, fne_fin, shelfGb_ne_one hr hrG, ne_eq, not_false_eq_true, decide_true, if_true,
      fin_mul, fin_sub]
    rw [fin_div _ hne, sqrt_fin, shelfEps]
    · simp only [sq, mul_one]
    · simpa only [sq, mul_one] using this.le
  have e5 : FArith.log (FArith.pow (fin (shelfG G) / fin (shelfEps G r) +
        fin (shelfGb G r) * FArith.sqrt (1 + 1 / (fin (shelfEps G r) * fin (shelfEps G r))))
        (1 / Proto.ofI (n : ℤ)) / fin 1) = fin (chebV n (shelfEps G r / shelfG G)) := by
    simp only [Proto.ofI, ofInt_eq, lit_one, fin_mul]
    push_cast
    rw [fin_div _ hn0, fin_div _ heps.ne', fin_div _ (mul_pos heps heps).ne', fin_add, sqrt_fin h1e, fin_mul, fin_add,
      mul_comm (shelfGb G r), hsqrt]
    have hp : 0 < shelfG G / shelfEps G r + Real.sqrt (1 + (shelfG G / shelfEps G r) ^ 2) := by positivity
    rw [pow_fin _ hp, fin_div _ one_ne_zero, div_one, log_fin (by positivity), Real.log_rpow hp, chebV,
      one_div_div, Real.arsinh, one_div_mul_eq_div]
  have e6 : FArith.log (FArith.pow (1 / fin (shelfEps G r) +
        FArith.sqrt (1 + 1 / (fin (shelfEps G r) * fin (shelfEps G r))))
        (1 / Proto.ofI (n : ℤ))) = fin (chebV n (shelfEps G r)) := by
    simp only [Proto.ofI, ofInt_eq, lit_one, fin_mul]
    push_cast
    have hp : 0 < 1 / shelfEps G r + Real.sqrt (1 + 1 / (shelfEps G r * shelfEps G r)) := by positivity
    rw [fin_div _ hn0, fin_div _ heps.ne', fin_div _ (mul_pos heps heps).ne', fin_add, sqrt_fin h1e, fin_add,
      pow_fin _ hp, log_fin (by positivity), Real.log_rpow hp, chebV, Real.arsinh, one_div_mul_eq_div]
    congr 6
    rw [div_pow, one_pow, sq]
  unfold ChebyshevI.lowShelfBuild
  refine Trip.bind done_reset fun _ => ?_
  simp only [e2]
  simp only [e1, e3, hg0]
  simp only [e4, e5, e6]
  refine Done.intChecked_ok (by omega) ?_
  simp only [tdiv_two, int_odd]
  set u := chebV n (shelfEps G r / shelfG G)
  set v := chebV n (shelfEps G r)
  refine Analog.done_build (chebyshevShelf_sym n u v) hL (fun i hi => ?_) ?_
  · have e : (pi * Proto.ofI (2 * ((i : ℤ) + 1) - 1) / Proto.ofI (2 * (n : ℤ)) : XR) = fin (angle n i) := by
      simp only [Proto.ofI, ofInt_eq, pi_eq, fin_mul]
      push_cast
      rw [fin_div _ hn2, angle]; congr 2; ring
    rw [e]
    simp only [sinh_fin, cosh_fin, cos_fin, sin_fin, fin_neg, fin_mul, chebyshevShelf, rootX_some, mk_eq_ofC]
    congr 2 <;> apply Complex.ext <;> simp [chebPole] <;> ring
  · by_cases h : n % 2 = 1
    · simp only [h, decide_true, if_true, chebyshevShelf, chebPole_mid h, rootX_some, sinh_fin, fin_neg, ofR_fin]
    · simp [h, chebyshevShelf]

theorem ChebyshevII.done_lowShelfBuild (hn1 : 1 ≤ n) (hn : n < 1073741824) (hL : (n + 1) / 2 ≤ L)
    {G r : ℝ} (hr : 0 < r) (hrG : r < |G|) :
    Done (Layout.Stored ps m L w g) (ChebyshevII.lowShelfBuild (n : ℤ) (fin G) (fin r))
      (Layout.Stored (chebyshevShelf n (chebV n (shelfEps G r / shelfG G)) (chebV n (shelfEps G r))).stored
        n L w g) :=
  ChebyshevI.done_lowShelfBuild hn1 hn hL hr hrG

end
end Iir
