import Verif.Math.Rounding
import Verif.Spec.Contraction

/-! # One section in arithmetic with rounding errors -/

namespace Iir
open FArith Spec

variable {R : Type} [FArith R] {u η Ω : ℝ} (r : Rounds R u η Ω) {M : ℝ}

namespace Spec.Rounds

theorem add' (hM : M ≤ Ω) {x y : R} (hx : r.Fin x) (hy : r.Fin y) (h : |r.val x + r.val y| ≤ M) :
    r.Fin (x + y) ∧ |r.val (x + y) - (r.val x + r.val y)| ≤ u * M + η := by
  obtain ⟨h1, h2⟩ := r.add x y hx hy (h.trans hM)
  exact ⟨h1, h2.trans (by have := mul_le_mul_of_nonneg_left h r.u_nonneg; linarith)⟩

theorem sub' (hM : M ≤ Ω) {x y : R} (hx : r.Fin x) (hy : r.Fin y) (h : |r.val x - r.val y| ≤ M) :
    r.Fin (x - y) ∧ |r.val (x - y) - (r.val x - r.val y)| ≤ u * M + η := by
  obtain ⟨h1, h2⟩ := r.sub x y hx hy (h.trans hM)
  exact ⟨h1, h2.trans (by have := mul_le_mul_of_nonneg_left h r.u_nonneg; linarith)⟩

theorem mul' (hM : M ≤ Ω) {x y : R} (hx : r.Fin x) (hy : r.Fin y) (h : |r.val x * r.val y| ≤ M) :
    r.Fin (x * y) ∧ |r.val (x * y) - r.val x * r.val y| ≤ u * M + η := by
  obtain ⟨h1, h2⟩ := r.mul x y hx hy (h.trans hM)
  exact ⟨h1, h2.trans (by have := mul_le_mul_of_nonneg_left h r.u_nonneg; linarith)⟩

/-- a coefficient times a signal -/
theorem coef (hM : M ≤ Ω) {c x : R} {kc : ℝ} (hc : r.Fin c ∧ r.val c = kc) (hx : r.Fin x) (h : |kc * r.val x| ≤ M) :
    r.Fin (c * x) ∧ |r.val (c * x) - kc * r.val x| ≤ u * M + η := by
  obtain ⟨hc, rfl⟩ := hc
  exact r.mul' hM hc hx h

end Spec.Rounds

/-! ## Sums of products, with or without fused operations -/

namespace Spec.Expr

/-- the exact value -/
def exact : Expr R → ℝ
  | .var x => r.val x
  | .prod a b => r.val a * r.val b
  | .add e f => exact e + exact f
  | .sub e f => exact e - exact f

/-- the sum of the magnitudes of the terms -/
def mag : Expr R → ℝ
  | .var x => |r.val x|
  | .prod a b => |r.val a * r.val b|
  | .add e f => mag e + mag f
  | .sub e f => mag e + mag f

def Fins : Expr R → Prop
  | .var x => r.Fin x
  | .prod a b => r.Fin a ∧ r.Fin b
  | .add e f => Fins e ∧ Fins f
  | .sub e f => Fins e ∧ Fins f

/-- the number of operations -/
def ops : Expr R → ℝ
  | .var _ => 0
  | .prod _ _ => 1
  | .add e f => ops e + ops f + 1
  | .sub e f => ops e + ops f + 1

theorem ops_nonneg : ∀ e : Expr R, 0 ≤ ops e
  | .var _ => le_rfl
  | .prod _ _ => zero_le_one
  | .add e f => by have := ops_nonneg e; have := ops_nonneg f; simp only [ops]; linarith
  | .sub e f => by have := ops_nonneg e; have := ops_nonneg f; simp only [ops]; linarith

theorem abs_exact_le : ∀ e : Expr R, |exact r e| ≤ mag r e
  | .var _ => le_rfl
  | .prod _ _ => le_rfl
  | .add e f => (abs_add_le _ _).trans (add_le_add (abs_exact_le e) (abs_exact_le f))
  | .sub e f => (abs_sub _ _).trans (add_le_add (abs_exact_le e) (abs_exact_le f))

theorem mag_nonneg (e : Expr R) : 0 ≤ mag r e := (abs_nonneg _).trans (abs_exact_le r e)

end Spec.Expr

variable {F : Option (R → R → R → R)}

/-- However the expression is compiled, the error is at most one rounding error per operation. -/
theorem Spec.Computes.close (hF : ∀ fma ∈ F, r.Fused fma) (hM : M ≤ Ω) (hM0 : 0 ≤ M) {e : Expr R} {v : R}
    (h : Computes F e v) (hf : e.Fins r) (hS : e.mag r + e.ops * (u * M + η) ≤ M) :
    r.Fin v ∧ |r.val v - e.exact r| ≤ e.ops * (u * M + η) := by
  have hδ : 0 ≤ u * M + η := add_nonneg (mul_nonneg r.u_nonneg hM0) r.η_nonneg
  generalize hδ' : u * M + η = δ at hS hδ ⊢
  have le' : ∀ {t : ℝ}, |t| ≤ M → u * |t| + η ≤ δ := fun {t} ht => by
    have := mul_le_mul_of_nonneg_left ht r.u_nonneg; linarith
  induction h with
  | var x => exact ⟨hf, by simp [Expr.exact, Expr.ops]⟩
  | prod a b =>
    simp only [Expr.mag, Expr.ops, Expr.exact, one_mul] at hS ⊢
    have h1 : |r.val a * r.val b| ≤ M := by linarith
    obtain ⟨h2, h3⟩ := r.mul a b hf.1 hf.2 (h1.trans hM)
    exact ⟨h2, h3.trans (le' h1)⟩
  | @add e f v w _ _ ih1 ih2 =>
    simp only [Expr.mag, Expr.ops, Expr.exact] at hS ⊢
    have m1 := Expr.mag_nonneg r e
    have m2 := Expr.mag_nonneg r f
    have o1 := mul_nonneg (Expr.ops_nonneg e) hδ
    have o2 := mul_nonneg (Expr.ops_nonneg f) hδ
    obtain ⟨f1, e1⟩ := ih1 hf.1 (by linarith)
    obtain ⟨f2, e2⟩ := ih2 hf.2 (by linarith)
    have a1 := abs_le.1 (Expr.abs_exact_le r e)
    have a2 := abs_le.1 (Expr.abs_exact_le r f)
    rw [abs_le] at e1 e2
    have h1 : |r.val v + r.val w| ≤ M := abs_le.2 ⟨by linarith, by linarith⟩
    obtain ⟨h2, h3⟩ := r.add v w f1 f2 (h1.trans hM)
    have h3 := abs_le.1 (h3.trans (le' h1))
    exact ⟨h2, abs_le.2 ⟨by linarith, by linarith⟩⟩
  | @sub e f v w _ _ ih1 ih2 =>
    simp only [Expr.mag, Expr.ops, Expr.exact] at hS ⊢
    have m1 := Expr.mag_nonneg r e
    have m2 := Expr.mag_nonneg r f
    have o1 := mul_nonneg (Expr.ops_nonneg e) hδ
    have o2 := mul_nonneg (Expr.ops_nonneg f) hδ
    obtain ⟨f1, e1⟩ := ih1 hf.1 (by linarith)
    obtain ⟨f2, e2⟩ := ih2 hf.2 (by linarith)
    have a1 := abs_le.1 (Expr.abs_exact_le r e)
    have a2 := abs_le.1 (Expr.abs_exact_le r f)
    rw [abs_le] at e1 e2
    have h1 : |r.val v - r.val w| ≤ M := abs_le.2 ⟨by linarith, by linarith⟩
    obtain ⟨h2, h3⟩ := r.sub v w f1 f2 (h1.trans hM)
    have h3 := abs_le.1 (h3.trans (le' h1))
    exact ⟨h2, abs_le.2 ⟨by linarith, by linarith⟩⟩
  | @fuseLeft fma a b f w hfma _ ih =>
    simp only [Expr.mag, Expr.ops, Expr.exact] at hS ⊢
    have m2 := Expr.mag_nonneg r f
    have m1 := abs_nonneg (r.val a * r.val b)
    have o2 := mul_nonneg (Expr.ops_nonneg f) hδ
    obtain ⟨f2, e2⟩ := ih hf.2 (by linarith)
    have a1 := abs_le.1 (le_refl |r.val a * r.val b|)
    have a2 := abs_le.1 (Expr.abs_exact_le r f)
    rw [abs_le] at e2
    have h1 : |r.val a * r.val b + r.val w| ≤ M := abs_le.2 ⟨by linarith, by linarith⟩
    obtain ⟨h2, h3⟩ := (hF fma hfma).fma a b w hf.1.1 hf.1.2 f2 (h1.trans hM)
    have h3 := abs_le.1 (h3.trans (le' h1))
    exact ⟨h2, abs_le.2 ⟨by linarith, by linarith⟩⟩
  | @fuseRight fma e v a b hfma _ ih =>
    simp only [Expr.mag, Expr.ops, Expr.exact] at hS ⊢
    have m2 := Expr.mag_nonneg r e
    have m1 := abs_nonneg (r.val a * r.val b)
    have o2 := mul_nonneg (Expr.ops_nonneg e) hδ
    obtain ⟨f2, e2⟩ := ih hf.1 (by linarith)
    have a1 := abs_le.1 (le_refl |r.val a * r.val b|)
    have a2 := abs_le.1 (Expr.abs_exact_le r e)
    rw [abs_le] at e2
    have h1 : |r.val a * r.val b + r.val v| ≤ M := abs_le.2 ⟨by linarith, by linarith⟩
    obtain ⟨h2, h3⟩ := (hF fma hfma).fma a b v hf.2.1 hf.2.2 f2 (h1.trans hM)
    have h3 := abs_le.1 (h3.trans (le' h1))
    exact ⟨h2, abs_le.2 ⟨by linarith, by linarith⟩⟩
  | @fuseSubLeft fma a b f w hfma _ ih =>
    simp only [Expr.mag, Expr.ops, Expr.exact] at hS ⊢
    have m2 := Expr.mag_nonneg r f
    have m1 := abs_nonneg (r.val a * r.val b)
    have o2 := mul_nonneg (Expr.ops_nonneg f) hδ
    obtain ⟨f2, e2⟩ := ih hf.2 (by linarith)
    have a1 := abs_le.1 (le_refl |r.val a * r.val b|)
    have a2 := abs_le.1 (Expr.abs_exact_le r f)
    rw [abs_le] at e2
    obtain ⟨n1, n2⟩ := (hF fma hfma).neg w f2
    have h1 : |r.val a * r.val b + r.val (-w)| ≤ M := by rw [n2]; exact abs_le.2 ⟨by linarith, by linarith⟩
    obtain ⟨h2, h3⟩ := (hF fma hfma).fma a b (-w) hf.1.1 hf.1.2 n1 (h1.trans hM)
    have h3 := abs_le.1 (h3.trans (le' h1))
    rw [n2] at h3
    exact ⟨h2, abs_le.2 ⟨by linarith, by linarith⟩⟩
  | @fuseSubRight fma e v a b hfma _ ih =>
    simp only [Expr.mag, Expr.ops, Expr.exact] at hS ⊢
    have m2 := Expr.mag_nonneg r e
    have m1 := abs_nonneg (r.val a * r.val b)
    have o2 := mul_nonneg (Expr.ops_nonneg e) hδ
    obtain ⟨f2, e2⟩ := ih hf.1 (by linarith)
    have a1 := abs_le.1 (le_refl |r.val a * r.val b|)
    have a2 := abs_le.1 (Expr.abs_exact_le r e)
    rw [abs_le] at e2
    obtain ⟨n1, n2⟩ := (hF fma hfma).neg a hf.2.1
    have h1 : |r.val (-a) * r.val b + r.val v| ≤ M := by rw [n2]; exact abs_le.2 ⟨by linarith, by linarith⟩
    obtain ⟨h2, h3⟩ := (hF fma hfma).fma (-a) b v n1 hf.2.2 f2 (h1.trans hM)
    have h3 := abs_le.1 (h3.trans (le' h1))
    rw [n2] at h3
    exact ⟨h2, abs_le.2 ⟨by linarith, by linarith⟩⟩

variable {b : Biquad R} {k : Coeffs}

/-- Direct Form I: nine operations. -/
theorem df1_local (hF : ∀ fma ∈ F, r.Fused fma) (hM : M ≤ Ω) (hMnn : 0 ≤ M) (hv : r.Values b k) {x x1 x2 y1 y2 y : R}
    (h : Computes F (.sub (.sub (.add (.add (.prod b.b0 x) (.prod b.b1 x1)) (.prod b.b2 x2)) (.prod b.a1 y1))
      (.prod b.a2 y2)) y) (hx : r.Fin x) (hx1 : r.Fin x1) (hx2 : r.Fin x2) (hy1 : r.Fin y1) (hy2 : r.Fin y2)
    (hS : |k.b0 * r.val x| + |k.b1 * r.val x1| + |k.b2 * r.val x2| + |k.a1 * r.val y1| + |k.a2 * r.val y2| +
      9 * (u * M + η) ≤ M) :
    r.Fin y ∧ |r.val y -
        (k.b0 * r.val x + k.b1 * r.val x1 + k.b2 * r.val x2 - k.a1 * r.val y1 - k.a2 * r.val y2)| ≤ 9 * (u * M + η) := by
  have := h.close r hF hM hMnn ⟨⟨⟨⟨⟨hv.b0.1, hx⟩, hv.b1.1, hx1⟩, hv.b2.1, hx2⟩, hv.a1.1, hy1⟩, hv.a2.1, hy2⟩ (by
    simp only [Expr.mag, Expr.ops, hv.b0.2, hv.b1.2, hv.b2.2, hv.a1.2, hv.a2.2]; linarith)
  simp only [Expr.exact, Expr.ops, hv.b0.2, hv.b1.2, hv.b2.2, hv.a1.2, hv.a2.2] at this
  exact ⟨this.1, by linarith [this.2]⟩

/-- Direct Form II: four operations for the new delay line entry, five for the output. -/
theorem df2_local (hF : ∀ fma ∈ F, r.Fused fma) (hM : M ≤ Ω) (hMnn : 0 ≤ M) (hv : r.Values b k) {x v1 v2 w : R}
    (h : Computes F (.sub (.sub (.var x) (.prod b.a1 v1)) (.prod b.a2 v2)) w) (hx : r.Fin x) (hv1 : r.Fin v1)
    (hv2 : r.Fin v2) (hS : |r.val x| + |k.a1 * r.val v1| + |k.a2 * r.val v2| + 9 * (u * M + η) ≤ M) :
    r.Fin w ∧ |r.val w - (r.val x - k.a1 * r.val v1 - k.a2 * r.val v2)| ≤ 4 * (u * M + η) := by
  have hδ : 0 ≤ u * M + η := add_nonneg (mul_nonneg r.u_nonneg hMnn) r.η_nonneg
  have := h.close r hF hM hMnn ⟨⟨hx, hv.a1.1, hv1⟩, hv.a2.1, hv2⟩ (by
    simp only [Expr.mag, Expr.ops, hv.a1.2, hv.a2.2]; linarith)
  simp only [Expr.exact, Expr.ops, hv.a1.2, hv.a2.2] at this
  exact ⟨this.1, by linarith [this.2]⟩

theorem df2_out (hF : ∀ fma ∈ F, r.Fused fma) (hM : M ≤ Ω) (hMnn : 0 ≤ M) (hv : r.Values b k) {w v1 v2 y : R}
    (h : Computes F (.add (.add (.prod b.b0 w) (.prod b.b1 v1)) (.prod b.b2 v2)) y) (hw : r.Fin w) (hv1 : r.Fin v1)
    (hv2 : r.Fin v2) (hS : |k.b0 * r.val w| + |k.b1 * r.val v1| + |k.b2 * r.val v2| + 9 * (u * M + η) ≤ M) :
    r.Fin y ∧ |r.val y - (k.b0 * r.val w + k.b1 * r.val v1 + k.b2 * r.val v2)| ≤ 5 * (u * M + η) := by
  have hδ : 0 ≤ u * M + η := add_nonneg (mul_nonneg r.u_nonneg hMnn) r.η_nonneg
  have := h.close r hF hM hMnn ⟨⟨⟨hv.b0.1, hw⟩, hv.b1.1, hv1⟩, hv.b2.1, hv2⟩ (by
    simp only [Expr.mag, Expr.ops, hv.b0.2, hv.b1.2, hv.b2.2]; linarith)
  simp only [Expr.exact, Expr.ops, hv.b0.2, hv.b1.2, hv.b2.2] at this
  exact ⟨this.1, by linarith [this.2]⟩

/-- Transposed Direct Form II, output: two operations. -/
theorem tdf2_out (hF : ∀ fma ∈ F, r.Fused fma) (hM : M ≤ Ω) (hMnn : 0 ≤ M) (hv : r.Values b k) {x s1 y : R}
    (h : Computes F (.add (.var s1) (.prod b.b0 x)) y) (hx : r.Fin x) (hs1 : r.Fin s1)
    (hS : |r.val s1| + |k.b0 * r.val x| + 2 * (u * M + η) ≤ M) :
    r.Fin y ∧ |r.val y - (r.val s1 + k.b0 * r.val x)| ≤ 2 * (u * M + η) := by
  have := h.close r hF hM hMnn ⟨hs1, hv.b0.1, hx⟩ (by simp only [Expr.mag, Expr.ops, hv.b0.2]; linarith)
  simp only [Expr.exact, Expr.ops, hv.b0.2] at this
  exact ⟨this.1, by linarith [this.2]⟩

/-- Transposed Direct Form II, first delay line entry: four operations. -/
theorem tdf2_s1 (hF : ∀ fma ∈ F, r.Fused fma) (hM : M ≤ Ω) (hMnn : 0 ≤ M) (hv : r.Values b k) {x s2 y s1 : R}
    (h : Computes F (.sub (.add (.var s2) (.prod b.b1 x)) (.prod b.a1 y)) s1) (hx : r.Fin x) (hs2 : r.Fin s2)
    (hy : r.Fin y) (hS : |r.val s2| + |k.b1 * r.val x| + |k.a1 * r.val y| + 4 * (u * M + η) ≤ M) :
    r.Fin s1 ∧ |r.val s1 - (r.val s2 + k.b1 * r.val x - k.a1 * r.val y)| ≤ 4 * (u * M + η) := by
  have := h.close r hF hM hMnn ⟨⟨hs2, hv.b1.1, hx⟩, hv.a1.1, hy⟩ (by
    simp only [Expr.mag, Expr.ops, hv.b1.2, hv.a1.2]; linarith)
  simp only [Expr.exact, Expr.ops, hv.b1.2, hv.a1.2] at this
  exact ⟨this.1, by linarith [this.2]⟩

/-- Transposed Direct Form II, second delay line entry: three operations. -/
theorem tdf2_s2 (hF : ∀ fma ∈ F, r.Fused fma) (hM : M ≤ Ω) (hMnn : 0 ≤ M) (hv : r.Values b k) {x y s2 : R}
    (h : Computes F (.sub (.prod b.b2 x) (.prod b.a2 y)) s2) (hx : r.Fin x)
    (hy : r.Fin y) (hS : |k.b2 * r.val x| + |k.a2 * r.val y| + 3 * (u * M + η) ≤ M) :
    r.Fin s2 ∧ |r.val s2 - (k.b2 * r.val x - k.a2 * r.val y)| ≤ 3 * (u * M + η) := by
  have := h.close r hF hM hMnn ⟨⟨hv.b2.1, hx⟩, hv.a2.1, hy⟩ (by
    simp only [Expr.mag, Expr.ops, hv.b2.2, hv.a2.2]; linarith)
  simp only [Expr.exact, Expr.ops, hv.b2.2, hv.a2.2] at this
  exact ⟨this.1, by linarith [this.2]⟩

end Iir
