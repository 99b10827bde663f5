import Verif.Exact.Reversed

/-! # C53: a pole outside the unit circle makes the output grow beyond all bounds

The converse of C28.  `UncancelledPole` asks that no numerator of the chain vanishes at the pole: a pole that is
cancelled by a zero cannot be seen in the impulse response. -/

set_option linter.unusedSectionVars false

namespace Iir
open FArith XR Spec Exec

variable {S : Type → Type} [StateType S XR] [DelayLine XR S] {T : Type} [Sample T XR]

/-- **C53**, pole filters, after any history. -/
theorem C53_pole_filter {c : Cls} {n : Nat} (hn1 : 1 ≤ n) (hn : n < 2 ^ 30) {f : PoleFilter S XR}
    (h : Reach S T c n f) {ks : List Coeffs} (hks : HasSections f.base.cascade.stages ks) {p : ℂ} (hp : 1 < ‖p‖)
    (hu : UncancelledPole ks p) :
    ∃ y, Produces (PoleFilter.filter (T := XR)) (PoleFilter.reset f).2 impulse y ∧ Unbounded y :=
  h.diverges hn1 hn hks hp hu

/-- **C53**, SOS cascades. -/
theorem C53_sos {f : Custom.SOS S XR} {ks : List Coeffs} (hks : HasSections f.stages ks)
    (hl : f.states.length = f.stages.length) {p : ℂ} (hp : 1 < ‖p‖) (hu : UncancelledPole ks p) :
    ∃ y, Produces (Custom.SOS.filter (T := XR)) (Custom.SOS.reset f).2 impulse y ∧ Unbounded y := by
  have h := Custom.SOS.produces (f := (Custom.SOS.reset f).2) (hasSections_iff.1 hks).1
    (Custom.SOS.sims_reset (by rw [hl, hks.length, List.length_map])) impulse
  rw [List.length_map] at h
  exact ⟨_, h, chain_unbounded (hasSections_iff.1 hks).2 (chain_diffChain ks _) hp hu⟩

theorem single_unbounded {k : Coeffs} (h0 : k.a0 ≠ 0) {p : ℂ} (hp : 1 < ‖p‖)
    (hd : (k.a0 : ℂ) * p ^ 2 + k.a1 * p + k.a2 = 0) (hn : (k.b0 : ℂ) * p ^ 2 + k.b1 * p + k.b2 ≠ 0)
    {y : ℕ → ℝ} (hy : k.DiffEq impulse y) : Unbounded y :=
  chain_unbounded (ks := [k]) (by simpa using h0) (.cons hy (.nil _)) hp
    ⟨⟨k, List.mem_singleton.2 rfl, hd⟩, by simpa using hn⟩

theorem exists_diffEq {k : Coeffs} (h0 : k.a0 ≠ 0) (x : ℕ → ℝ) : ∃ y, k.DiffEq x y :=
  ⟨_, (C01_difference_equation (S := DirectFormI) (hasCoeffs_iff.2 ⟨rfl, h0⟩) x _).1
    (biquad_produces (ExactState.sim_init (S := DirectFormI) k.norm) x)⟩

/-- **C53**, one section with any delay line type. -/
theorem C53_section {b : Biquad XR} {k : Coeffs} (hb : HasCoeffs b k) {p : ℂ} (hp : 1 < ‖p‖)
    (hd : (k.a0 : ℂ) * p ^ 2 + k.a1 * p + k.a2 = 0) (hn : (k.b0 : ℂ) * p ^ 2 + k.b1 * p + k.b2 ≠ 0) (s : S XR) :
    ∃ y, Produces (biquadFilter b) (StateType.reset s) impulse y ∧ Unbounded y := by
  have h0 := (hasCoeffs_iff.1 hb).2
  obtain ⟨y, hy⟩ := exists_diffEq h0 impulse
  exact ⟨y, (C01_after_reset hb s _ _).2 hy, single_unbounded h0 hp hd hn hy⟩

/-- **C53**, RBJ filters. -/
theorem C53_rbj {f : RBJ.Filter XR} {k : Coeffs} (hb : HasCoeffs f.biquad k) {p : ℂ} (hp : 1 < ‖p‖)
    (hd : (k.a0 : ℂ) * p ^ 2 + k.a1 * p + k.a2 = 0) (hn : (k.b0 : ℂ) * p ^ 2 + k.b1 * p + k.b2 ≠ 0) :
    ∃ y, Produces (RBJ.Filter.filter (T := XR)) (RBJ.Filter.reset f).2 impulse y ∧ Unbounded y := by
  have h0 := (hasCoeffs_iff.1 hb).2
  obtain ⟨y, hy⟩ := exists_diffEq h0 impulse
  exact ⟨y, (C01_rbj hb _ _).2 hy, single_unbounded h0 hp hd hn hy⟩

/-! ## Poles on the unit circle -/

/-- **C53**, the limit case included: with an uncancelled pole on or outside the unit circle some input bounded by 1 makes
the output of a pole filter unbounded. -/
theorem C53_resonance {c : Cls} {n : Nat} (hn1 : 1 ≤ n) (hn : n < 2 ^ 30) {f : PoleFilter S XR}
    (h : Reach S T c n f) {ks : List Coeffs} (hks : HasSections f.base.cascade.stages ks) {p : ℂ} (hp : 1 ≤ ‖p‖)
    (hu : UncancelledPole ks p) :
    ∃ x y : ℕ → ℝ, (∀ n, |x n| ≤ 1) ∧ Produces (PoleFilter.filter (T := XR)) (PoleFilter.reset f).2 x y ∧
      Unbounded y := by
  obtain ⟨x, h1, h2⟩ := chain_resonance (hasSections_iff.1 hks).2 (chain_diffChain ks impulse) hp hu
  exact ⟨x, _, h1, (C01_pole_filter hn1 hn h hks _ _).2 (chain_diffChain ks x), h2 _ (chain_diffChain ks x)⟩

/-- **C53**, the same for SOS cascades. -/
theorem C53_resonance_sos {f : Custom.SOS S XR} {ks : List Coeffs} (hks : HasSections f.stages ks)
    (hl : f.states.length = f.stages.length) {p : ℂ} (hp : 1 ≤ ‖p‖) (hu : UncancelledPole ks p) :
    ∃ x y : ℕ → ℝ, (∀ n, |x n| ≤ 1) ∧ Produces (Custom.SOS.filter (T := XR)) (Custom.SOS.reset f).2 x y ∧
      Unbounded y := by
  obtain ⟨x, h1, h2⟩ := chain_resonance (hasSections_iff.1 hks).2 (chain_diffChain ks impulse) hp hu
  have h := Custom.SOS.produces (f := (Custom.SOS.reset f).2) (hasSections_iff.1 hks).1
    (Custom.SOS.sims_reset (by rw [hl, hks.length, List.length_map])) x
  rw [List.length_map] at h
  exact ⟨x, _, h1, h, h2 _ (chain_diffChain ks x)⟩

/-- **C53**, the same for RBJ filters. -/
theorem C53_resonance_rbj {f : RBJ.Filter XR} {k : Coeffs} (hb : HasCoeffs f.biquad k) {p : ℂ} (hp : 1 ≤ ‖p‖)
    (hd : (k.a0 : ℂ) * p ^ 2 + k.a1 * p + k.a2 = 0) (hn : (k.b0 : ℂ) * p ^ 2 + k.b1 * p + k.b2 ≠ 0) :
    ∃ x y : ℕ → ℝ, (∀ n, |x n| ≤ 1) ∧ Produces (RBJ.Filter.filter (T := XR)) (RBJ.Filter.reset f).2 x y ∧
      Unbounded y := by
  have h0 := (hasCoeffs_iff.1 hb).2
  obtain ⟨y, hy⟩ := exists_diffEq h0 impulse
  obtain ⟨x, h1, h2⟩ := chain_resonance (ks := [k]) (by simpa using h0) (.cons hy (.nil _)) hp
    ⟨⟨k, List.mem_singleton.2 rfl, hd⟩, by simpa using hn⟩
  obtain ⟨y, hy⟩ := exists_diffEq h0 x
  exact ⟨x, y, h1, (C01_rbj hb _ _).2 hy, h2 _ (.cons hy (.nil _))⟩

/-- **C53** and C28 together: when no pole is cancelled by a zero, every bounded input gives a bounded output exactly if
all poles are inside the unit circle. -/
theorem C53_criterion {c : Cls} {n : Nat} (hn1 : 1 ≤ n) (hn : n < 2 ^ 30) {f : PoleFilter S XR}
    (h : Reach S T c n f) {ks : List Coeffs} (hks : HasSections f.base.cascade.stages ks)
    (hu : ∀ p : ℂ, (∃ k ∈ ks, (k.a0 : ℂ) * p ^ 2 + k.a1 * p + k.a2 = 0) → UncancelledPole ks p) :
    (∀ x : ℕ → ℝ, (∃ M, ∀ n, |x n| ≤ M) → ∃ y, Produces (PoleFilter.filter (T := XR)) (PoleFilter.reset f).2 x y ∧
      ∃ B, ∀ n, |y n| ≤ B) ↔ ∀ k ∈ ks, k.Stable := by
  constructor
  · intro hb k hk p hp
    by_contra hge
    push Not at hge
    obtain ⟨x, y, h1, h2, h3⟩ := C53_resonance hn1 hn h hks hge (hu p ⟨k, hk, hp⟩)
    obtain ⟨y', h4, B, h5⟩ := hb x ⟨1, h1⟩
    obtain ⟨m, h6⟩ := h3 B
    rw [h2.unique h4] at h6
    exact absurd (h5 m) (not_le.2 h6)
  · rintro hst x ⟨M, hM⟩
    have hr : Reach S T c n (PoleFilter.reset f).2 :=
      .call f _ .reset (.ok ()) h trivial rfl fun u h => by cases h
    have hfin : FiniteStates (PoleFilter.reset f).2.states := by
      intro s hs
      obtain ⟨s', -, rfl⟩ : ∃ s' ∈ f.states, StateType.reset s' = s := by
        simpa [PoleFilter.reset, CascadeStages.reset] using hs
      rw [LawfulState.reset_eq]
      exact ExactState.finite_init
    obtain ⟨y, B, h1, h2⟩ := C28_bounded hn1 hn hr (ks := ks) hks hst hfin hM
    exact ⟨y, h1, B, h2⟩

/-- `y[n] = x[n] + 2 y[n-1]` -/
def exGrow : Coeffs := { a0 := 1, a1 := -2, a2 := 0, b0 := 1, b1 := 0, b2 := 0 }

example (s : DirectFormII XR) : ∃ y, Produces (biquadFilter exGrow.norm.toX)
    (@StateType.reset DirectFormII XR exactArith _ s) impulse y ∧ Unbounded y :=
  C53_section (hasCoeffs_iff.2 ⟨rfl, by simp [exGrow]⟩) (p := 2) (by norm_num) (by simp [exGrow]; norm_num)
    (by simp [exGrow]) _

example : UncancelledPole [exGrow, exCoeffs] 2 :=
  ⟨⟨exGrow, by simp, by simp [exGrow]; norm_num⟩, by
    intro k hk
    simp only [List.mem_cons, List.not_mem_nil, or_false] at hk
    rcases hk with rfl | rfl
    · simp [exGrow]
    · simp [exCoeffs]; norm_num⟩

/-- The integrator `y[n] = x[n] + y[n-1]`: a pole on the unit circle. -/
def exSum : Coeffs := { a0 := 1, a1 := -1, a2 := 0, b0 := 1, b1 := 0, b2 := 0 }

example : ∃ x y : ℕ → ℝ, (∀ n, |x n| ≤ 1) ∧
    Produces (RBJ.Filter.filter (T := XR)) (RBJ.Filter.reset (RBJ.Filter.mk exSum.norm.toX (@StateType.init DirectFormI XR exactArith _))).2 x y ∧
      Unbounded y :=
  C53_resonance_rbj (k := exSum) (hasCoeffs_iff.2 ⟨rfl, by simp [exSum]⟩) (p := 1) (by simp) (by simp [exSum])
    (by simp [exSum])

end Iir
