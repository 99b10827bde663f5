import Verif.Props.Objects
import Verif.Props.Finite

/-! # C55: a filter forgets its past at the rate of its slowest pole

Two objects with the same coefficients but different delay line contents, fed the same samples, return
outputs whose difference is at most `C * ρ ^ n` for every `ρ` larger than the moduli of all poles. -/

set_option linter.unusedSectionVars false

namespace Iir
open FArith XR Spec Exec Filter Topology

/-- All poles have modulus less than `ρ`. -/
def Spec.PolesWithin (ks : List Coeffs) (ρ : ℝ) : Prop :=
  ∀ k ∈ ks, ∀ z : ℂ, k.a0 * z ^ 2 + k.a1 * z + k.a2 = 0 → ‖z‖ < ρ

/-! ## Linearity in state and input together -/

theorem sec_diff (b : Biquad ℝ) (c c' : ℝ × ℝ) (x x' : ℕ → ℝ) (n : ℕ) :
    secOut b c x n - secOut b c' x' n = secOut b (c.1 - c'.1, c.2 - c'.2) (fun n => x n - x' n) n := by
  induction n using Nat.twoStepInduction with
  | zero => simp only [secOut_zero]; ring
  | one => rw [secOut_one, secOut_one, secOut_one]; simp only [secOut_zero]; ring
  | more n h1 h2 => rw [secOut_add_two, secOut_add_two, secOut_add_two, ← h1, ← h2]; ring

theorem chain_diff (bs : List (Biquad ℝ)) (cs cs' : List (ℝ × ℝ)) (h : bs.length = cs.length)
    (h' : bs.length = cs'.length) (x x' : ℕ → ℝ) :
    ∃ ds : List (ℝ × ℝ), bs.length = ds.length ∧
      ∀ n, chainOut bs cs x n - chainOut bs cs' x' n = chainOut bs ds (fun n => x n - x' n) n := by
  induction bs generalizing cs cs' x x' with
  | nil =>
    cases cs with
    | cons => simp at h
    | nil => cases cs' with
      | cons => simp at h'
      | nil => exact ⟨[], rfl, fun n => by simp [chainOut_nil]⟩
  | cons b bs ih =>
    cases cs with
    | nil => simp at h
    | cons c cs => cases cs' with
      | nil => simp at h'
      | cons c' cs' =>
        obtain ⟨ds, hl, hd⟩ := ih cs cs' (by simpa using h) (by simpa using h') (secOut b c x) (secOut b c' x')
        refine ⟨(c.1 - c'.1, c.2 - c'.2) :: ds, by simp [hl], fun n => ?_⟩
        rw [chainOut_cons, chainOut_cons, chainOut_cons, hd]
        congr 1
        funext n
        exact sec_diff b c c' x x' n

/-! ## Scaling time by powers of `ρ` -/

/-- the section seen by the signals divided by `ρ ^ n` -/
noncomputable def damped (ρ : ℝ) (b : Biquad ℝ) : Biquad ℝ :=
  { b with a1 := b.a1 / ρ, a2 := b.a2 / ρ ^ 2, b1 := b.b1 / ρ, b2 := b.b2 / ρ ^ 2 }

theorem sec_damped {ρ : ℝ} (hρ : 0 < ρ) (b : Biquad ℝ) (c : ℝ × ℝ) (x : ℕ → ℝ) (n : ℕ) :
    secOut (damped ρ b) (c.1, c.2 / ρ) (fun n => x n / ρ ^ n) n = secOut b c x n / ρ ^ n := by
  have hne := hρ.ne'
  induction n using Nat.twoStepInduction with
  | zero => simp [secOut_zero, damped]
  | one =>
    rw [secOut_one, secOut_one]
    simp only [secOut_zero, damped, pow_zero, pow_one]
    field_simp
  | more n h1 h2 =>
    rw [secOut_add_two, secOut_add_two, h1, h2]
    simp only [damped]
    field_simp
    ring

theorem damped_stable {ρ : ℝ} (hρ : 0 < ρ) {k : Coeffs} (hk : k.a0 ≠ 0)
    (h : ∀ z : ℂ, k.a0 * z ^ 2 + k.a1 * z + k.a2 = 0 → ‖z‖ < ρ) : SecStable (damped ρ k.norm) := by
  intro z hz
  have hne : (ρ : ℂ) ≠ 0 := by exact_mod_cast hρ.ne'
  have hk' : (k.a0 : ℂ) ≠ 0 := by exact_mod_cast hk
  have : k.a0 * (ρ * z) ^ 2 + k.a1 * (ρ * z) + k.a2 = 0 := by
    simp only [damped, Coeffs.norm] at hz
    push_cast at hz
    field_simp at hz
    linear_combination hz
  have := h _ this
  rw [norm_mul, Complex.norm_real, Real.norm_eq_abs, abs_of_pos hρ] at this
  by_contra hc
  push Not at hc
  nlinarith

/-- A chain whose poles have modulus less than `ρ`, fed with nothing growing faster than `ρ ^ n`, returns
nothing growing faster than `ρ ^ n`. -/
theorem chain_geometric {ρ : ℝ} (hρ : 0 < ρ) {ks : List Coeffs} (hne : ∀ k ∈ ks, k.a0 ≠ 0)
    (h : PolesWithin ks ρ) (cs : List (ℝ × ℝ)) (hl : (ks.map Coeffs.norm).length = cs.length) {x : ℕ → ℝ} {M : ℝ}
    (hx : ∀ n, |x n| ≤ M * ρ ^ n) :
    ∃ B, ∀ n, |chainOut (ks.map Coeffs.norm) cs x n| ≤ B * ρ ^ n := by
  induction ks generalizing cs x M with
  | nil =>
    cases cs with
    | nil => simp only [List.map_nil, chainOut_nil]; exact ⟨M, hx⟩
    | cons => simp at hl
  | cons k ks ih =>
    cases cs with
    | nil => simp at hl
    | cons c cs =>
      have hd := sec_bounded (damped_stable hρ (hne k List.mem_cons_self) (h k List.mem_cons_self)) (c.1, c.2 / ρ)
        (x := fun n => x n / ρ ^ n) (M := M) (fun n => by
          rw [abs_div, abs_of_pos (pow_pos hρ n), div_le_iff₀ (pow_pos hρ n)]; exact hx n)
      obtain ⟨B, hB⟩ := hd
      rw [List.map_cons, chainOut_cons]
      refine ih (fun k hk => hne k (List.mem_cons_of_mem _ hk)) (fun k hk => h k (List.mem_cons_of_mem _ hk)) cs
        (by simpa using hl) (M := B) fun n => ?_
      have := hB n
      rwa [sec_damped hρ, abs_div, abs_of_pos (pow_pos hρ n), div_le_iff₀ (pow_pos hρ n)] at this

theorem chain_forgets {ρ : ℝ} (hρ : 0 < ρ) {ks : List Coeffs} (hne : ∀ k ∈ ks, k.a0 ≠ 0)
    (h : PolesWithin ks ρ) {cs cs' : List (ℝ × ℝ)} (hl : (ks.map Coeffs.norm).length = cs.length)
    (hl' : (ks.map Coeffs.norm).length = cs'.length) (x : ℕ → ℝ) :
    ∃ B, ∀ n, |chainOut (ks.map Coeffs.norm) cs x n - chainOut (ks.map Coeffs.norm) cs' x n| ≤ B * ρ ^ n := by
  obtain ⟨ds, hd, e⟩ := chain_diff _ cs cs' hl hl' x x
  obtain ⟨B, hB⟩ := chain_geometric hρ hne h ds hd (x := fun n => x n - x n) (M := 0) (by simp)
  exact ⟨B, fun n => by rw [e]; exact hB n⟩

/-- Stable sections have all poles within some radius less than 1. -/
theorem exists_radius {ks : List Coeffs} (hne : ∀ k ∈ ks, k.a0 ≠ 0) (hst : ∀ k ∈ ks, k.Stable) :
    ∃ ρ, 0 < ρ ∧ ρ < 1 ∧ PolesWithin ks ρ := by
  induction ks with
  | nil => exact ⟨1 / 2, by norm_num, by norm_num, by simp [PolesWithin]⟩
  | cons k ks ih =>
    obtain ⟨ρ, h0, h1, hp⟩ := ih (fun k hk => hne k (List.mem_cons_of_mem _ hk))
      fun k hk => hst k (List.mem_cons_of_mem _ hk)
    have hk := hne k List.mem_cons_self
    obtain ⟨p, q, hp1, hq1, e1, e2⟩ := stable_roots ((Coeffs.stable_norm hk).2 (hst k List.mem_cons_self))
    have hk' : (k.a0 : ℂ) ≠ 0 := by exact_mod_cast hk
    have hm : max ‖p‖ ‖q‖ < 1 := max_lt hp1 hq1
    refine ⟨max ρ ((1 + max ‖p‖ ‖q‖) / 2), lt_max_of_lt_left h0, max_lt h1 (by linarith), ?_⟩
    intro k' hk' z hz
    rcases List.mem_cons.1 hk' with rfl | hk'
    · have hr : (z - p) * (z - q) = 0 := by
        simp only [Coeffs.norm] at e1 e2
        push_cast at e1 e2
        have e1' : (k'.a1 : ℂ) = -(p + q) * k'.a0 := by rw [← e1]; field_simp
        have e2' : (k'.a2 : ℂ) = p * q * k'.a0 := by rw [← e2]; field_simp
        have : (k'.a0 : ℂ) * ((z - p) * (z - q)) = 0 := by
          rw [e1', e2'] at hz
          linear_combination hz
        exact (mul_eq_zero.1 this).resolve_left (by assumption)
      refine lt_max_of_lt_right ?_
      have hle : ‖z‖ ≤ max ‖p‖ ‖q‖ := by
        rcases mul_eq_zero.1 hr with h | h
        · rw [sub_eq_zero.1 h]; exact le_max_left _ _
        · rw [sub_eq_zero.1 h]; exact le_max_right _ _
      linarith
    · exact lt_max_of_lt_left (hp k' hk' z hz)

/-! ## Statements -/

variable {S : Type → Type} [StateType S XR] [DelayLine XR S] {T : Type} [Sample T XR]

/-- **C55** for pole filters: after any history, the outputs from the present delay lines and from any
other delay lines differ by at most `B * ρ ^ n`, if the poles have modulus less than `ρ`; the input is
arbitrary. -/
theorem C55_forgets {c : Cls} {n : Nat} (hn1 : 1 ≤ n) (hn : n < 2 ^ 30) {f : PoleFilter S XR}
    (h : Reach S T c n f) {ks : List Coeffs} (hks : HasSections f.base.cascade.stages ks) {ρ : ℝ} (hρ : 0 < ρ)
    (hp : PolesWithin ks ρ) (hfin : FiniteStates f.states) {ss : List (S XR)}
    (hl : ss.length = f.states.length) (hss : FiniteStates ss) (x : ℕ → ℝ) :
    ∃ y y' B, Produces (PoleFilter.filter (T := XR)) f x y ∧
      Produces (PoleFilter.filter (T := XR)) { f with states := ss } x y' ∧
      ∀ n, |y n - y' n| ≤ B * ρ ^ n := by
  obtain ⟨hb, hne⟩ := hasSections_iff.1 hks
  have hw : f.states.length = (ks.map Coeffs.norm).length := by
    rw [h.wired hn1 hn, hks.length, List.length_map]
  obtain ⟨cs, hcs⟩ := Sims.of_finite (ks.map Coeffs.norm) f.states hw.symm hfin
  obtain ⟨cs', hcs'⟩ := Sims.of_finite (ks.map Coeffs.norm) ss (hw ▸ hl.symm) hss
  obtain ⟨B, hB⟩ := chain_forgets hρ hne hp hcs.cs_length hcs'.cs_length x
  exact ⟨_, _, B, PoleFilter.produces hb hcs x,
    PoleFilter.produces (f := { f with states := ss }) hb hcs' x, hB⟩

/-- **C55**: if the filter is stable, changing its coefficients while it runs disturbs it only for a
while: after `setup` the outputs approach, geometrically, those of the same filter without a past. -/
theorem C55_reconfigure {c : Cls} {n : Nat} (hn1 : 1 ≤ n) (hn : n < 2 ^ 30) {f f' : PoleFilter S XR}
    (h : Reach S T c n f) {call : Call XR} (hc : call.design.cls = c)
    (hset : PoleFilter.setup n call f = (.ok (), f')) {ks : List Coeffs}
    (hks : HasSections f'.base.cascade.stages ks) (hst : ∀ k ∈ ks, k.Stable) (hfin : FiniteStates f.states)
    (x : ℕ → ℝ) :
    ∃ y y' B ρ, 0 < ρ ∧ ρ < 1 ∧ Produces (PoleFilter.filter (T := XR)) f' x y ∧
      Produces (PoleFilter.filter (T := XR)) (PoleFilter.reset f').2 x y' ∧
      ∀ n, |y n - y' n| ≤ B * ρ ^ n := by
  have hne := (hasSections_iff.1 hks).2
  obtain ⟨ρ, h0, h1, hp⟩ := exists_radius hne hst
  have hs : f'.states = f.states := by
    have := congrArg (fun p => p.2.states) hset
    exact this.symm
  have h' : Reach S T c n f' := .call f f' (.setup call) (.ok ()) h hc hset fun u h => by cases h
  have hr : (PoleFilter.reset f').2 = { f' with states := CascadeStages.reset f'.states } := rfl
  obtain ⟨y, y', B, e1, e2, e3⟩ := C55_forgets hn1 hn h' hks h0 hp (by rw [hs]; exact hfin)
    (ss := CascadeStages.reset f'.states) (by simp [CascadeStages.reset]) (by
      intro s hm
      rw [reset_states] at hm
      rw [List.eq_of_mem_replicate hm]
      exact ExactState.finite_init) x
  exact ⟨y, y', B, ρ, h0, h1, e1, e2, e3⟩

/-- **C55** from the parameters: for all 21 classes, whatever was done with the object before, as long as its
delay lines are finite, a setup with valid parameters makes it approach the filter without a past. -/
theorem C55_valid_design {call : Call XR} {n o : ℕ} {d : Design XR} (ha : Asks call n o d) (hv : Valid o d)
    {f : PoleFilter S XR} (h : Reach S T call.design.cls n f) (hfin : FiniteStates f.states) (x : ℕ → ℝ) :
    ∃ f' y y' B ρ, PoleFilter.setup n call f = (.ok (), f') ∧ 0 < ρ ∧ ρ < 1 ∧
      Produces (PoleFilter.filter (T := XR)) f' x y ∧
      Produces (PoleFilter.filter (T := XR)) (PoleFilter.reset f').2 x y' ∧
      ∀ n, |y n - y' n| ≤ B * ρ ^ n := by
  obtain ⟨f', hset, -, hst⟩ := C29_stable (S := S) (T := T) ha hv f h
  obtain ⟨ks, h1, h2⟩ := sections_of_stable hst
  obtain ⟨y, y', B, ρ, e⟩ := C55_reconfigure (ha.pos.trans ha.le) ha.small h rfl hset h1 h2 hfin x
  exact ⟨f', y, y', B, ρ, hset, e⟩

/-- a case: a Butterworth low pass retuned while running -/
example {f : PoleFilter DirectFormII XR} (h : Reach DirectFormII XR .bwLowPass 4 f)
    (hfin : FiniteStates f.states) (x : ℕ → ℝ) :
    ∃ f' y y' B ρ, PoleFilter.setup 4 (.setup (fin 48000) (.bwLowPass (fin 12000))) f = (.ok (), f') ∧
      0 < ρ ∧ ρ < 1 ∧ Produces (PoleFilter.filter (T := XR)) f' x y ∧
      Produces (PoleFilter.filter (T := XR)) (PoleFilter.reset f').2 x y' ∧
      ∀ n, |y n - y' n| ≤ B * ρ ^ n :=
  C55_valid_design (call := .setup (fin 48000) (.bwLowPass (fin 12000))) (o := 4) (d := .bwLowPass (fin (1 / 4)))
    ⟨rfl, by simp [Call.normDesign, mapFreq, fin_div']; norm_num, by norm_num, le_rfl, by norm_num⟩
    ⟨by norm_num, by norm_num⟩ h hfin x

/-- **C55** for SOS cascades. -/
theorem C55_sos {n : Nat} {f : Custom.SOS S XR} (h : SosReach S T n f) {ks : List Coeffs}
    (hks : HasSections f.stages ks) {ρ : ℝ} (hρ : 0 < ρ) (hp : PolesWithin ks ρ) (hfin : FiniteStates f.states)
    {ss : List (S XR)} (hl : ss.length = f.states.length) (hss : FiniteStates ss) (x : ℕ → ℝ) :
    ∃ y y' B, Produces (Custom.SOS.filter (T := XR)) f x y ∧
      Produces (Custom.SOS.filter (T := XR)) { f with states := ss } x y' ∧
      ∀ n, |y n - y' n| ≤ B * ρ ^ n := by
  obtain ⟨hb, hne⟩ := hasSections_iff.1 hks
  have hw : f.states.length = (ks.map Coeffs.norm).length := by
    rw [h.wired.2, ← h.wired.1, hks.length, List.length_map]
  obtain ⟨cs, hcs⟩ := Sims.of_finite (ks.map Coeffs.norm) f.states hw.symm hfin
  obtain ⟨cs', hcs'⟩ := Sims.of_finite (ks.map Coeffs.norm) ss (hw ▸ hl.symm) hss
  obtain ⟨B, hB⟩ := chain_forgets hρ hne hp hcs.cs_length hcs'.cs_length x
  exact ⟨_, _, B, Custom.SOS.produces hb hcs x,
    Custom.SOS.produces (f := { f with states := ss }) hb hcs' x, hB⟩

/-- **C55** for RBJ filters. -/
theorem C55_rbj {f : RBJ.Filter XR} {k : Coeffs} (hk : HasCoeffs f.biquad k) {ρ : ℝ} (hρ : 0 < ρ)
    (hp : PolesWithin [k] ρ) (hfin : ExactState.Finite f.state) {s : DirectFormI XR}
    (hs : ExactState.Finite s) (x : ℕ → ℝ) :
    ∃ y y' B, Produces (RBJ.Filter.filter (T := XR)) f x y ∧
      Produces (RBJ.Filter.filter (T := XR)) { f with state := s } x y' ∧
      ∀ n, |y n - y' n| ≤ B * ρ ^ n := by
  obtain ⟨hb, hne⟩ := hasCoeffs_iff.1 hk
  obtain ⟨c, hc⟩ := ExactState.sim_of_finite k.norm f.state hfin
  obtain ⟨c', hc'⟩ := ExactState.sim_of_finite k.norm s hs
  obtain ⟨B, hB⟩ := chain_forgets hρ (ks := [k]) (by simpa using hne) hp (cs := [c]) (cs' := [c']) rfl rfl x
  refine ⟨_, _, B, RBJ.Filter.produces hb hc x,
    RBJ.Filter.produces (f := { f with state := s }) hb hc' x, fun n => ?_⟩
  have := hB n
  rwa [List.map_singleton, chainOut_cons, chainOut_cons, chainOut_nil, chainOut_nil] at this

/-- **C55** for RBJ filters set up with valid parameters while running. -/
theorem C55_rbj_valid_design {d : RBJ.Design ℝ} (hd : ValidRBJ d) {f : RBJ.Filter XR}
    (hfin : ExactState.Finite f.state) (x : ℕ → ℝ) :
    ∃ f' y y' B ρ, RBJ.Filter.setupN (finRBJ d) f = (.ok (), f') ∧ 0 < ρ ∧ ρ < 1 ∧
      Produces (RBJ.Filter.filter (T := XR)) f' x y ∧
      Produces (RBJ.Filter.filter (T := XR)) (RBJ.Filter.reset f').2 x y' ∧
      ∀ n, |y n - y' n| ≤ B * ρ ^ n := by
  obtain ⟨f', hset, hs, k, hk, hst⟩ := C42_stable d hd f
  obtain ⟨ρ, h0, h1, hp⟩ := exists_radius (ks := [k]) (by simpa using (hasCoeffs_iff.1 hk).2) (by simpa using hst)
  obtain ⟨y, y', B, e1, e2, e3⟩ := C55_rbj hk h0 hp (by rw [hs]; exact hfin)
    (s := StateType.reset f'.state) (by rw [LawfulState.reset_eq]; exact ExactState.finite_init) x
  exact ⟨f', y, y', B, ρ, hset, h0, h1, e1, e2, e3⟩

/-- a case: the section `y[n] = (x[n] + x[n-1] + y[n-1]) / 2` forgets at any rate above 1/2 -/
example (x : ℕ → ℝ) : ∃ y y' B,
    Produces (RBJ.Filter.filter (T := XR)) { biquad := exCoeffs.norm.toX, state := ⟨fin 1, fin 2, fin 3, fin 4⟩ } x y ∧
    Produces (RBJ.Filter.filter (T := XR)) { biquad := exCoeffs.norm.toX, state := ⟨fin 0, fin 0, fin 0, fin 0⟩ } x y' ∧
    ∀ n, |y n - y' n| ≤ B * (3 / 5) ^ n := by
  refine C55_rbj (f := { biquad := exCoeffs.norm.toX, state := ⟨fin 1, fin 2, fin 3, fin 4⟩ }) exCoeffs_has
    (by norm_num) ?_ ⟨3, 1, 4, 2, rfl⟩ (s := ⟨fin 0, fin 0, fin 0, fin 0⟩) ⟨0, 0, 0, 0, rfl⟩ x
  intro k hk z hz
  rw [List.mem_singleton.1 hk] at hz
  have h : z * (2 * z - 1) = 0 := by rw [← hz]; simp [exCoeffs]; ring
  rcases mul_eq_zero.1 h with rfl | h
  · simp
  · have : z = 1 / 2 := by linear_combination h / 2
    rw [this]; norm_num

end Iir
