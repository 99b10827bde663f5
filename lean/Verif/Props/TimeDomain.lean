import Verif.Lemmas.Produces

/-! # C01, C02, C07, C08, C10 (permutations), C27, C28: time domain behaviour in exact arithmetic

`S` is any of the three topologies (`DelayLine` has the instances `DirectFormI`, `DirectFormII`,
`TransposedDirectFormII`). -/

set_option linter.unusedSectionVars false

namespace Iir
open FArith XR Spec Exec Filter Topology

/-- Every reachable object has one delay line per section. -/
theorem Spec.Reach.wired {R : Type} [FArith R] {S : Type → Type} [StateType S R] {T : Type} [Sample T R] {c : Cls}
    {n : Nat} (hn1 : 1 ≤ n) (hn : n < 1073741824) {f : PoleFilter S R} (h : Reach S T c n f) :
    f.states.length = f.base.cascade.stages.length := by
  rw [h.states_length, (h.ok hn1 hn).cascade.length]

variable {S : Type → Type} [StateType S XR] [DelayLine XR S]
variable {S' : Type → Type} [StateType S' XR] [DelayLine XR S']
variable {T : Type} [Sample T XR]

theorem Spec.HasSections.length {bs : List (Biquad XR)} {ks : List Coeffs} (h : HasSections bs ks) :
    bs.length = ks.length := by
  simp [(hasSections_iff.1 h).1]

/-! ## C01 -/

theorem norm_diffEq {k : Coeffs} (x : ℕ → ℝ) : k.DiffEq x (secOut k.norm (0, 0) x) := by
  intro n
  have := secOut_diffEq k.norm x n
  simp only [Coeffs.norm] at this ⊢
  rw [this]; ring

/-- The difference equation has exactly one solution. -/
theorem C01_unique {k : Coeffs} {x y y' : ℕ → ℝ} (h : k.DiffEq x y) (h' : k.DiffEq x y') : y = y' := by
  funext n
  induction n using Nat.strong_induction_on with
  | _ n ih =>
    have e : ∀ j, 1 ≤ j → delayed j y n = delayed j y' n := by
      intro j hj
      unfold delayed
      split_ifs
      · exact ih _ (by omega)
      · rfl
    rw [h n, h' n, e 1 le_rfl, e 2 (by omega)]

/-- **C01**: from the initial delay line, a section whose getters return `a0 … b2` (`a0 ≠ 0`) returns
the solution of its difference equation, in every topology. -/
theorem C01_difference_equation {b : Biquad XR} {k : Coeffs} (hb : HasCoeffs b k) (x y : ℕ → ℝ) :
    Produces (biquadFilter b) (StateType.init : S XR) x y ↔ k.DiffEq x y := by
  obtain ⟨rfl, hne⟩ := hasCoeffs_iff.1 hb
  have hp := biquad_produces (ExactState.sim_init (S := S) k.norm) x
  constructor
  · intro h
    rw [h.unique hp]; exact norm_diffEq x
  · intro h
    rw [C01_unique h (norm_diffEq x)]; exact hp

/-- **C01** after `reset ()` of the delay line, whatever it contained. -/
theorem C01_after_reset {b : Biquad XR} {k : Coeffs} (hb : HasCoeffs b k) (s : S XR) (x y : ℕ → ℝ) :
    Produces (biquadFilter b) (StateType.reset s) x y ↔ k.DiffEq x y := by
  rw [LawfulState.reset_eq]; exact C01_difference_equation hb x y

/-- **C01** for RBJ filters. -/
theorem C01_rbj {f : RBJ.Filter XR} {k : Coeffs} (hb : HasCoeffs f.biquad k) (x y : ℕ → ℝ) :
    Produces (RBJ.Filter.filter (T := XR)) (RBJ.Filter.reset f).2 x y ↔ k.DiffEq x y := by
  obtain ⟨hb, hne⟩ := hasCoeffs_iff.1 hb
  have hp := RBJ.Filter.produces (f := (RBJ.Filter.reset f).2) (b := k.norm) hb
    (ExactState.sim_init (S := DirectFormI) k.norm) x
  constructor
  · intro h
    rw [h.unique hp]; exact norm_diffEq x
  · intro h
    rw [C01_unique h (norm_diffEq x)]; exact hp

theorem chain_diffChain (ks : List Coeffs) (x : ℕ → ℝ) :
    DiffChain ks x (chainOut (ks.map Coeffs.norm) (rest ks.length) x) := by
  induction ks generalizing x with
  | nil => rw [show chainOut ([].map Coeffs.norm) (rest ([] : List Coeffs).length) x = x from chainOut_nil x]
           exact .nil x
  | cons k ks ih =>
    rw [List.map_cons, show rest (k :: ks).length = (0, 0) :: rest ks.length from rfl, chainOut_cons]
    exact .cons (norm_diffEq x) (ih _)

theorem Spec.DiffChain.unique {ks : List Coeffs} {x y y' : ℕ → ℝ} (h : DiffChain ks x y)
    (h' : DiffChain ks x y') : y = y' := by
  induction h with
  | nil => cases h'; rfl
  | cons h1 _ ih =>
    cases h' with
    | cons h2 h3 => rw [C01_unique h1 h2] at ih; exact ih h3

/-- **C01** for pole filters: after `reset ()` a reachable filter whose sections have the
coefficients `ks` returns the solution of the chain of difference equations. -/
theorem C01_pole_filter {c : Cls} {n : Nat} (hn1 : 1 ≤ n) (hn : n < 2 ^ 30) {f : PoleFilter S XR}
    (h : Reach S T c n f) {ks : List Coeffs} (hks : HasSections f.base.cascade.stages ks)
    (x y : ℕ → ℝ) :
    Produces (PoleFilter.filter (T := XR)) (PoleFilter.reset f).2 x y ↔ DiffChain ks x y := by
  have hp := PoleFilter.produces (f := (PoleFilter.reset f).2) (hasSections_iff.1 hks).1
    (PoleFilter.sims_reset (by rw [h.wired hn1 hn, hks.length, List.length_map])) x
  rw [List.length_map] at hp
  constructor
  · intro h
    rw [h.unique hp]; exact chain_diffChain ks x
  · intro h
    rw [h.unique (chain_diffChain ks x)]; exact hp

/-- a section `y[n] = (x[n] + x[n-1] + y[n-1]) / 2` -/
def exCoeffs : Coeffs := { a0 := 2, a1 := -1, a2 := 0, b0 := 1, b1 := 1, b2 := 0 }

theorem exCoeffs_has : HasCoeffs exCoeffs.norm.toX exCoeffs := hasCoeffs_iff.2 ⟨rfl, by simp [exCoeffs]⟩

theorem exCoeffs_stable : exCoeffs.Stable := by
  intro z hz
  have h : z * (2 * z - 1) = 0 := by rw [← hz]; simp [exCoeffs]; ring
  rcases mul_eq_zero.1 h with rfl | h
  · simp
  · have : z = 1 / 2 := by linear_combination h / 2
    rw [this]; norm_num

/-- the step response of that section starts 1/2, 5/4 -/
example (y : ℕ → ℝ) (h : Produces (biquadFilter exCoeffs.norm.toX) (@StateType.init DirectFormII XR exactArith _)
    (fun _ => 1) y) : y 0 = 1 / 2 ∧ y 1 = 5 / 4 := by
  have h := (C01_difference_equation exCoeffs_has _ _).1 h
  have h0 := h 0
  have h1 := h 1
  simp [exCoeffs, delayed] at h0 h1
  constructor
  · linarith
  · rw [h1, h0]; norm_num

/-! ## C02 -/

/-- **C02**: two pole filters with the same coefficients but different topologies return the same
outputs after `reset ()`. -/
theorem C02_topology {c c' : Cls} {n n' : Nat} (hn1 : 1 ≤ n) (hn : n < 2 ^ 30) (hn1' : 1 ≤ n')
    (hn' : n' < 2 ^ 30) {f : PoleFilter S XR} {g : PoleFilter S' XR} (hf : Reach S T c n f)
    (hg : Reach S' T c' n' g) {ks : List Coeffs} (hks : HasSections f.base.cascade.stages ks)
    (hfg : f.base.cascade.stages = g.base.cascade.stages) (x : ℕ → ℝ) :
    ∃ y, Produces (PoleFilter.filter (T := XR)) (PoleFilter.reset f).2 x y ∧
      Produces (PoleFilter.filter (T := XR)) (PoleFilter.reset g).2 x y := by
  refine ⟨_, (C01_pole_filter hn1 hn hf hks x _).2 (chain_diffChain ks x), ?_⟩
  exact (C01_pole_filter hn1' hn' hg (hfg ▸ hks) x _).2 (chain_diffChain ks x)

/-- **C02**: the coefficients do not depend on the topology: the same calls lead to the same
configuration (any arithmetic). -/
theorem C02_same_calls {R : Type} [FArith R] {S S' : Type → Type} [StateType S R] [StateType S' R]
    [Sample T R] (c : Cls) (n : Nat) (ops : List (Op T R)) :
    (execAll n ops (PoleFilter.init S c n : PoleFilter S R)).base =
      (execAll n ops (PoleFilter.init S' c n : PoleFilter S' R)).base := by
  have key : ∀ (f : PoleFilter S R) (g : PoleFilter S' R), f.base = g.base →
      (execAll n ops f).base = (execAll n ops g).base := by
    induction ops with
    | nil => exact fun f g h => h
    | cons op ops ih =>
      intro f g h
      refine ih _ _ ?_
      cases op with
      | setup call => show (call.run n f.base).2 = (call.run n g.base).2; rw [h]
      | scale k =>
        show (PFB.onCascade (Cascade.applyScale k) f.base).2 = (PFB.onCascade (Cascade.applyScale k) g.base).2
        rw [h]
      | filter x =>
        rw [processing_base n (.filter x : Op T R) trivial f, processing_base n (.filter x : Op T R) trivial g, h]
      | reset => exact h
  exact key _ _ rfl

/-- **C02** for SOS cascades. -/
theorem C02_topology_sos {f : Custom.SOS S XR} {g : Custom.SOS S' XR} {ks : List Coeffs}
    (hks : HasSections f.stages ks) (hfg : f.stages = g.stages) (hf : f.states.length = f.stages.length)
    (hg : g.states.length = g.stages.length) (x : ℕ → ℝ) :
    ∃ y, Produces (Custom.SOS.filter (T := XR)) (Custom.SOS.reset f).2 x y ∧
      Produces (Custom.SOS.filter (T := XR)) (Custom.SOS.reset g).2 x y := by
  refine ⟨_, Custom.SOS.produces (f := (Custom.SOS.reset f).2) (hasSections_iff.1 hks).1
    (Custom.SOS.sims_reset (by rw [hf, hks.length, List.length_map])) x, ?_⟩
  exact Custom.SOS.produces (f := (Custom.SOS.reset g).2) (hasSections_iff.1 (hfg ▸ hks)).1
    (Custom.SOS.sims_reset (by rw [hg, ← hfg, hks.length, List.length_map])) x

/-! ## C07 -/

/-- **C07** (linearity). -/
theorem C07_linear {c : Cls} {n : Nat} (hn1 : 1 ≤ n) (hn : n < 2 ^ 30) {f : PoleFilter S XR}
    (h : Reach S T c n f) {ks : List Coeffs} (hks : HasSections f.base.cascade.stages ks)
    {x x' y y' : ℕ → ℝ} (α β : ℝ)
    (hy : Produces (PoleFilter.filter (T := XR)) (PoleFilter.reset f).2 x y)
    (hy' : Produces (PoleFilter.filter (T := XR)) (PoleFilter.reset f).2 x' y') :
    Produces (PoleFilter.filter (T := XR)) (PoleFilter.reset f).2 (fun n => α * x n + β * x' n)
      (fun n => α * y n + β * y' n) := by
  have hp := PoleFilter.produces (f := (PoleFilter.reset f).2) (hasSections_iff.1 hks).1
    (PoleFilter.sims_reset (by rw [h.wired hn1 hn, hks.length, List.length_map]))
  rw [hy.unique (hp x), hy'.unique (hp x'), ← Ser.chain_linear]
  exact hp _

/-- **C07** (time invariance). -/
theorem C07_time_invariant {c : Cls} {n : Nat} (hn1 : 1 ≤ n) (hn : n < 2 ^ 30) {f : PoleFilter S XR}
    (h : Reach S T c n f) {ks : List Coeffs} (hks : HasSections f.base.cascade.stages ks)
    {x y : ℕ → ℝ} (k : ℕ)
    (hy : Produces (PoleFilter.filter (T := XR)) (PoleFilter.reset f).2 x y) :
    Produces (PoleFilter.filter (T := XR)) (PoleFilter.reset f).2 (delayed k x) (delayed k y) := by
  have hp := PoleFilter.produces (f := (PoleFilter.reset f).2) (hasSections_iff.1 hks).1
    (PoleFilter.sims_reset (by rw [h.wired hn1 hn, hks.length, List.length_map]))
  rw [hy.unique (hp x), ← Ser.chain_shift]
  exact hp _

/-- **C07**: every input has an output (so the two theorems above are about all inputs). -/
theorem C07_total {c : Cls} {n : Nat} (hn1 : 1 ≤ n) (hn : n < 2 ^ 30) {f : PoleFilter S XR}
    (h : Reach S T c n f) {ks : List Coeffs} (hks : HasSections f.base.cascade.stages ks) (x : ℕ → ℝ) :
    ∃ y, Produces (PoleFilter.filter (T := XR)) (PoleFilter.reset f).2 x y :=
  ⟨_, (C01_pole_filter hn1 hn h hks x _).2 (chain_diffChain ks x)⟩

/-! ## C08 -/

/-- the pass-through section -/
def identCoeffs : Coeffs := { a0 := 1, a1 := 0, a2 := 0, b0 := 1, b1 := 0, b2 := 0 }

theorem default_hasCoeffs : HasCoeffs (Biquad.default : Biquad XR) identCoeffs := by
  constructor <;> simp [Biquad.default, Biquad.getA0, Biquad.getA1, Biquad.getA2, Biquad.getB0,
    Biquad.getB1, Biquad.getB2, identCoeffs]

theorem ident_diffEq {x y : ℕ → ℝ} : identCoeffs.DiffEq x y ↔ y = x := by
  constructor
  · intro h; funext n; have := h n; simpa [identCoeffs] using this
  · rintro rfl n; simp [identCoeffs]

theorem ident_diffChain (n : ℕ) (x : ℕ → ℝ) : DiffChain (List.replicate n identCoeffs) x x := by
  induction n with
  | zero => exact .nil x
  | succ n ih => exact .cons (ident_diffEq.2 rfl) ih

/-- **C08**: a default constructed pole filter returns its input unchanged. -/
theorem C08_pass_through (c : Cls) (n : Nat) (hn1 : 1 ≤ n) (hn : n < 2 ^ 30) (x : ℕ → ℝ) :
    Produces (PoleFilter.filter (T := XR)) (PoleFilter.init S c n : PoleFilter S XR) x x := by
  have hr : (PoleFilter.reset (PoleFilter.init S c n : PoleFilter S XR)).2 = PoleFilter.init S c n := by
    simp [PoleFilter.reset, PoleFilter.init, reset_states, CascadeStages.initStates]
  rw [← hr]
  refine (C01_pole_filter (T := XR) hn1 hn .new (ks := List.replicate (PoleFilter.numStages c n) identCoeffs)
    ?_ x x).2 (ident_diffChain _ x)
  show HasSections (List.replicate _ _) _
  generalize PoleFilter.numStages c n = m
  induction m with
  | zero => exact .nil
  | succ m ih => exact .cons default_hasCoeffs ih

/-- **C08**: the response of a default constructed pole filter is 1 at every frequency. -/
theorem C08_response_one (c : Cls) (n : Nat) {fr : ℝ} (h0 : 0 ≤ fr) (h1 : fr ≤ 1 / 2) :
    (PoleFilter.init S c n : PoleFilter S XR).response (fin fr) = .ok (ofC 1) := by
  have := Cascade.response_toX (bs := []) (by simp)
    (c := { (PoleFilter.init S c n : PoleFilter S XR).base.cascade with stages := [] }) rfl
    (by simp [PoleFilter.init, PoleFilter.initBase]) h0 h1
  have e : (PoleFilter.init S c n : PoleFilter S XR).response (fin fr) =
      Cascade.response { (PoleFilter.init S c n : PoleFilter S XR).base.cascade with stages := [] } (fin fr) := rfl
  rw [e, this]
  simp [Cx.cdiv_ofC]

/-- **C08** for SOS cascades. -/
theorem C08_pass_through_sos (n : Nat) (x : ℕ → ℝ) :
    Produces (Custom.SOS.filter (T := XR)) (Custom.SOS.init S n : Custom.SOS S XR) x x := by
  have hs : (Custom.SOS.init S n : Custom.SOS S XR).stages =
      (List.replicate n identCoeffs.norm).map Biquad.toX := by
    rw [List.map_replicate, ← (hasCoeffs_iff.1 default_hasCoeffs).1]; rfl
  have := Custom.SOS.produces hs (cs := rest n) (by
    have := Sims.init (S := S) (List.replicate n identCoeffs.norm)
    rw [List.length_replicate] at this
    exact this) x
  have h2 := chain_diffChain (List.replicate n identCoeffs) x
  rw [List.map_replicate, List.length_replicate] at h2
  rwa [(h2.unique (ident_diffChain n x))] at this

/-- **C08** for RBJ filters. -/
theorem C08_pass_through_rbj (x : ℕ → ℝ) :
    Produces (RBJ.Filter.filter (T := XR)) (RBJ.Filter.init : RBJ.Filter XR) x x :=
  (C01_rbj (f := RBJ.Filter.init) default_hasCoeffs x x).2 (ident_diffEq.2 rfl)

/-! ## C10 (permutations) -/

/-- **C10**: permuting the sections of a cascade does not change the output after `reset ()`. -/
theorem C10_permutation {f g : Custom.SOS S XR} {ks ks' : List Coeffs} (hf : HasSections f.stages ks)
    (hg : HasSections g.stages ks') (hk : ks.Perm ks') (hlf : f.states.length = f.stages.length)
    (hlg : g.states.length = g.stages.length) (x : ℕ → ℝ) :
    ∃ y, Produces (Custom.SOS.filter (T := XR)) (Custom.SOS.reset f).2 x y ∧
      Produces (Custom.SOS.filter (T := XR)) (Custom.SOS.reset g).2 x y := by
  refine ⟨_, Custom.SOS.produces (f := (Custom.SOS.reset f).2) (hasSections_iff.1 hf).1
    (Custom.SOS.sims_reset (by rw [hlf, hf.length, List.length_map])) x, ?_⟩
  rw [Ser.chain_perm (hk.map Coeffs.norm)]
  exact Custom.SOS.produces (f := (Custom.SOS.reset g).2) (hasSections_iff.1 hg).1
    (Custom.SOS.sims_reset (by rw [hlg, hg.length, List.length_map])) x

/-- **C10** for pole filters. -/
theorem C10_permutation_pole_filter {c c' : Cls} {n n' : Nat} (hn1 : 1 ≤ n) (hn : n < 2 ^ 30)
    (hn1' : 1 ≤ n') (hn' : n' < 2 ^ 30) {f g : PoleFilter S XR} (hf : Reach S T c n f)
    (hg : Reach S T c' n' g) {ks ks' : List Coeffs} (hks : HasSections f.base.cascade.stages ks)
    (hks' : HasSections g.base.cascade.stages ks') (hk : ks.Perm ks') (x : ℕ → ℝ) :
    ∃ y, Produces (PoleFilter.filter (T := XR)) (PoleFilter.reset f).2 x y ∧
      Produces (PoleFilter.filter (T := XR)) (PoleFilter.reset g).2 x y := by
  refine ⟨_, PoleFilter.produces (f := (PoleFilter.reset f).2) (hasSections_iff.1 hks).1
    (PoleFilter.sims_reset (by rw [hf.wired hn1 hn, hks.length, List.length_map])) x, ?_⟩
  rw [Ser.chain_perm (hk.map Coeffs.norm)]
  exact PoleFilter.produces (f := (PoleFilter.reset g).2) (hasSections_iff.1 hks').1
    (PoleFilter.sims_reset (by rw [hg.wired hn1' hn', hks'.length, List.length_map])) x

/-! ## C28 -/

/-- No infinity or NaN in the delay lines. -/
def FiniteStates (ss : List (S XR)) : Prop := ∀ s ∈ ss, ExactState.Finite s

theorem stable_norms {ks : List Coeffs} (h : ∀ k ∈ ks, k.a0 ≠ 0) (hs : ∀ k ∈ ks, k.Stable) :
    ∀ b ∈ ks.map Coeffs.norm, SecStable b := by
  intro b hb
  obtain ⟨k, hk, rfl⟩ := List.mem_map.1 hb
  exact (Coeffs.stable_norm (h k hk)).2 (hs k hk)

theorem Sims.cs_length {bs : List (Biquad ℝ)} {ss : List (S XR)} {cs : List (ℝ × ℝ)} (h : Sims bs ss cs) :
    bs.length = cs.length := by
  induction h with
  | nil => rfl
  | cons _ _ ih => simp [ih]

/-- **C28** (bounded input, bounded output), from any finite delay line content. -/
theorem C28_bounded {c : Cls} {n : Nat} (hn1 : 1 ≤ n) (hn : n < 2 ^ 30) {f : PoleFilter S XR}
    (h : Reach S T c n f) {ks : List Coeffs} (hks : HasSections f.base.cascade.stages ks)
    (hst : ∀ k ∈ ks, k.Stable) (hfin : FiniteStates f.states) {x : ℕ → ℝ} {M : ℝ}
    (hx : ∀ n, |x n| ≤ M) :
    ∃ y B, Produces (PoleFilter.filter (T := XR)) f x y ∧ ∀ n, |y n| ≤ B := by
  obtain ⟨hb, hne⟩ := hasSections_iff.1 hks
  obtain ⟨cs, hcs⟩ := Sims.of_finite (ks.map Coeffs.norm) f.states
    (by rw [h.wired hn1 hn, hks.length, List.length_map]) hfin
  obtain ⟨B, hB⟩ := chain_bounded (stable_norms hne hst) cs hcs.cs_length hx
  exact ⟨_, B, PoleFilter.produces hb hcs x, hB⟩

/-- **C28** (decay): if the input tends to 0 (in particular if it stops), so does the output. -/
theorem C28_decay {c : Cls} {n : Nat} (hn1 : 1 ≤ n) (hn : n < 2 ^ 30) {f : PoleFilter S XR}
    (h : Reach S T c n f) {ks : List Coeffs} (hks : HasSections f.base.cascade.stages ks)
    (hst : ∀ k ∈ ks, k.Stable) (hfin : FiniteStates f.states) {x : ℕ → ℝ}
    (hx : Tendsto x atTop (𝓝 0)) :
    ∃ y, Produces (PoleFilter.filter (T := XR)) f x y ∧ Tendsto y atTop (𝓝 0) := by
  obtain ⟨hb, hne⟩ := hasSections_iff.1 hks
  obtain ⟨cs, hcs⟩ := Sims.of_finite (ks.map Coeffs.norm) f.states
    (by rw [h.wired hn1 hn, hks.length, List.length_map]) hfin
  exact ⟨_, PoleFilter.produces hb hcs x, chain_tendsto (stable_norms hne hst) cs hcs.cs_length hx⟩

/-- **C28** (SOS cascades). -/
theorem C28_sos {f : Custom.SOS S XR} {ks : List Coeffs} (hks : HasSections f.stages ks)
    (hl : f.states.length = f.stages.length) (hst : ∀ k ∈ ks, k.Stable)
    (hfin : FiniteStates f.states) (x : ℕ → ℝ) :
    ∃ y, Produces (Custom.SOS.filter (T := XR)) f x y ∧
      ((∃ M, ∀ n, |x n| ≤ M) → ∃ B, ∀ n, |y n| ≤ B) ∧
      (Tendsto x atTop (𝓝 0) → Tendsto y atTop (𝓝 0)) := by
  obtain ⟨hb, hne⟩ := hasSections_iff.1 hks
  obtain ⟨cs, hcs⟩ := Sims.of_finite (ks.map Coeffs.norm) f.states
    (by rw [hl, hks.length, List.length_map]) hfin
  exact ⟨_, Custom.SOS.produces hb hcs x,
    fun ⟨M, hM⟩ => chain_bounded (stable_norms hne hst) cs hcs.cs_length hM,
    chain_tendsto (stable_norms hne hst) cs hcs.cs_length⟩

/-- **C28** (a single section with any topology). -/
theorem C28_section {b : Biquad XR} {k : Coeffs} (hb : HasCoeffs b k) (hst : k.Stable) {s : S XR}
    (hs : ExactState.Finite s) (x : ℕ → ℝ) :
    ∃ y, Produces (biquadFilter b) s x y ∧
      ((∃ M, ∀ n, |x n| ≤ M) → ∃ B, ∀ n, |y n| ≤ B) ∧
      (Tendsto x atTop (𝓝 0) → Tendsto y atTop (𝓝 0)) := by
  obtain ⟨rfl, hne⟩ := hasCoeffs_iff.1 hb
  obtain ⟨c, hc⟩ := ExactState.sim_of_finite k.norm s hs
  have h := (Coeffs.stable_norm hne).2 hst
  exact ⟨_, biquad_produces hc x, fun ⟨M, hM⟩ => sec_bounded h c hM, sec_tendsto h c⟩

/-- the section used above is stable, and the delay line `(3, -1)` is finite -/
example (x : ℕ → ℝ) : ∃ y, Produces (biquadFilter exCoeffs.norm.toX)
    ({ v1 := fin 3, v2 := fin (-1) } : DirectFormII XR) x y ∧
      ((∃ M, ∀ n, |x n| ≤ M) → ∃ B, ∀ n, |y n| ≤ B) ∧
      (Tendsto x atTop (𝓝 0) → Tendsto y atTop (𝓝 0)) := by
  refine C28_section exCoeffs_has exCoeffs_stable ?_ x
  exact ⟨3, -1, rfl⟩

/-! ## C27 -/

theorem re_mul_exp (K : ℝ) (H : ℂ) (θ : ℝ) :
    (H * (K * Complex.exp (θ * Complex.I))).re = K * ‖H‖ * Real.cos (θ + H.arg) := by
  conv_lhs => rw [← Complex.norm_mul_exp_arg_mul_I H]
  have : (‖H‖ : ℂ) * Complex.exp (H.arg * Complex.I) * (K * Complex.exp (θ * Complex.I))
      = ((K * ‖H‖ : ℝ) : ℂ) * Complex.exp ((θ + H.arg : ℝ) * Complex.I) := by
    rw [show ((θ + H.arg : ℝ) : ℂ) * Complex.I = H.arg * Complex.I + θ * Complex.I by push_cast; ring,
      Complex.exp_add]
    push_cast; ring
  rw [this, Complex.re_ofReal_mul, Complex.exp_ofReal_mul_I_re]

theorem cos_eq_re (A φ fr : ℝ) (n : ℕ) :
    A * Real.cos (2 * Real.pi * fr * n + φ) =
      ((A * Complex.exp (φ * Complex.I)) * circle fr ^ n).re := by
  have h := re_mul_exp A 1 (2 * Real.pi * fr * n + φ)
  simp only [norm_one, mul_one, Complex.arg_one, add_zero, one_mul] at h
  rw [← h, circle, ← Complex.exp_nat_mul, mul_assoc (A : ℂ), ← Complex.exp_add]
  congr 3
  push_cast; ring_nf

theorem settles_of {H : ℂ} {fr A φ : ℝ} {y : ℕ → ℝ}
    (h : Tendsto (fun n : ℕ => y n - (H * (A * Complex.exp (φ * Complex.I)) * circle fr ^ n).re) atTop (𝓝 0)) :
    Settles H fr A φ y := by
  refine h.congr fun n => ?_
  congr 1
  rw [← re_mul_exp, circle, ← Complex.exp_nat_mul, mul_assoc, mul_assoc, ← Complex.exp_add]
  congr 3
  push_cast; ring_nf

/-- `response ()` of a reachable stable pole filter is the product of the transfer functions of all its sections. -/
theorem Spec.Reach.response_prod {c : Cls} {n : Nat} (hn1 : 1 ≤ n) (hn : n < 2 ^ 30)
    {f : PoleFilter S XR} (h : Reach S T c n f) {ks : List Coeffs}
    (hks : HasSections f.base.cascade.stages ks) (hst : ∀ k ∈ ks, k.Stable) {fr : ℝ} (h0 : 0 ≤ fr) (h1 : fr ≤ 1 / 2) :
    f.response (fin fr) = .ok (ofC ((ks.map Coeffs.norm).map (secH · (circle fr))).prod) := by
  obtain ⟨hb, hne⟩ := hasSections_iff.1 hks
  have hnorm : ∀ b ∈ ks.map Coeffs.norm, b.a0 ≠ 0 := by
    intro b hb
    obtain ⟨k, hk, rfl⟩ := List.mem_map.1 hb
    exact hne k hk
  have hstb := stable_norms hne hst
  have hnum : f.base.cascade.numStages ≤ (ks.map Coeffs.norm).length := by
    rw [List.length_map, ← hks.length, (h.ok hn1 hn).cascade.length]
    exact (h.ok hn1 hn).cascade.num
  have hresp := Cascade.response_toX hnorm hb hnum h0 h1
  have hcirc := norm_circle fr
  have hden : ∀ b ∈ (ks.map Coeffs.norm).take f.base.cascade.numStages, b.denQ (circle fr)⁻¹ ≠ 0 :=
    fun b hb => den_ne_zero_of_stable (hstb b (List.mem_of_mem_take hb)) hcirc
  rw [Cx.cdiv_ofC _ (list_prod_ne_zero hden), ← list_prod_div] at hresp
  -- the sections that `response` does not look at are pass-through
  have htail : ((ks.map Coeffs.norm).map (secH · (circle fr))).prod =
      (((ks.map Coeffs.norm).take f.base.cascade.numStages).map (secH · (circle fr))).prod := by
    conv_lhs => rw [← List.take_append_drop f.base.cascade.numStages (ks.map Coeffs.norm)]
    rw [List.map_append, List.prod_append]
    suffices hh : (((ks.map Coeffs.norm).drop f.base.cascade.numStages).map (secH · (circle fr))).prod = 1 by
      rw [hh, mul_one]
    apply List.prod_eq_one
    intro v hv
    obtain ⟨b, hbm, rfl⟩ := List.mem_map.1 hv
    obtain ⟨i, hi, rfl⟩ := List.mem_iff_getElem.1 hbm
    have hid : (Biquad.identR : Res (Biquad XR)) = .ok identCoeffs.norm.toX := by
      simp [Biquad.identR, Biquad.coeffsR, identCoeffs, Coeffs.norm, Biquad.toX, fin_div]
    have := h.tail hn1 hn ⟨_, hid⟩ (f.base.cascade.numStages + i)
      (((ks.map Coeffs.norm).drop f.base.cascade.numStages)[i]).toX (Nat.le_add_right _ _) (by
        rw [hb, List.getElem?_map, List.getElem_drop, List.getElem?_eq_getElem]; rfl)
    have heq : (((ks.map Coeffs.norm).drop f.base.cascade.numStages)[i]).toX = identCoeffs.norm.toX := by
      rcases this with h1 | h1
      · rw [h1, (hasCoeffs_iff.1 default_hasCoeffs).1]
      · rw [hid] at h1; exact (Res.ok.inj h1).symm
    generalize ((ks.map Coeffs.norm).drop f.base.cascade.numStages)[i] = b at heq
    have hbe : b = identCoeffs.norm := by
      rcases b with ⟨_, _, _, _, _, _⟩
      simp only [Biquad.toX, Biquad.mk.injEq, fin_inj] at heq
      rcases hn : identCoeffs.norm with ⟨_, _, _, _, _, _⟩
      rw [hn] at heq
      simp only [Biquad.mk.injEq]; tauto
    rw [hbe, Coeffs.secH_norm (by simp [identCoeffs])]
    simp [Coeffs.transfer, identCoeffs]
  rw [htail]
  exact hresp

/-- **C27**: for a reachable pole filter with all poles inside the unit circle and any finite delay
line content, the output for a sinusoid settles to what `response ()` says. -/
theorem C27_filter_realises_response {c : Cls} {n : Nat} (hn1 : 1 ≤ n) (hn : n < 2 ^ 30)
    {f : PoleFilter S XR} (h : Reach S T c n f) {ks : List Coeffs}
    (hks : HasSections f.base.cascade.stages ks) (hst : ∀ k ∈ ks, k.Stable)
    (hfin : FiniteStates f.states) {fr : ℝ} (h0 : 0 ≤ fr) (h1 : fr ≤ 1 / 2) (A φ : ℝ) :
    ∃ H y, f.response (fin fr) = .ok (ofC H) ∧
      Produces (PoleFilter.filter (T := XR)) f (fun n => A * Real.cos (2 * Real.pi * fr * n + φ)) y ∧
      Settles H fr A φ y := by
  obtain ⟨hb, hne⟩ := hasSections_iff.1 hks
  obtain ⟨cs, hcs⟩ := Sims.of_finite (ks.map Coeffs.norm) f.states
    (by rw [h.wired hn1 hn, hks.length, List.length_map]) hfin
  refine ⟨_, _, h.response_prod hn1 hn hks hst h0 h1, PoleFilter.produces hb hcs _, settles_of ?_⟩
  exact chain_steady (stable_norms hne hst) cs hcs.cs_length (norm_circle fr) (K := A * Complex.exp (φ * Complex.I))
    (x := fun n => A * Real.cos (2 * Real.pi * fr * n + φ)) (by
      refine tendsto_const_nhds.congr fun n => ?_
      rw [cos_eq_re, sub_self])

/-- **C27** for a single section: the output settles to what `Biquad::response ()` says. -/
theorem C27_section {b : Biquad XR} {k : Coeffs} (hb : HasCoeffs b k) (hst : k.Stable) {s : S XR}
    (hs : ExactState.Finite s) (fr A φ : ℝ) :
    ∃ H y, b.response (fin fr) = .ok (ofC H) ∧
      Produces (biquadFilter b) s (fun n => A * Real.cos (2 * Real.pi * fr * n + φ)) y ∧
      Settles H fr A φ y := by
  obtain ⟨rfl, hne⟩ := hasCoeffs_iff.1 hb
  obtain ⟨c, hc⟩ := ExactState.sim_of_finite k.norm s hs
  have h := (Coeffs.stable_norm hne).2 hst
  have hresp := response_toX (b := k.norm) hne fr
  have hden : k.norm.denQ (circle fr)⁻¹ ≠ 0 := den_ne_zero_of_stable h (norm_circle fr)
  rw [Cx.cdiv_ofC _ hden, ← secH_eq] at hresp
  refine ⟨_, _, hresp, biquad_produces hc _, settles_of ?_⟩
  exact sec_steady h c (norm_circle fr) (K := A * Complex.exp (φ * Complex.I))
    (x := fun n => A * Real.cos (2 * Real.pi * fr * n + φ)) (by
      refine tendsto_const_nhds.congr fun n => ?_
      rw [cos_eq_re, sub_self])

end Iir
