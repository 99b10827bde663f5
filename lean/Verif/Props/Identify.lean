import Verif.Lemmas.Identify
import Verif.Props.Energy
import Verif.Props.Transfer

/-! # C67: the frequency response determines the output -/

set_option linter.unusedSectionVars false

namespace Iir
open FArith XR Spec Exec

/-! ## Statements -/

/-- Filter `f`, reset, turns the samples `x` into `y`. -/
def Spec.Runs {S : Type → Type} [StateType S XR] (f : PoleFilter S XR) (x y : ℕ → ℝ) : Prop :=
  Produces (PoleFilter.filter (T := XR)) (PoleFilter.reset f).2 x y

/-- Any object of the class, whatever was done with it before, set up with `call` and reset, turns the samples `x`
into `y`. -/
def Spec.SetupRuns (S : Type → Type) [StateType S XR] (T : Type) [Sample T XR] (n : ℕ) (call : Call XR)
    (x y : ℕ → ℝ) : Prop :=
  ∀ f, Reach S T call.design.cls n f → ∃ f', PoleFilter.setup n call f = (.ok (), f') ∧ Runs f' x y

/-! ## Tools -/

/-- `run` is a stable chain of sections with response `H` between 0 and half the sampling rate -/
def Known (run : (ℕ → ℝ) → (ℕ → ℝ) → Prop) (H : ℝ → ℂ) : Prop :=
  ∃ ks : List Coeffs, (∀ k ∈ ks, k.a0 ≠ 0) ∧ (∀ k ∈ ks, k.Stable) ∧
    (∀ fr, 0 < fr → fr < 1 / 2 → ((ks.map Coeffs.norm).map (secH · (circle fr))).prod = H fr) ∧
    ∀ x y, run x y ↔ y = chainOut (ks.map Coeffs.norm) (rest ks.length) x

section known
variable {run run' run'' : (ℕ → ℝ) → (ℕ → ℝ) → Prop} {H H' H'' : ℝ → ℂ}

theorem Known.same (h : Known run H) (h' : Known run' H') (e : ∀ fr, 0 < fr → fr < 1 / 2 → H fr = H' fr)
    (x y : ℕ → ℝ) : run x y ↔ run' x y := by
  obtain ⟨ks, h1, h2, h3, h4⟩ := h
  obtain ⟨ks', h1', h2', h3', h4'⟩ := h'
  rw [h4, h4', chain_identify h1 h2 h1' h2' fun fr a b => by rw [h3 fr a b, h3' fr a b, e fr a b]]

theorem Known.resp (h : Known run H) (h' : Known run' H') (e : ∀ y, run impulse y → run' impulse y)
    (fr : ℝ) (a : 0 < fr) (b : fr < 1 / 2) : H fr = H' fr := by
  obtain ⟨ks, h1, h2, h3, h4⟩ := h
  obtain ⟨ks', h1', h2', h3', h4'⟩ := h'
  rw [← h3 fr a b, ← h3' fr a b]
  exact chain_identified h1 h2 h1' h2' ((h4' _ _).1 (e _ ((h4 _ _).2 rfl))) fr

theorem Known.comp (h : Known run H) (h' : Known run' H') :
    Known (fun x z => ∃ y, run x y ∧ run' y z) fun fr => H fr * H' fr := by
  obtain ⟨ks, h1, h2, h3, h4⟩ := h
  obtain ⟨ks', h1', h2', h3', h4'⟩ := h'
  refine ⟨ks ++ ks', fun k hk => (List.mem_append.1 hk).elim (h1 k) (h1' k),
    fun k hk => (List.mem_append.1 hk).elim (h2 k) (h2' k), fun fr a b => ?_, fun x z => ?_⟩
  · rw [List.map_append, List.map_append, List.prod_append, h3 fr a b, h3' fr a b]
  · have e := chainOut_append (ks.map Coeffs.norm) (ks'.map Coeffs.norm) x
    rw [← List.map_append, List.length_map, List.length_map, List.length_map] at e
    rw [e]
    constructor
    · rintro ⟨y, hy, hz⟩
      rw [(h4' _ _).1 hz, (h4 _ _).1 hy]
    · rintro rfl
      exact ⟨_, (h4 _ _).2 rfl, (h4' _ _).2 rfl⟩

theorem known_id : Known (fun x y => x = y) fun _ => 1 :=
  ⟨[], by simp, by simp, by simp, fun x y => by
    rw [List.map_nil, List.length_nil, show rest 0 = [] from rfl, chainOut_nil, eq_comm]⟩

theorem Known.total (h : Known run H) (x : ℕ → ℝ) : ∃ y, run x y := by
  obtain ⟨ks, -, -, -, h4⟩ := h
  exact ⟨_, (h4 _ _).2 rfl⟩

theorem Known.series (h : Known run H) (h' : Known run' H') (h'' : Known run'' H'')
    (e : ∀ fr, 0 < fr → fr < 1 / 2 → H fr * H' fr = H'' fr) {x y z : ℕ → ℝ} (hy : run x y) (hz : run' y z) :
    run'' x z :=
  ((h.comp h').same h'' e x z).1 ⟨y, hy, hz⟩

theorem Known.parallel (h : Known run H) (h' : Known run' H') (h'' : Known run'' H'') {c c' : ℝ}
    (e : ∀ fr, 0 < fr → fr < 1 / 2 → c * H fr + c' * H' fr = H'' fr) {x y y' : ℕ → ℝ} (hy : run x y)
    (hy' : run' x y') : run'' x fun n => c * y n + c' * y' n := by
  obtain ⟨ks, h1, h2, h3, h4⟩ := h
  obtain ⟨ks', h1', h2', h3', h4'⟩ := h'
  obtain ⟨ks'', h1'', h2'', h3'', h4''⟩ := h''
  rw [h4'', (h4 _ _).1 hy, (h4' _ _).1 hy']
  exact (funext (chain_parallel h1 h2 h1' h2' h1'' h2'' (fun fr a b => by
    rw [h3 fr a b, h3' fr a b, h3'' fr a b, e fr a b]) x)).symm

theorem Known.inverse (h : Known run H) (h' : Known run' H')
    (e : ∀ fr, 0 < fr → fr < 1 / 2 → H fr * H' fr = 1) {x y : ℕ → ℝ} (hy : run x y) : run' y x := by
  obtain ⟨z, hz⟩ := h'.total y
  have := ((h.comp h').same known_id e x z).1 ⟨y, hy, hz⟩
  rwa [this]

end known

section pole
variable {S S' S'' : Type → Type} [StateType S XR] [DelayLine XR S] [StateType S' XR] [DelayLine XR S']
  [StateType S'' XR] [DelayLine XR S''] {T T' T'' : Type} [Sample T XR] [Sample T' XR] [Sample T'' XR]
  {n n' n'' o : ℕ} {c c' c'' : Cls} {call call' : Call XR}

theorem known_pole (hn1 : 1 ≤ n) (hn : n < 2 ^ 30) {f : PoleFilter S XR} (h : Reach S T c n f)
    (hst : StableFilter f) {H : ℝ → ℂ} (hH : ∀ fr, 0 < fr → fr < 1 / 2 → Response f fr (H fr)) : Known (Runs f) H := by
  obtain ⟨ks, hks, hs⟩ := sections_of_stable hst
  refine ⟨ks, (hasSections_iff.1 hks).2, hs, fun fr a b => ?_, fun x y => ?_⟩
  · have h2 := h.response_prod hn1 hn hks hs a.le b.le
    have h3 : (ofC _ : Cx XR) = ofC (H fr) := Res.ok.inj (h2.symm.trans (hH fr a b))
    rwa [ofC_inj] at h3
  · have hp := pole_reset_produces hn1 hn h hks x
    exact ⟨fun hy => Produces.unique hy hp, fun hy => hy ▸ hp⟩

theorem stable_responds (hn1 : 1 ≤ n) (hn : n < 2 ^ 30) {f : PoleFilter S XR} (h : Reach S T c n f)
    (hst : StableFilter f) : ∃ H : ℝ → ℂ, ∀ fr, 0 ≤ fr → fr ≤ 1 / 2 → Response f fr (H fr) := by
  obtain ⟨ks, hks, hs⟩ := sections_of_stable hst
  exact ⟨_, fun fr a b => h.response_prod hn1 hn hks hs a b⟩

theorem Spec.Response.unique {f : PoleFilter S XR} {fr : ℝ} {h h' : ℂ} (e : Response f fr h) (e' : Response f fr h') :
    h = h' := by
  have h3 : (ofC h : Cx XR) = ofC h' := Res.ok.inj (e.symm.trans e')
  rwa [ofC_inj] at h3

theorem known_setup (hn1 : 1 ≤ n) (hn : n < 2 ^ 30) {H : ℝ → ℂ} (hst : AfterSetup S T n call StableFilter)
    (hH : AfterSetup S T n call fun f => ∀ fr, 0 < fr → fr < 1 / 2 → Response f fr (H fr)) :
    Known (SetupRuns S T n call) H := by
  have key : ∀ f, Reach S T call.design.cls n f → ∃ f', PoleFilter.setup n call f = (.ok (), f') ∧
      Known (Runs f') H := fun f hf => by
    obtain ⟨f', e, -, hs, hr⟩ := (hst.and hH) f hf
    exact ⟨f', e, known_pole hn1 hn (.call f f' (.setup call) (.ok ()) hf rfl e fun u h => by cases h) hs hr⟩
  have hnew := Reach.new (S := S) (T := T) (R := XR) (c := call.design.cls) (n := n)
  obtain ⟨f', e, hk⟩ := key _ hnew
  obtain ⟨ks, h1, h2, h3, h4⟩ := id hk
  refine ⟨ks, h1, h2, h3, fun x y => ?_⟩
  rw [← h4]
  constructor
  · intro hr
    obtain ⟨g, e', hg⟩ := hr _ hnew
    obtain rfl : f' = g := congrArg Prod.snd (e.symm.trans e')
    exact hg
  · intro hr f hf
    obtain ⟨g, e', hg⟩ := key f hf
    exact ⟨g, e', (hk.same hg (fun _ _ _ => rfl) x y).1 hr⟩

theorem known_rbjFilter {f : RBJ.Filter XR} (hst : StableSection f.biquad) {H : ℝ → ℂ}
    (hH : ∀ fr, 0 < fr → fr < 1 / 2 → SectionResponse f.biquad fr (H fr)) :
    Known (Produces (RBJ.Filter.filter (T := XR)) (RBJ.Filter.reset f).2) H := by
  obtain ⟨k, hk, hs⟩ := hst
  refine ⟨[k], by simpa using (hasCoeffs_iff.1 hk).2, by simpa using hs, fun fr a b => ?_, fun x y => ?_⟩
  · have h := hH fr a b
    generalize f.biquad = b at *
    obtain ⟨rfl, hne⟩ := hasCoeffs_iff.1 hk
    have hden : k.norm.denQ (circle fr)⁻¹ ≠ 0 :=
      den_ne_zero_of_stable ((Coeffs.stable_norm hne).2 hs) (norm_circle fr)
    rw [SectionResponse, response_toX (b := k.norm) hne, Cx.cdiv_ofC _ hden, ← secH_eq] at h
    have h3 : (ofC _ : Cx XR) = ofC (H fr) := Res.ok.inj h
    rw [ofC_inj] at h3
    simp [h3]
  · have hp := rbj_reset_produces hk x
    exact ⟨fun hy => Produces.unique hy hp, fun hy => hy ▸ hp⟩

theorem known_rbj {d : RBJ.Design XR} {H : ℝ → ℂ} (hst : AfterRBJ d StableSection)
    (hH : AfterRBJ d fun b => ∀ fr, 0 < fr → fr < 1 / 2 → SectionResponse b fr (H fr)) : Known (RBJRuns d) H := by
  have key : ∀ f, ∃ f', RBJ.Filter.setupN d f = (.ok (), f') ∧
      Known (Produces (RBJ.Filter.filter (T := XR)) (RBJ.Filter.reset f').2) H := fun f => by
    obtain ⟨f', e, -, hs⟩ := hst f
    obtain ⟨f2, e2, -, hr⟩ := hH f
    obtain rfl : f' = f2 := congrArg Prod.snd (e.symm.trans e2)
    exact ⟨f', e, known_rbjFilter hs hr⟩
  obtain ⟨f', e, hk⟩ := key RBJ.Filter.init
  obtain ⟨ks, h1, h2, h3, h4⟩ := id hk
  refine ⟨ks, h1, h2, h3, fun x y => ?_⟩
  rw [← h4]
  constructor
  · intro hr
    obtain ⟨g, e', hg⟩ := hr RBJ.Filter.init
    obtain rfl : f' = g := congrArg Prod.snd (e.symm.trans e')
    exact hg
  · intro hr f
    obtain ⟨g, e', hg⟩ := key f
    exact ⟨g, e', (hk.same hg (fun _ _ _ => rfl) x y).1 hr⟩

/-! ## C67 -/

/-- **C67**: two stable filters, of whatever classes, sizes and delay line types, return the same samples for every
input after `reset ()` if, and only if, `response` returns the same at every frequency between 0 and half the sampling
rate. -/
theorem C67_response_determines_output (hn1 : 1 ≤ n) (hn : n < 2 ^ 30) (hn1' : 1 ≤ n') (hn' : n' < 2 ^ 30)
    {f : PoleFilter S XR} {g : PoleFilter S' XR} (hf : Reach S T c n f) (hg : Reach S' T' c' n' g)
    (hsf : StableFilter f) (hsg : StableFilter g) :
    (∀ fr, 0 < fr → fr < 1 / 2 → f.response (fin fr) = g.response (fin fr)) ↔
      ∀ x y, Runs f x y ↔ Runs g x y := by
  obtain ⟨H, hH⟩ := stable_responds hn1 hn hf hsf
  obtain ⟨H', hH'⟩ := stable_responds hn1' hn' hg hsg
  have k := known_pole hn1 hn hf hsf fun fr a b => hH fr a.le b.le
  have k' := known_pole hn1' hn' hg hsg fun fr a b => hH' fr a.le b.le
  constructor
  · refine fun h => k.same k' fun fr a b => ?_
    have e : f.response (fin fr) = .ok ⟨fin (H' fr).re, fin (H' fr).im⟩ := (h fr a b).trans (hH' fr a.le b.le)
    exact Response.unique (hH fr a.le b.le) e
  · intro h fr a b
    have e := k.resp k' (fun y => (h _ y).1) fr a b
    have e1 := hH fr a.le b.le
    have e2 := hH' fr a.le b.le
    rw [e] at e1
    exact e1.trans e2.symm

/-- **C67**, the impulse response suffices: filters that agree on the unit impulse agree on every input. -/
theorem C67_impulse_determines_output (hn1 : 1 ≤ n) (hn : n < 2 ^ 30) (hn1' : 1 ≤ n') (hn' : n' < 2 ^ 30)
    {f : PoleFilter S XR} {g : PoleFilter S' XR} (hf : Reach S T c n f) (hg : Reach S' T' c' n' g)
    (hsf : StableFilter f) (hsg : StableFilter g) {h : ℕ → ℝ} (ef : Runs f impulse h) (eg : Runs g impulse h)
    (x y : ℕ → ℝ) : Runs f x y ↔ Runs g x y := by
  obtain ⟨H, hH⟩ := stable_responds hn1 hn hf hsf
  obtain ⟨H', hH'⟩ := stable_responds hn1' hn' hg hsg
  have k := known_pole hn1 hn hf hsf fun fr a b => hH fr a.le b.le
  have k' := known_pole hn1' hn' hg hsg fun fr a b => hH' fr a.le b.le
  exact k.same k' (k.resp k' fun y hy => by rw [Produces.unique hy ef]; exact eg) x y

/-- **C67** for two filters in series: if their responses multiply to that of a third, the second fed with the output
of the first returns what the third returns. -/
theorem C67_series (hn1 : 1 ≤ n) (hn : n < 2 ^ 30) (hn1' : 1 ≤ n') (hn' : n' < 2 ^ 30) (hn1'' : 1 ≤ n'')
    (hn'' : n'' < 2 ^ 30) {f : PoleFilter S XR} {g : PoleFilter S' XR} {k : PoleFilter S'' XR}
    (hf : Reach S T c n f) (hg : Reach S' T' c' n' g) (hk : Reach S'' T'' c'' n'' k)
    (hsf : StableFilter f) (hsg : StableFilter g) (hsk : StableFilter k)
    (h : ∀ fr, 0 < fr → fr < 1 / 2 → ∃ u v, Response f fr u ∧ Response g fr v ∧ Response k fr (u * v))
    {x y z : ℕ → ℝ} (hy : Runs f x y) (hz : Runs g y z) : Runs k x z := by
  obtain ⟨H, hH⟩ := stable_responds hn1 hn hf hsf
  obtain ⟨H', hH'⟩ := stable_responds hn1' hn' hg hsg
  obtain ⟨H'', hH''⟩ := stable_responds hn1'' hn'' hk hsk
  refine (known_pole hn1 hn hf hsf fun fr a b => hH fr a.le b.le).series
    (known_pole hn1' hn' hg hsg fun fr a b => hH' fr a.le b.le)
    (known_pole hn1'' hn'' hk hsk fun fr a b => hH'' fr a.le b.le) (fun fr a b => ?_) hy hz
  obtain ⟨u, v, e1, e2, e3⟩ := h fr a b
  rw [(hH fr a.le b.le).unique e1, (hH' fr a.le b.le).unique e2, (hH'' fr a.le b.le).unique e3]

/-- **C67** for filters that undo each other: if the responses multiply to 1, the second restores the input of the
first, sample for sample. -/
theorem C67_inverse (hn1 : 1 ≤ n) (hn : n < 2 ^ 30) (hn1' : 1 ≤ n') (hn' : n' < 2 ^ 30)
    {f : PoleFilter S XR} {g : PoleFilter S' XR} (hf : Reach S T c n f) (hg : Reach S' T' c' n' g)
    (hsf : StableFilter f) (hsg : StableFilter g)
    (h : ∀ fr, 0 < fr → fr < 1 / 2 → ∃ u v, Response f fr u ∧ Response g fr v ∧ u * v = 1)
    {x y : ℕ → ℝ} (hy : Runs f x y) : Runs g y x := by
  obtain ⟨H, hH⟩ := stable_responds hn1 hn hf hsf
  obtain ⟨H', hH'⟩ := stable_responds hn1' hn' hg hsg
  refine (known_pole hn1 hn hf hsf fun fr a b => hH fr a.le b.le).inverse
    (known_pole hn1' hn' hg hsg fun fr a b => hH' fr a.le b.le) (fun fr a b => ?_) hy
  obtain ⟨u, v, e1, e2, e3⟩ := h fr a b
  rw [(hH fr a.le b.le).unique e1, (hH' fr a.le b.le).unique e2, e3]

/-- **C67** for filters in parallel: if a combination of two responses is a third one, the same combination of the two
outputs is the third output. -/
theorem C67_parallel (hn1 : 1 ≤ n) (hn : n < 2 ^ 30) (hn1' : 1 ≤ n') (hn' : n' < 2 ^ 30) (hn1'' : 1 ≤ n'')
    (hn'' : n'' < 2 ^ 30) {f : PoleFilter S XR} {g : PoleFilter S' XR} {k : PoleFilter S'' XR}
    (hf : Reach S T c n f) (hg : Reach S' T' c' n' g) (hk : Reach S'' T'' c'' n'' k)
    (hsf : StableFilter f) (hsg : StableFilter g) (hsk : StableFilter k) {p q : ℝ}
    (h : ∀ fr, 0 < fr → fr < 1 / 2 → ∃ u v, Response f fr u ∧ Response g fr v ∧ Response k fr (p * u + q * v))
    {x y y' : ℕ → ℝ} (hy : Runs f x y) (hy' : Runs g x y') : Runs k x fun n => p * y n + q * y' n := by
  obtain ⟨H, hH⟩ := stable_responds hn1 hn hf hsf
  obtain ⟨H', hH'⟩ := stable_responds hn1' hn' hg hsg
  obtain ⟨H'', hH''⟩ := stable_responds hn1'' hn'' hk hsk
  refine (known_pole hn1 hn hf hsf fun fr a b => hH fr a.le b.le).parallel
    (known_pole hn1' hn' hg hsg fun fr a b => hH' fr a.le b.le)
    (known_pole hn1'' hn'' hk hsk fun fr a b => hH'' fr a.le b.le) (fun fr a b => ?_) hy hy'
  obtain ⟨u, v, e1, e2, e3⟩ := h fr a b
  rw [(hH fr a.le b.le).unique e1, (hH' fr a.le b.le).unique e2, (hH'' fr a.le b.le).unique e3]

/-- **C67** between an RBJ filter and a pole filter. -/
theorem C67_rbj_pole (hn1 : 1 ≤ n) (hn : n < 2 ^ 30) {f : PoleFilter S XR} (hf : Reach S T c n f)
    (hsf : StableFilter f) {g : RBJ.Filter XR} (hsg : StableSection g.biquad)
    (h : ∀ fr, 0 < fr → fr < 1 / 2 → ∃ u, Response f fr u ∧ SectionResponse g.biquad fr u) (x y : ℕ → ℝ) :
    Runs f x y ↔ Produces (RBJ.Filter.filter (T := XR)) (RBJ.Filter.reset g).2 x y := by
  obtain ⟨H, hH⟩ := stable_responds hn1 hn hf hsf
  refine (known_pole hn1 hn hf hsf fun fr a b => hH fr a.le b.le).same
    (known_rbjFilter (H := H) hsg fun fr a b => ?_) (fun _ _ _ => rfl) x y
  obtain ⟨u, e1, e2⟩ := h fr a b
  rwa [(hH fr a.le b.le).unique e1]

/-- filters as in C67 exist: any object after a setup with valid parameters, here of order 4 -/
example : ∃ f, Reach S T (Call.setupN (R := XR) (.bwLowPass (fin (1 / 4)))).design.cls 4 f ∧ StableFilter f := by
  obtain ⟨f, e, -, hs⟩ := C29_stable (S := S) (T := T) (n := 4) (o := 4) (call := .setupN (.bwLowPass (fin (1 / 4))))
    (d := .bwLowPass (fin (1 / 4))) ⟨rfl, rfl, by norm_num, le_rfl, by norm_num⟩ ⟨by norm_num, by norm_num⟩ _ .new
  exact ⟨f, .call _ f (.setup _) (.ok ()) .new rfl e (fun u h => by cases h), hs⟩

end pole
end Iir
