import Verif.Spec.Series
import Verif.Props.Headroom
import Verif.Props.Attached

/-! # C100: filters in series -/

set_option linter.unusedSectionVars false

namespace Iir
open FArith XR Spec Exec

/-! ## Statements -/

/-- A filter of the library, set up with valid parameters and reset: its input and output, and its response between 0 and
half the sampling rate. -/
inductive Spec.Device : ((ℕ → ℝ) → (ℕ → ℝ) → Prop) → (ℝ → ℂ) → Prop
  | pole (S : Type → Type) [StateType S XR] [DelayLine XR S] (T : Type) [Sample T XR] {n o : ℕ} {call : Call XR} {d : Design XR}
      {H : ℝ → ℂ} (h : Asks call n o d) (hv : Valid o d)
      (hH : ∀ fr, 0 < fr → fr < 1 / 2 → AfterSetup S T n call (Response · fr (H fr))) : Device (SetupRuns S T n call) H
  | rbj {d : RBJ.Design ℝ} {H : ℝ → ℂ} (hv : ValidRBJ d)
      (hH : ∀ fr, 0 < fr → fr < 1 / 2 → AfterRBJ (finRBJ d) (SectionResponse · fr (H fr))) : Device (RBJRuns (finRBJ d)) H
  | sos {S : Type → Type} [StateType S XR] [DelayLine XR S] {T : Type} [Sample T XR] {n : ℕ} {f : Custom.SOS S XR}
      (h : SosReach S T n f) {ks : List Coeffs} (hks : HasSections f.stages ks) (hst : ∀ k ∈ ks, k.Stable) :
      Device (Produces (Custom.SOS.filter (T := XR)) (Custom.SOS.reset f).2)
        fun fr => (ks.map (·.transfer (circle fr))).prod

/-! ## Tools -/

theorem Spec.Device.known {run : (ℕ → ℝ) → (ℕ → ℝ) → Prop} {H : ℝ → ℂ} (h : Device run H) : Known run H := by
  cases h with
  | pole S T h hv hH =>
    refine known_setup (h.pos.trans h.le) h.small (C29_stable h hv) fun f hf => ?_
    obtain ⟨f', e, hr, -⟩ := C29_stable h hv f hf
    refine ⟨f', e, hr, fun fr a b => ?_⟩
    obtain ⟨f2, e2, -, h2⟩ := hH fr a b f hf
    obtain rfl : f' = f2 := congrArg Prod.snd (e.symm.trans e2)
    exact h2
  | @rbj d H hv hH =>
    refine known_rbj (C42_stable d hv) fun f => ?_
    obtain ⟨f', e, hr, -⟩ := C42_stable d hv f
    refine ⟨f', e, hr, fun fr a b => ?_⟩
    obtain ⟨f2, e2, -, h2⟩ := hH fr a b f
    obtain rfl : f' = f2 := congrArg Prod.snd (e.symm.trans e2)
    exact h2
  | @sos S _ _ T _ n f h ks hks hst =>
    have e : Produces (Custom.SOS.filter (T := XR)) (Custom.SOS.reset f).2 = DiffChain ks :=
      funext fun x => funext fun y => propext (C01_sos h hks x y)
    rw [e]
    have h0 := (hasSections_iff.1 hks).2
    obtain ⟨ks', h1, h2, h3, h4⟩ := known_sections h0 hst
    refine ⟨ks', h1, h2, fun fr a b => ?_, h4⟩
    rw [h3 fr a b]
    show (((ks.map Coeffs.norm).map (secH · (circle fr))).prod : ℂ) = (ks.map (·.transfer (circle fr))).prod
    rw [List.map_map]
    exact congrArg _ (List.map_congr_left fun k hk => Coeffs.secH_norm (h0 k hk) _)

variable {l l' : List (((ℕ → ℝ) → (ℕ → ℝ) → Prop) × (ℝ → ℂ))}

theorem known_chained (h : ∀ p ∈ l, Device p.1 p.2) : Known (Chained (l.map Prod.fst)) fun fr => (l.map fun p => p.2 fr).prod := by
  induction l with
  | nil => exact known_id
  | cons p l ih => exact (h p (by simp)).known.comp (ih fun q hq => h q (by simp [hq]))

theorem Known.settles {run : (ℕ → ℝ) → (ℕ → ℝ) → Prop} {H : ℝ → ℂ} (k : Known run H) {fr A φ : ℝ} (a : 0 < fr) (b : fr < 1 / 2)
    {y : ℕ → ℝ} (hy : run (fun n => A * Real.cos (2 * Real.pi * fr * n + φ)) y) : Settles (H fr) fr A φ y := by
  obtain ⟨ks, h1, h2, h3, h4⟩ := k
  rw [(h4 _ _).1 hy, ← h3 fr a b]
  refine settles_of ?_
  exact chain_steady (stable_norms h1 h2) (rest ks.length) (by simp [rest]) (norm_circle fr) (K := A * Complex.exp (φ * Complex.I))
    (x := fun n => A * Real.cos (2 * Real.pi * fr * n + φ)) (by
      refine Filter.Tendsto.congr (fun n => ?_) tendsto_const_nhds
      rw [cos_eq_re, sub_self])

/-! ## C100 -/

/-- Every valid design is such a device. -/
theorem C100_device {S : Type → Type} [StateType S XR] [DelayLine XR S] {T : Type} [Sample T XR] {n o : ℕ} {call : Call XR}
    {d : Design XR} (h : Asks call n o d) (hv : Valid o d) : ∃ H, Device (SetupRuns S T n call) H := by
  obtain ⟨H, hH⟩ := transfer_fun o d
  exact ⟨H, .pole S T h hv fun fr a b => (C66_response h hv).mono fun f hf => hH S f hf fr a b⟩

/-- Every RBJ filter with valid parameters is such a device. -/
theorem C100_device_rbj (d : RBJ.Design ℝ) (hv : ValidRBJ d) : ∃ H, Device (RBJRuns (finRBJ d)) H := by
  obtain ⟨H, hH⟩ := rbj_fun d
  refine ⟨H, .rbj hv fun fr a b f => ?_⟩
  obtain ⟨f', e, hs, hp⟩ := C66_rbj d hv f
  exact ⟨f', e, hs, hH _ hp fr a b⟩

/-- **C100**: filters in series answer every input by exactly one output. -/
theorem C100_total (h : ∀ p ∈ l, Device p.1 p.2) (x : ℕ → ℝ) : ∃! y, Chained (l.map Prod.fst) x y := by
  obtain ⟨ks, -, -, -, h4⟩ := known_chained h
  exact ⟨_, (h4 _ _).2 rfl, fun z hz => (h4 _ _).1 hz⟩

/-- **C100**: the responses multiply: two series of filters give the same output for every input if and only if the products of
the responses are the same between 0 and half the sampling rate. -/
theorem C100_response (h : ∀ p ∈ l, Device p.1 p.2) (h' : ∀ p ∈ l', Device p.1 p.2) :
    (∀ fr, 0 < fr → fr < 1 / 2 → (l.map fun p => p.2 fr).prod = (l'.map fun p => p.2 fr).prod) ↔
      ∀ x y, Chained (l.map Prod.fst) x y ↔ Chained (l'.map Prod.fst) x y :=
  ⟨(known_chained h).same (known_chained h'), fun e => (known_chained h).resp (known_chained h') fun y => (e _ y).1⟩

/-- **C100**: the order of the filters does not matter. -/
theorem C100_order (h : ∀ p ∈ l, Device p.1 p.2) (hl : l.Perm l') (x y : ℕ → ℝ) :
    Chained (l.map Prod.fst) x y ↔ Chained (l'.map Prod.fst) x y :=
  (C100_response h fun p hp => h p (hl.mem_iff.2 hp)).1 (fun _ _ _ => (hl.map _).prod_eq) x y

/-- **C100**: a sampled sinusoid comes out, after transients, scaled and shifted by the product of the responses. -/
theorem C100_settles (h : ∀ p ∈ l, Device p.1 p.2) {fr A φ : ℝ} (a : 0 < fr) (b : fr < 1 / 2) {y : ℕ → ℝ}
    (hy : Chained (l.map Prod.fst) (fun n => A * Real.cos (2 * Real.pi * fr * n + φ)) y) :
    Settles (l.map fun p => p.2 fr).prod fr A φ y := (known_chained h).settles a b hy

/-- **C100**: the peak gain of a series is at most the product of the peak gains. -/
theorem C100_peak {ps : List (((ℕ → ℝ) → (ℕ → ℝ) → Prop) × ℝ)} (h : ∀ p ∈ ps, (∃ H, Device p.1 H) ∧ PeakGain p.1 p.2) :
    ∃ P ≤ (ps.map Prod.snd).prod, PeakGain (Chained (ps.map Prod.fst)) P := by
  have k : ∃ H, Known (Chained (ps.map Prod.fst)) H := by
    induction ps with
    | nil => exact ⟨_, known_id⟩
    | cons p l ih =>
      obtain ⟨H, hH⟩ := ih fun q hq => h q (by simp [hq])
      obtain ⟨G, hG⟩ := (h p (by simp)).1
      exact ⟨_, hG.known.comp hH⟩
  obtain ⟨H, k⟩ := k
  obtain ⟨y, -, -, -, hp, -⟩ := k.peak
  refine ⟨_, ?_, hp⟩
  have bound : ∀ x y M, Chained (ps.map Prod.fst) x y → (∀ n, |x n| ≤ M) → ∀ n, |y n| ≤ (ps.map Prod.snd).prod * M := by
    clear * - h
    induction ps with
    | nil => rintro x y M rfl hx n; simpa using hx n
    | cons p l ih =>
      rintro x z M ⟨y, hy, hz⟩ hx n
      have := ih (fun q hq => h q (by simp [hq])) y z (p.2 * M) hz ((h p (by simp)).2.bound x y hy M hx) n
      rw [List.map_cons, List.prod_cons]
      linarith
  by_contra hlt
  obtain ⟨x, y, n, hx, hr, hn⟩ := hp.sharp _ (not_le.1 hlt) 1 one_pos
  have := bound x y 1 hr (fun n => by rcases hx n with e | e <;> rw [e] <;> norm_num) n
  linarith

/-! ## Cases -/

section
variable {S : Type → Type} [StateType S XR] [DelayLine XR S] {T : Type} [Sample T XR]

/-- an RBJ all pass and a Butterworth high pass of order 3 -/
example (x y : ℕ → ℝ) :
    Chained [RBJRuns (.allPass (fin (1 / 8)) (fin 1)), SetupRuns S T 3 (.setupN (.bwHighPass (fin (1 / 4))))] x y ↔
      Chained [SetupRuns S T 3 (.setupN (.bwHighPass (fin (1 / 4)))), RBJRuns (.allPass (fin (1 / 8)) (fin 1))] x y := by
  obtain ⟨H, hH⟩ := C100_device_rbj (.allPass (1 / 8) 1) ⟨by norm_num, by norm_num, one_pos⟩
  obtain ⟨G, hG⟩ := C100_device (S := S) (T := T) (call := .setupN (.bwHighPass (fin (1 / 4)))) (n := 3) (o := 3)
    (d := .bwHighPass (fin (1 / 4))) ⟨rfl, rfl, by norm_num, le_rfl, by norm_num⟩ ⟨by norm_num, by norm_num⟩
  exact C100_order (l := [(_, H), (_, G)]) (l' := [(_, G), (_, H)])
    (fun p hp => by rcases List.mem_pair.1 hp with rfl | rfl <;> assumption) (List.Perm.swap ..) x y

/-- any number of first order low passes at 1/4: never louder than the input -/
example (m : ℕ) : ∃ P ≤ 1, PeakGain (Chained (List.replicate m (SetupRuns S T 1 (.setupN (.bwLowPass (fin (1 / 4))))))) P := by
  have a : Asks (.setupN (.bwLowPass (fin (1 / 4)))) 1 1 (.bwLowPass (fin (1 / 4))) := ⟨rfl, rfl, le_rfl, le_rfl, by norm_num⟩
  have h := C98_first_order (S := S) (T := T) (fc := 1 / 4) a (by norm_num) (by norm_num)
  rw [show Real.pi * (1 / 4) = Real.pi / 4 by ring, Real.tan_pi_div_four] at h
  norm_num at h
  simpa using C100_peak (ps := List.replicate m (SetupRuns S T 1 (.setupN (.bwLowPass (fin (1 / 4)))), 1)) fun p hp => by
    obtain rfl := List.eq_of_mem_replicate hp
    refine ⟨C100_device a ⟨by norm_num, by norm_num⟩, ?_⟩
    norm_num
    exact h

/-- a cascade with given coefficients, twice -/
example : ∃ f : Custom.SOS DirectFormII XR, ∀ x, ∃! y,
    Chained [Produces (Custom.SOS.filter (T := XR)) (Custom.SOS.reset f).2,
      Produces (Custom.SOS.filter (T := XR)) (Custom.SOS.reset f).2] x y := by
  obtain ⟨f, h1, h2, -⟩ := exSos
  have h := Device.sos h1 h2 (by simpa using exCoeffs_stable)
  exact ⟨f, C100_total (l := [(_, _), (_, _)]) fun p hp => by rcases List.mem_pair.1 hp with rfl | rfl <;> exact h⟩

end

end Iir
