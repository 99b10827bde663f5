import Verif.Lemmas.Inherited
import Verif.Props.History
import Verif.Props.Copies
import Verif.Props.BaseSetup
import Verif.Props.Sections
import Verif.Props.Accepted

/-! # C73: `setLayout` with the client's own poles and zeros; C75: `CascadeStages::setup` in exact arithmetic -/

set_option linter.unusedSectionVars false

noncomputable section
namespace Iir
open FArith Cx Exec XR Spec Biquad Cascade

/-! ## Any arithmetic -/

section anyArith
variable {R : Type} [FArith R] {S : Type → Type} [StateType S R] {T : Type} [Sample T R]

theorem PoleFilter.setLayout_apply (l : Layout R) (f : PoleFilter S R) :
    PoleFilter.setLayout l f = ((Cascade.setLayout l f.base.cascade).1,
      { f with base := { f.base with cascade := (Cascade.setLayout l f.base.cascade).2 } }) := rfl

theorem Cascade.setLayout_numStages (l : Layout R) (c : Cascade R) (k : ℕ) :
    Cascade.setLayout l { c with numStages := k } = Cascade.setLayout l c := rfl

theorem Cascade.setLayout_tooMany {l : Layout R} {c : Cascade R} (h : c.maxStages < (l.numPoles + 1) / 2) :
    Cascade.setLayout l c = (.throw .tooManyStages, { c with numStages := (l.numPoles + 1) / 2 }) := by
  unfold Cascade.setLayout
  simp only [bind_def, modify_def, get_def]
  rw [show decide ((l.numPoles + 1) / 2 > c.maxStages) = true by simpa using h]
  rfl

theorem Cascade.respLoop_ub (c : Cascade R) (x y : Cx R) {k : ℕ} (h : c.stages.length < k) :
    c.respLoop x y k = .ub .outOfBounds := by
  induction k with
  | zero => omega
  | succ k ih =>
    by_cases hk : c.stages.length < k
    · simp only [Cascade.respLoop, ih hk, Bind.bind, Res.bind]
    · have e : k = c.stages.length := by omega
      subst e
      have h1 : c.stageAt c.stages.length = .ub .outOfBounds := by
        simp [Cascade.stageAt]
      have h2 : ∀ j ≤ c.stages.length, ∃ v, c.respLoop x y j = .ok v := by
        intro j
        induction j with
        | zero => exact fun _ => ⟨_, rfl⟩
        | succ j ihj =>
          intro hj
          obtain ⟨v, hv⟩ := ihj (by omega)
          have : c.stageAt j = .ok c.stages[j] := by
            simp [Cascade.stageAt, List.getElem?_eq_getElem (show j < c.stages.length by omega)]
          simp only [Cascade.respLoop, hv, this, Bind.bind, Res.bind, pure]
          exact ⟨_, rfl⟩
      obtain ⟨v, hv⟩ := h2 _ le_rfl
      simp only [Cascade.respLoop, hv, h1, Bind.bind, Res.bind]

/-- **C73** (any arithmetic).  A layout with more pairs than the object has sections: `setLayout` throws.  The
sections, the delay lines and the reported poles stay, so `filter ()` goes on as before; but `getNumStages ()` is
already the number of pairs of the layout, and with it `operator[]` lets indices through that are outside the array. -/
theorem C73_too_many {c : Cls} {n : ℕ} (hn1 : 1 ≤ n) (hn : n < 2 ^ 30) {f : PoleFilter S R} (h : Reach S T c n f)
    {l : Layout R} (hl : (c.maxDigital n + 1) / 2 < (l.numPoles + 1) / 2) :
    ∃ f', PoleFilter.setLayout l f = (.throw .tooManyStages, f') ∧
      f'.states = f.states ∧ f'.getPoleZeros = f.getPoleZeros ∧
      (∀ x : T, (PoleFilter.filter x f').1 = (PoleFilter.filter x f).1 ∧
        (PoleFilter.filter x f').2.states = (PoleFilter.filter x f).2.states) ∧
      f'.getNumStages = (l.numPoles + 1) / 2 ∧
      (∀ i : ℕ, (c.maxDigital n + 1) / 2 ≤ i → i < (l.numPoles + 1) / 2 → f'.getStage i = .ub .outOfBounds) := by
  have hok := (h.ok hn1 hn).cascade
  have hM : f.base.cascade.maxStages = (c.maxDigital n + 1) / 2 := hok.maxStages
  refine ⟨⟨{ f.base with cascade := { f.base.cascade with numStages := (l.numPoles + 1) / 2 } }, f.states⟩,
    by rw [PoleFilter.setLayout_apply, Cascade.setLayout_tooMany (by rw [hM]; exact hl)], rfl, rfl,
    fun x => ?_, rfl, fun i h1 h2 => ?_⟩
  · obtain ⟨e1, -, e2⟩ := PoleFilter.filter_config (T := T)
      (f := ⟨{ f.base with cascade := { f.base.cascade with numStages := (l.numPoles + 1) / 2 } }, f.states⟩) (g := f)
      rfl rfl x
    exact ⟨e1, e2⟩
  · have hlen : f.base.cascade.stages.length ≤ i := by rw [hok.length]; exact h1
    have hi : ¬((i : ℤ) < 0) := by omega
    have hi2 : ¬((((l.numPoles + 1) / 2 : ℕ) : ℤ) ≤ (i : ℤ)) := by omega
    simp only [PoleFilter.getStage, Cascade.getStage, Cascade.stageAt, Bool.or_eq_true, decide_eq_true_eq, ge_iff_le]
    rw [if_neg (by rintro (h | h) <;> [exact hi h; exact hi2 h])]
    simp [List.getElem?_eq_none hlen]

/-- **C73** (any arithmetic).  After a rejected layout, `response` at any frequency it accepts reads outside the array
of sections. -/
theorem C73_too_many_response {c : Cls} {n : ℕ} (hn1 : 1 ≤ n) (hn : n < 2 ^ 30) {f : PoleFilter S R}
    (h : Reach S T c n f) {l : Layout R} (hl : (c.maxDigital n + 1) / 2 < (l.numPoles + 1) / 2) {nf : R}
    (h0 : flt nf 0 = false) (h1 : flt 0.5 nf = false) :
    ∃ u, (PoleFilter.setLayout l f).2.response nf = .ub u := by
  have hok := (h.ok hn1 hn).cascade
  have hM : f.base.cascade.maxStages = (c.maxDigital n + 1) / 2 := hok.maxStages
  rw [PoleFilter.setLayout_apply, Cascade.setLayout_tooMany (by rw [hM]; exact hl)]
  simp only [PoleFilter.response, Cascade.response, h0, h1, Bool.false_eq_true, if_false]
  have hp : ∀ a b : R, (∃ v, polarC a b = .ok v) ∨ ∃ u, polarC a b = .ub u := by
    intro a b
    unfold polarC
    split
    · exact .inl ⟨_, rfl⟩
    · exact .inr ⟨_, rfl⟩
  rcases hp 1 (-(2 * pi * nf)) with ⟨v, hv⟩ | ⟨u, hu⟩
  · rcases hp 1 (-2 * (2 * pi * nf)) with ⟨v', hv'⟩ | ⟨u, hu⟩
    · refine ⟨.outOfBounds, ?_⟩
      rw [hv, hv']
      simp only [Bind.bind, Res.bind]
      rw [Cascade.respLoop_ub _ _ _ (by rw [hok.length]; exact hl)]
    · exact ⟨u, by rw [hv, hu]; rfl⟩
  · exact ⟨u, by rw [hu]; rfl⟩

theorem PFB.baseSetup_numStages (o : ℤ) (d : Design R) (p : PFB R) (k : ℕ) (h : (d.baseSetup o p).1 = .ok ()) :
    d.baseSetup o { p with cascade := { p.cascade with numStages := k } } = d.baseSetup o p := by
  rw [PFB.baseSetup_proto] at h
  rw [PFB.baseSetup_proto, PFB.baseSetup_proto]
  revert h
  rcases e : d.proto o p.analog with ⟨_ | _ | _, a⟩ <;> intro h
  · simp only at h ⊢
    rw [PFB.rest_apply] at h
    rw [PFB.rest_apply, PFB.rest_apply]
    simp only at h ⊢
    revert h
    rcases d.trans a.lay p.digital with ⟨_ | _ | _, l⟩ <;> intro h
    · rfl
    · exact absurd h (by simp)
    · exact absurd h (by simp)
  · exact absurd h (by simp)
  · exact absurd h (by simp)

/-- **C73** (any arithmetic).  The next `setup` that succeeds repairs the object: it does exactly what it would have
done without the rejected layout. -/
theorem C73_recovers {c : Cls} {n : ℕ} (hn1 : 1 ≤ n) (hn : n < 2 ^ 30) {f : PoleFilter S R} (h : Reach S T c n f)
    {l : Layout R} (hl : (c.maxDigital n + 1) / 2 < (l.numPoles + 1) / 2) {call : Call R}
    (hs : (PoleFilter.setup n call f).1 = .ok ()) :
    PoleFilter.setup n call (PoleFilter.setLayout l f).2 = PoleFilter.setup n call f := by
  have hok := (h.ok hn1 hn).cascade
  have hM : f.base.cascade.maxStages = (c.maxDigital n + 1) / 2 := hok.maxStages
  rw [PoleFilter.setLayout_apply, Cascade.setLayout_tooMany (by rw [hM]; exact hl)]
  rw [PoleFilter.setup_apply] at hs
  rw [PoleFilter.setup_apply, PoleFilter.setup_apply]
  simp only at hs ⊢
  rw [Call.run_eq] at hs
  rw [Call.run_eq, Call.run_eq]
  split_ifs at hs ⊢ with h1
  rw [PFB.baseSetup_numStages _ _ _ _ hs]

end anyArith

/-! ## Exact arithmetic -/

variable {S : Type → Type} [StateType S XR] [DelayLine XR S] {T : Type} [Sample T XR] {n : ℕ} {c : Cls}

theorem Roots.prod_ne_zero {ps : List ℂ} {ζ : ℂ} (hζ : ζ ≠ 0) (h : ζ ∉ ps) : (ps.map fun p => 1 - p / ζ).prod ≠ 0 := by
  rw [Ne, List.prod_eq_zero_iff, List.mem_map]
  rintro ⟨p, hp, e⟩
  have : p / ζ = 1 := (sub_eq_zero.1 e).symm
  rw [div_eq_one_iff_eq hζ] at this
  exact h (this ▸ hp)

theorem secs_a0 (D : List Quad) (k : ℕ) : ∀ b ∈ D.map Quad.sec ++ List.replicate k identC, b.a0 = 1 := by
  intro b hb
  rw [List.mem_append, List.mem_map] at hb
  rcases hb with ⟨d, -, rfl⟩ | hb
  · rfl
  · rw [(List.mem_replicate.1 hb).2]; rfl

theorem modify_a0 {bs : List (Biquad ℝ)} {k : ℝ} (h : ∀ b ∈ bs, b.a0 = 1) : ∀ b ∈ bs.modify 0 (scaledB k), b.a0 = 1 := by
  intro b hb
  cases bs with
  | nil => simp at hb
  | cons b0 bs =>
    rw [List.modify_zero_cons, List.mem_cons] at hb
    rcases hb with rfl | hb
    · exact h b0 List.mem_cons_self
    · exact h b (List.mem_cons_of_mem _ hb)

/-- The cascade `setLayout` leaves. -/
theorem Spec.own_layout (hn1 : 1 ≤ n) (hn : n < 2 ^ 30) {f : PoleFilter S XR} (h : Reach S T c n f) {r : Roots}
    (hr : r.poles ≠ []) (hx : ∀ x ∈ r.pairs, x.Allowed) {N : ℕ} (hN : r.poles.length ≤ N)
    (hfit : (r.poles.length + 1) / 2 ≤ (c.maxDigital n + 1) / 2) {w g : ℝ} (hw0 : 0 ≤ w) (hw1 : w ≤ Real.pi)
    (hp : circle (w / (2 * Real.pi)) ∉ r.poles) (hz : circle (w / (2 * Real.pi)) ∉ r.zeros) :
    ∃ l, r.build w g (Layout.storage N) = (.ok (), l) ∧
      PoleFilter.setLayout l f = (.ok (),
        ⟨{ f.base with cascade := setSections r.quads ((c.maxDigital n + 1) / 2) g (w / (2 * Real.pi)) }, f.states⟩) := by
  obtain ⟨l, el, hl⟩ := (Roots.done_build hx (L := (N + 1) / 2) (by omega) w g).run (storage_stored N)
  refine ⟨l, el, ?_⟩
  have hc0 : circle (w / (2 * Real.pi)) ≠ 0 := Complex.exp_ne_zero _
  have hlen := r.quads_length
  have hpl := List.length_pos_iff.2 hr
  rw [PoleFilter.setLayout_apply, Spec.setLayout_core r.quads_ok (by intro e; rw [e, List.length_nil] at hlen; omega) hl
    (by omega) hw0 hw1 (by rw [r.den]; exact Roots.prod_ne_zero hc0 hp)
    (by rw [r.num]; exact Roots.prod_ne_zero hc0 hz) (h.ok hn1 hn).cascade (by rw [hlen]; exact hfit)]
  rfl

/-- **C73** (exact arithmetic).  A client builds a layout from any poles and zeros of its own, asks for gain `g` at
angular frequency `w`, and installs it in any filter object with `setLayout`.  Then all calls succeed, the delay lines
stay, the filter is stable if and only if the poles are inside the unit circle, and `response` is the rational function
with these roots, scaled to magnitude `g` at `w`. -/
theorem C73_own_layout (hn1 : 1 ≤ n) (hn : n < 2 ^ 30) {f : PoleFilter S XR} (h : Reach S T c n f) {r : Roots}
    (hr : r.poles ≠ []) (hx : ∀ x ∈ r.pairs, x.Allowed) {N : ℕ} (hN : r.poles.length ≤ N)
    (hfit : (r.poles.length + 1) / 2 ≤ (c.maxDigital n + 1) / 2) {w g : ℝ} (hw0 : 0 ≤ w) (hw1 : w ≤ Real.pi)
    (hp : circle (w / (2 * Real.pi)) ∉ r.poles) (hz : circle (w / (2 * Real.pi)) ∉ r.zeros) :
    ∃ l f', r.build w g (Layout.storage N) = (.ok (), l) ∧ PoleFilter.setLayout l f = (.ok (), f') ∧
      f'.states = f.states ∧ f'.getNumStages = (r.poles.length + 1) / 2 ∧
      (StableFilter f' ↔ ∀ p ∈ r.poles, ‖p‖ < 1) ∧
      ∀ fr : ℝ, 0 ≤ fr → fr ≤ 1 / 2 → circle fr ∉ r.poles →
        Response f' fr ((g / ‖r.transfer (circle (w / (2 * Real.pi)))‖ : ℝ) * r.transfer (circle fr)) := by
  obtain ⟨l, el, es⟩ := Spec.own_layout hn1 hn h hr hx hN hfit (g := g) hw0 hw1 hp hz
  have hlen := r.quads_length
  have hpl := List.length_pos_iff.2 hr
  have hne : r.quads ≠ [] := by intro e; rw [e, List.length_nil] at hlen; omega
  refine ⟨l, _, el, es, rfl, hlen, ?_, fun fr h0 h1 hfr => ?_⟩
  · rw [← r.inside_iff]
    exact modify_stable r.quads_ok _ _
  · have hfr' : denL r.quads (circle fr)⁻¹ ≠ 0 := by
      rw [r.den]; exact Roots.prod_ne_zero (Complex.exp_ne_zero _) hfr
    show Cascade.response (setSections _ _ _ _) (fin fr) = .ok (ofC _)
    unfold setSections
    rw [Cascade.response_toX (bs := (r.quads.map Quad.sec ++ List.replicate ((c.maxDigital n + 1) / 2 - r.quads.length)
        identC).modify 0 (scaledB (g / ‖numL r.quads (circle (w / (2 * Real.pi)))⁻¹ /
          denL r.quads (circle (w / (2 * Real.pi)))⁻¹‖))) ?_ rfl ?_ h0 h1]
    · simp only
      obtain ⟨e1, e2⟩ := modify_take_prod hne r.quads_ok ((c.maxDigital n + 1) / 2)
        (g / ‖numL r.quads (circle (w / (2 * Real.pi)))⁻¹ / denL r.quads (circle (w / (2 * Real.pi)))⁻¹‖)
        (circle fr)⁻¹
      rw [e1, e2, cdiv_ofC _ hfr', r.num, r.den, r.num, r.den, mul_div_assoc]
      rfl
    · exact fun b hb => by rw [modify_a0 (secs_a0 _ _) b hb]; exact one_ne_zero
    · simp only [List.length_modify, List.length_append, List.length_map, List.length_replicate]; omega

/-- **C73** (exact arithmetic), in the time domain: with poles inside the unit circle a sampled sinusoid comes out,
after transients, scaled and shifted by that response, whatever finite values the delay lines hold. -/
theorem C73_settles (hn1 : 1 ≤ n) (hn : n < 2 ^ 30) {f : PoleFilter S XR} (h : Reach S T c n f) {r : Roots}
    (hr : r.poles ≠ []) (hx : ∀ x ∈ r.pairs, x.Allowed) {N : ℕ} (hN : r.poles.length ≤ N)
    (hfit : (r.poles.length + 1) / 2 ≤ (c.maxDigital n + 1) / 2) {w g : ℝ} (hw0 : 0 ≤ w) (hw1 : w ≤ Real.pi)
    (hin : ∀ p ∈ r.poles, ‖p‖ < 1) (hz : circle (w / (2 * Real.pi)) ∉ r.zeros) (hfin : FiniteStates f.states)
    (fr A φ : ℝ) :
    ∃ l f' y, r.build w g (Layout.storage N) = (.ok (), l) ∧ PoleFilter.setLayout l f = (.ok (), f') ∧
      Produces (PoleFilter.filter (T := XR)) f' (fun n => A * Real.cos (2 * Real.pi * fr * n + φ)) y ∧
      Settles ((g / ‖r.transfer (circle (w / (2 * Real.pi)))‖ : ℝ) * r.transfer (circle fr)) fr A φ y := by
  have hp : circle (w / (2 * Real.pi)) ∉ r.poles := fun hm => by
    have := hin _ hm; rw [norm_circle] at this; exact lt_irrefl _ this
  obtain ⟨l, el, es⟩ := Spec.own_layout hn1 hn h hr hx hN hfit (g := g) hw0 hw1 hp hz
  have hlen := r.quads_length
  have hpl := List.length_pos_iff.2 hr
  have hne : r.quads ≠ [] := by intro e; rw [e, List.length_nil] at hlen; omega
  obtain ⟨k, hk⟩ : ∃ k, k = g / ‖numL r.quads (circle (w / (2 * Real.pi)))⁻¹ /
    denL r.quads (circle (w / (2 * Real.pi)))⁻¹‖ := ⟨_, rfl⟩
  obtain ⟨bs, hbs⟩ : ∃ bs, bs = (r.quads.map Quad.sec ++
    List.replicate ((c.maxDigital n + 1) / 2 - r.quads.length) identC).modify 0 (scaledB k) := ⟨_, rfl⟩
  have hstages : (setSections r.quads ((c.maxDigital n + 1) / 2) g (w / (2 * Real.pi))).stages = bs.map toX := by
    rw [hbs, hk]; rfl
  have hst := (modify_stable r.quads_ok ((c.maxDigital n + 1) / 2) k).2 ((r.inside_iff).2 hin)
  rw [← hbs] at hst
  obtain ⟨cs, hcs⟩ := Sims.of_finite bs f.states (by
    rw [h.states_length, hbs]
    simp only [List.length_modify, List.length_append, List.length_map, List.length_replicate]
    unfold PoleFilter.numStages; omega) hfin
  refine ⟨l, _, _, el, es, PoleFilter.produces (f := ⟨{ f.base with
    cascade := setSections r.quads ((c.maxDigital n + 1) / 2) g (w / (2 * Real.pi)) }, f.states⟩) hstages hcs _, settles_of ?_⟩
  have hsec : ∀ b ∈ bs, SecStable b := by
    intro b hb
    have h0 : b.a0 = 1 := by
      rw [hbs] at hb
      exact modify_a0 (secs_a0 _ _) b hb
    exact fun z hz => (stableSection_iff h0).1 (hst _ (List.mem_map_of_mem hb)) z hz
  have := chain_steady hsec cs hcs.cs_length (norm_circle fr) (K := A * Complex.exp (φ * Complex.I))
    (x := fun n => A * Real.cos (2 * Real.pi * fr * n + φ)) (by
      refine tendsto_const_nhds.congr fun n => ?_
      rw [cos_eq_re, sub_self])
  have e : (bs.map (secH · (circle fr))).prod =
      (g / ‖r.transfer (circle (w / (2 * Real.pi)))‖ : ℝ) * r.transfer (circle fr) := by
    rw [hbs]
    simp only [secH_eq]
    rw [modify_prod hne r.quads_ok, hk, r.num, r.den, r.num, r.den, mul_div_assoc]
    rfl
  rwa [e] at this


/-- **C73** (any arithmetic): `getPoleZeros` goes on reporting the design of the last `setup`. -/
theorem C73_poleZeros_stay {R : Type} [FArith R] {S : Type → Type} [StateType S R] (l : Layout R) (f : PoleFilter S R) :
    (PoleFilter.setLayout l f).2.getPoleZeros = f.getPoleZeros ∧ (PoleFilter.setLayout l f).2.states = f.states :=
  ⟨rfl, rfl⟩

/-! ## C75 -/

/-- **C75** (exact arithmetic).  With one row per section, finite entries and fourth entries different from 0,
`CascadeStages::setup` installs the rows as sections; `filter` runs the chain of all of them, and a sinusoid settles to
the product of *all* their transfer functions; `response` is the product of the first `getNumStages` of them only. -/
theorem C75_installs (hn1 : 1 ≤ n) (hn : n < 2 ^ 30) {f : PoleFilter S XR} (h : Reach S T c n f)
    {rows : List (CascadeStages.SosRow ℝ)} (hl : rows.length = PoleFilter.numStages c n) (h3 : ∀ r ∈ rows, r.c3 ≠ 0)
    (hst : ∀ r ∈ rows, (rowCoeffs r).Stable) :
    ∃ f', PoleFilter.sosSetup (rows.map finRow) f = (.ok (), f') ∧
      HasSections f'.base.cascade.stages (rows.map rowCoeffs) ∧
      (∀ fr : ℝ, 0 ≤ fr → fr ≤ 1 / 2 →
        Response f' fr ((rows.take f.getNumStages).map fun r => (rowCoeffs r).transfer (circle fr)).prod) ∧
      (FiniteStates f.states → ∀ fr A φ : ℝ, ∃ y,
        Produces (PoleFilter.filter (T := XR)) f' (fun n => A * Real.cos (2 * Real.pi * fr * n + φ)) y ∧
          Settles (rows.map fun r => (rowCoeffs r).transfer (circle fr)).prod fr A φ y) := by
  have hlen := (h.ok hn1 hn).cascade.length
  obtain ⟨bs', e1, hs⟩ := sos_setup_ok rows h3 f.base.cascade.stages (by rw [hl, hlen])
  obtain ⟨hb, hne⟩ := hasSections_iff.1 hs
  have hst' : ∀ k ∈ rows.map rowCoeffs, k.Stable := by
    intro k hk
    obtain ⟨r, hr, rfl⟩ := List.mem_map.1 hk
    exact hst r hr
  have hstb := stable_norms hne hst'
  have etr : ∀ (rs : List (CascadeStages.SosRow ℝ)) (ζ : ℂ), (∀ r ∈ rs, r.c3 ≠ 0) →
      ((rs.map rowCoeffs).map Coeffs.norm).map (secH · ζ) = rs.map fun r => (rowCoeffs r).transfer ζ := by
    intro rs ζ hrs
    rw [List.map_map, List.map_map]
    exact List.map_congr_left fun r hr => Coeffs.secH_norm (k := rowCoeffs r) (hrs r hr) ζ
  refine ⟨⟨{ f.base with cascade := { f.base.cascade with stages := bs' } }, f.states⟩, ?_, hs, fun fr h0 h1 => ?_,
    fun hfin fr A φ => ?_⟩
  · show ((CascadeStages.setup (rows.map finRow) f.base.cascade.stages).1, _) = _
    rw [e1]
  · have hnum : f.base.cascade.numStages ≤ ((rows.map rowCoeffs).map Coeffs.norm).length := by
      rw [List.length_map, List.length_map, hl]
      exact (h.ok hn1 hn).cascade.num
    show Cascade.response { f.base.cascade with stages := bs' } (fin fr) = .ok (ofC _)
    rw [Cascade.response_toX (c := { f.base.cascade with stages := bs' }) (bs := (rows.map rowCoeffs).map Coeffs.norm) ?_ hb hnum h0 h1]
    · have hden : ∀ b ∈ ((rows.map rowCoeffs).map Coeffs.norm).take f.base.cascade.numStages,
          b.denQ (circle fr)⁻¹ ≠ 0 :=
        fun b hb => den_ne_zero_of_stable (hstb b (List.mem_of_mem_take hb)) (norm_circle fr)
      rw [Cx.cdiv_ofC _ (list_prod_ne_zero hden), ← list_prod_div]
      have := etr (rows.take f.base.cascade.numStages) (circle fr) fun r hr => h3 r (List.mem_of_mem_take hr)
      rw [List.map_take, List.map_take] at this
      show Res.ok (ofC ((List.map (secH · (circle fr)) _).prod)) = _
      rw [this]
      rfl
    · intro b hb
      obtain ⟨k, hk, rfl⟩ := List.mem_map.1 hb
      exact hne k hk
  · obtain ⟨cs, hcs⟩ := Sims.of_finite ((rows.map rowCoeffs).map Coeffs.norm) f.states
      (by rw [h.wired hn1 hn, List.length_map, List.length_map, hl, hlen] ) hfin
    refine ⟨_, PoleFilter.produces (f := ⟨{ f.base with cascade := { f.base.cascade with stages := bs' } }, f.states⟩)
      hb hcs _, settles_of ?_⟩
    have := chain_steady hstb cs hcs.cs_length (norm_circle fr) (K := A * Complex.exp (φ * Complex.I))
      (x := fun n => A * Real.cos (2 * Real.pi * fr * n + φ)) (by
        refine tendsto_const_nhds.congr fun n => ?_
        rw [cos_eq_re, sub_self])
    rwa [etr rows _ h3] at this

/-! ## C74 in exact arithmetic -/

/-- **C74** (exact arithmetic).  With any valid parameters and an order that needs more pairs than the storage has, the
inherited `setup` of the base class writes outside the storage of the prototype, whatever was called before. -/
theorem C74_exact (hn1 : 1 ≤ n) (hn : n < 2 ^ 30) {d : Design XR} {f : PoleFilter S XR} (h : Reach S T d.cls n f)
    {o : ℕ} (hbig : (n + 1) / 2 < (o + 1) / 2) (ho : o < 2 ^ 30) (hv : Valid o d) :
    (PoleFilter.baseSetup o d f).1 = .ub .outOfBounds := by
  obtain ⟨f', e, -⟩ := C29_stable (S := S) (T := T) (n := o) (o := o) (call := .setupNReq o d) (d := d)
    ⟨rfl, rfl, by omega, le_rfl, ho⟩ hv _ .new
  exact C74_out_of_bounds hn1 hn h hbig le_rfl (by rw [show (PoleFilter.init S d.cls o : PoleFilter S XR) =
    PoleFilter.init S (Call.setupNReq (o : ℤ) d).design.cls o from rfl, e])

/-- **C74** (exact arithmetic), all orders: with valid parameters the inherited `setup` succeeds for the orders up to
`FilterOrder` and, unless the class is a band filter, for the next even order; otherwise it writes outside the storage. -/
theorem C74_orders (hn1 : 1 ≤ n) (hn : n < 2 ^ 30) {d : Design XR} {f : PoleFilter S XR} (h : Reach S T d.cls n f)
    {o : ℕ} (ho1 : 1 ≤ o) (ho : o < 2 ^ 30) (hv : Valid o d) :
    (PoleFilter.baseSetup o d f).1 =
      if o ≤ n ∨ (o = n + 1 ∧ o % 2 = 0 ∧ d.cls.mult = 1) then .ok () else .ub .outOfBounds := by
  have accepted : (PoleFilter.setup o (.setupNReq o d) (PoleFilter.init S d.cls o : PoleFilter S XR)).1 = .ok () := by
    obtain ⟨f', e, -⟩ := C29_stable (S := S) (T := T) (n := o) (o := o) (call := .setupNReq o d) (d := d)
      ⟨rfl, rfl, by omega, le_rfl, ho⟩ hv _ .new
    rw [show (PoleFilter.init S d.cls o : PoleFilter S XR) =
      PoleFilter.init S (Call.setupNReq (o : ℤ) d).design.cls o from rfl, e]
  by_cases h1 : o ≤ n
  · rw [if_pos (.inl h1), C74_same_as_setupN (n := n) (by omega)]
    obtain ⟨f', e, -⟩ := C29_stable (S := S) (T := T) (n := n) (o := o) (call := .setupNReq o d) (d := d)
      ⟨rfl, rfl, by omega, h1, hn⟩ hv _ h
    rw [e]
  by_cases h2 : (n + 1) / 2 < (o + 1) / 2
  · rw [if_neg (by omega)]
    exact C74_exact hn1 hn h h2 ho hv
  obtain rfl : o = n + 1 := by omega
  have hm : d.cls.mult = 1 ∨ d.cls.mult = 2 := by cases d.cls <;> simp [Cls.mult]
  rcases hm with hm | hm
  · rw [if_pos (.inr ⟨rfl, by omega, hm⟩), (C74_next_order hn (by omega) hm h).1]
    exact accepted
  · rw [if_neg (by omega)]
    exact C74_next_order_band hn (by omega) hm h le_rfl accepted

/-! ## Cases -/

/-- `Butterworth::LowPass<3>` and `LowPassBase::setup (4, 0.1)`: this works -/
example : (PoleFilter.baseSetup (4 : ℕ) (.bwLowPass (fin (1 / 10)))
    (PoleFilter.init S .bwLowPass 3 : PoleFilter S XR)).1 = .ok () :=
  C74_orders (T := XR) (n := 3) (o := 4) (by norm_num) (by norm_num) (d := .bwLowPass (fin (1 / 10))) .new
    (by norm_num) (by norm_num) ⟨by norm_num, by norm_num⟩

/-- `Butterworth::BandPass<1>` and `BandPassBase::setup (2, 0.1, 0.05)` -/
example : (PoleFilter.baseSetup (2 : ℕ) (.bwBandPass (fin (1 / 10)) (fin (1 / 20)))
    (PoleFilter.init S .bwBandPass 1 : PoleFilter S XR)).1 = .ub .outOfBounds :=
  C74_orders (T := XR) (n := 1) (o := 2) (by norm_num) (by norm_num) (d := .bwBandPass (fin (1 / 10)) (fin (1 / 20))) .new
    (by norm_num) (by norm_num) ⟨by norm_num, by norm_num, by rw [bandLo_eq (by norm_num), bandHi_eq (by norm_num)]; norm_num,
      by norm_num⟩

/-- `Butterworth::LowPass<2>` and `LowPassBase::setup (3, 0.1)` -/
example : (PoleFilter.baseSetup 3 (.bwLowPass (fin (1 / 10)))
    (PoleFilter.init S .bwLowPass 2 : PoleFilter S XR)).1 = .ub .outOfBounds :=
  C74_exact (T := XR) (n := 2) (o := 3) (by norm_num) (by norm_num) (d := .bwLowPass (fin (1 / 10))) .new (by norm_num)
    (by norm_num) ⟨by norm_num, by norm_num⟩

/-- A pole at `i/2` with its conjugate, zeros at -1, and a pole at 1/3 with a zero at -1; gain 1 at frequency 0. -/
def exRoots : Roots := ⟨[.conj (Complex.I / 2) (-1)], some (1 / 3, -1)⟩

theorem exRoots_inside : ∀ p ∈ exRoots.poles, ‖p‖ < 1 := by
  simp only [Roots.poles, exRoots, List.flatMap_cons, List.flatMap_nil, Factor.poles, List.append_nil, List.cons_append,
    List.nil_append, List.mem_cons, List.not_mem_nil, or_false, forall_eq_or_imp, forall_eq]
  refine ⟨?_, ?_, ?_⟩
  · rw [norm_div, Complex.norm_I]; norm_num
  · rw [Complex.norm_conj, norm_div, Complex.norm_I]; norm_num
  · rw [Complex.norm_real]; norm_num

theorem exRoots_one : circle (0 / (2 * Real.pi)) ∉ exRoots.zeros := by
  have h1 : circle (0 / (2 * Real.pi)) = 1 := by simp [circle]
  rw [h1]
  simp only [Roots.zeros, exRoots, List.flatMap_cons, List.flatMap_nil, Factor.zeros, List.append_nil, List.cons_append,
    List.nil_append, List.mem_cons, List.not_mem_nil, or_false]
  norm_num [Complex.ext_iff]

/-- `exRoots` in a `ChebyshevI::HighPass<4>` -/
example : ∃ l f', exRoots.build 0 1 (Layout.storage 4) = (.ok (), l) ∧
    PoleFilter.setLayout l (PoleFilter.init S .c1HighPass 4) = (.ok (), f') ∧ StableFilter f' ∧
      f'.getNumStages = 2 ∧ Response f' 0 1 := by
  have hp : circle (0 / (2 * Real.pi)) ∉ exRoots.poles := fun hm => by
    have := exRoots_inside _ hm; rw [norm_circle] at this; exact lt_irrefl _ this
  obtain ⟨l, f', h1, h2, -, h4, h5, h6⟩ := C73_own_layout (S := S) (T := XR) (n := 4) (c := .c1HighPass) (by norm_num)
    (by norm_num) .new (r := exRoots) (by simp [exRoots, Roots.poles, Factor.poles]) (by simp [exRoots, Factor.Allowed])
    (N := 4) (by simp [exRoots, Roots.poles, Factor.poles]) (by simp [exRoots, Roots.poles, Factor.poles, Cls.maxDigital])
    (w := 0) (g := 1) le_rfl Real.pi_pos.le hp exRoots_one
  refine ⟨l, f', h1, h2, h5.2 exRoots_inside, h4, ?_⟩
  have e : (0 : ℝ) / (2 * Real.pi) = 0 := by simp
  rw [e] at hp h6
  have := h6 0 le_rfl (by norm_num) hp
  have e1 : exRoots.transfer (circle 0) = 144 / 15 := by
    have hc : circle 0 = 1 := by simp [circle]
    have hd : (1 - Complex.I / 2) * (1 + Complex.I / 2) = 5 / 4 := by ring_nf; rw [Complex.I_sq]; norm_num
    have hz : (exRoots.zeros.map fun z => 1 - z / (1 : ℂ)).prod = 8 := by
      simp [exRoots, Roots.zeros, Factor.zeros]; norm_num
    have hp' : (exRoots.poles.map fun p => 1 - p / (1 : ℂ)).prod = 5 / 6 := by
      have h2 : (starRingEnd ℂ) 2 = 2 := Complex.conj_ofReal 2
      simp [exRoots, Roots.poles, Factor.poles, h2]
      linear_combination (2 / 3) * hd
    rw [hc, Roots.transfer, hz, hp']
    norm_num
  rw [e1] at this
  convert this using 1
  norm_num

/-- A layout of 4 poles in a `Butterworth::LowPass<2>`. -/
example (f : PoleFilter S XR) (h : Reach S XR .bwLowPass 2 f) (l : Layout XR) (hl : l.numPoles = 4) :
    (PoleFilter.setLayout l f).1 = .throw .tooManyStages ∧
      ∃ u, (PoleFilter.setLayout l f).2.response (fin (1 / 4)) = .ub u := by
  obtain ⟨f', e, -⟩ := C73_too_many (T := XR) (c := .bwLowPass) (n := 2) (by norm_num) (by norm_num) h (l := l)
    (by rw [hl]; decide)
  exact ⟨by rw [e], C73_too_many_response (T := XR) (c := .bwLowPass) (n := 2) (by norm_num) (by norm_num) h (l := l)
    (by rw [hl]; decide) (by simp) (by simp; norm_num)⟩

/-- **C75**, what does not hold: a new `Butterworth::LowPass<1>` with the row `{2, 0, 0, 1, 0, 0}` multiplies every
sinusoid by 2, but `response` is 1. -/
theorem C75_response_false : ∃ f' : PoleFilter S XR,
    PoleFilter.sosSetup [⟨fin 2, fin 0, fin 0, fin 1, fin 0, fin 0⟩] (PoleFilter.init S .bwLowPass 1) = (.ok (), f') ∧
      (∀ fr : ℝ, 0 ≤ fr → fr ≤ 1 / 2 → Response f' fr 1) ∧
      ∀ fr A φ : ℝ, ∃ y,
        Produces (PoleFilter.filter (T := XR)) f' (fun n => A * Real.cos (2 * Real.pi * fr * n + φ)) y ∧
          Settles 2 fr A φ y := by
  obtain ⟨f', h1, -, h2, h3⟩ := C75_installs (S := S) (T := XR) (n := 1) (c := .bwLowPass) le_rfl (by norm_num) .new
    (rows := [⟨2, 0, 0, 1, 0, 0⟩]) rfl (by simp) (by
      intro r hr
      rw [List.mem_singleton] at hr
      subst hr
      intro z hz
      simp [rowCoeffs] at hz
      rw [hz]; simp)
  refine ⟨f', h1, fun fr a b => ?_, fun fr A φ => ?_⟩
  · exact h2 fr a b
  · obtain ⟨y, hy, hs⟩ := h3 (fun s hs => by
      obtain ⟨s0, hs0, rfl⟩ := List.mem_map.1 (show s ∈ List.map _ _ from hs)
      rw [LawfulState.reset_eq]; exact ExactState.finite_init) fr A φ
    refine ⟨y, hy, ?_⟩
    simpa [rowCoeffs, Coeffs.transfer] using hs

end Iir
end
