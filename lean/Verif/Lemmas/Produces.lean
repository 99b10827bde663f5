import Verif.Lemmas.Response
import Verif.Lemmas.Tail

/-! # Filter objects in exact arithmetic compute chains of textbook sections -/

set_option linter.unusedSectionVars false

namespace Iir
open FArith XR Spec Exec

theorem feed_snoc {σ T : Type} (flt : T → Exec σ T) (xs : List T) (x : T) (s : σ) :
    feed flt (xs ++ [x]) s =
      match feed flt xs s with
      | (.ok ys, s1) =>
        (match flt x s1 with
        | (.ok y, s2) => (.ok (ys ++ [y]), s2)
        | (.throw e, s2) => (.throw e, s2)
        | (.ub u, s2) => (.ub u, s2))
      | (.throw e, s1) => (.throw e, s1)
      | (.ub u, s1) => (.ub u, s1) := by
  induction xs generalizing s with
  | nil =>
    simp only [List.nil_append, feed, bind_def, pure_def']
    rcases flt x s with ⟨r, s1⟩
    cases r <;> simp
  | cons a xs ih =>
    simp only [List.cons_append, feed, bind_def]
    rcases flt a s with ⟨r, s1⟩
    cases r
    · simp only [ih s1]
      rcases feed flt xs s1 with ⟨r, s2⟩
      cases r
      · simp only [pure_def]
        rcases flt x s2 with ⟨r, s3⟩
        cases r <;> simp
      · rfl
      · rfl
    · rfl
    · rfl

theorem produces_of_sim {σ τ : Type} {flt : XR → Exec σ XR} {step : ℝ → τ → ℝ × τ} {Rel : σ → τ → Prop}
    (h : ∀ s t x, Rel s t → ∃ s', flt (fin x) s = (.ok (fin (step x t).1), s') ∧ Rel s' (step x t).2)
    {s : σ} {t : τ} (hst : Rel s t) (x : ℕ → ℝ) : Produces flt s x (outAt step t x) := by
  have key : ∀ N, ∃ s', feed flt ((List.range N).map fun n => fin (x n)) s =
      (.ok ((List.range N).map fun n => fin (outAt step t x n)), s') ∧ Rel s' (stateAt step t x N) := by
    intro N
    induction N with
    | zero => exact ⟨s, rfl, hst⟩
    | succ N ih =>
      obtain ⟨s1, e1, h1⟩ := ih
      obtain ⟨s2, e2, h2⟩ := h _ _ (x N) h1
      refine ⟨s2, ?_, h2⟩
      rw [List.range_succ, List.map_append, List.map_append]
      simp only [List.map_cons, List.map_nil]
      rw [feed_snoc, e1]
      simp only [e2]
      rfl
  intro N
  obtain ⟨s', e, _⟩ := key N
  rw [e]

theorem Spec.Produces.unique {σ : Type} {flt : XR → Exec σ XR} {f : σ} {x y y' : ℕ → ℝ}
    (h : Produces flt f x y) (h' : Produces flt f x y') : y = y' := by
  funext n
  have h1 := (h (n + 1)).symm.trans (h' (n + 1))
  simp only [Res.ok.injEq, List.map_inj_left, List.mem_range, fin_inj] at h1
  exact h1 n (Nat.lt_succ_self n)

variable {S : Type → Type} [StateType S XR] [ExactState S]

theorem biquad_produces {b : Biquad ℝ} {s : S XR} {c : ℝ × ℝ} (h : ExactState.Sim b s c) (x : ℕ → ℝ) :
    Produces (biquadFilter b.toX) s x (secOut b c x) :=
  produces_of_sim (Rel := ExactState.Sim b)
    (fun s c x h => by
      obtain ⟨s', e, h'⟩ := ExactState.sim_step b s c x h
      exact ⟨s', by simp [biquadFilter, Biquad.filter, e], h'⟩) h x

theorem PoleFilter.produces {f : PoleFilter S XR} {bs : List (Biquad ℝ)} {cs : List (ℝ × ℝ)}
    (hb : f.base.cascade.stages = bs.map Biquad.toX) (h : Sims bs f.states cs) (x : ℕ → ℝ) :
    Produces (PoleFilter.filter (T := XR)) f x (chainOut bs cs x) :=
  produces_of_sim
    (Rel := fun (f : PoleFilter S XR) cs => f.base.cascade.stages = bs.map Biquad.toX ∧ Sims bs f.states cs)
    (fun f c x h => by
      obtain ⟨ss', e, h'⟩ := h.2.step x
      refine ⟨{ f with states := ss' }, ?_, h.1, h'⟩
      simp [PoleFilter.filter, Exec.zoom, CascadeStages.filter, Sample.toR, Sample.ofR, h.1, e])
    ⟨hb, h⟩ x

theorem Custom.SOS.produces {f : Custom.SOS S XR} {bs : List (Biquad ℝ)} {cs : List (ℝ × ℝ)}
    (hb : f.stages = bs.map Biquad.toX) (h : Sims bs f.states cs) (x : ℕ → ℝ) :
    Produces (Custom.SOS.filter (T := XR)) f x (chainOut bs cs x) :=
  produces_of_sim
    (Rel := fun (f : Custom.SOS S XR) cs => f.stages = bs.map Biquad.toX ∧ Sims bs f.states cs)
    (fun f c x h => by
      obtain ⟨ss', e, h'⟩ := h.2.step x
      refine ⟨{ f with states := ss' }, ?_, h.1, h'⟩
      simp [Custom.SOS.filter, Exec.zoom, CascadeStages.filter, Sample.toR, Sample.ofR, h.1, e])
    ⟨hb, h⟩ x

theorem RBJ.Filter.produces {f : RBJ.Filter XR} {b : Biquad ℝ} {c : ℝ × ℝ}
    (hb : f.biquad = b.toX) (h : ExactState.Sim b f.state c) (x : ℕ → ℝ) :
    Produces (RBJ.Filter.filter (T := XR)) f x (secOut b c x) :=
  produces_of_sim
    (Rel := fun (f : RBJ.Filter XR) c => f.biquad = b.toX ∧ ExactState.Sim b f.state c)
    (fun f c x h => by
      obtain ⟨s', e, h'⟩ := ExactState.sim_step b f.state c x h.2
      refine ⟨{ f with state := s' }, ?_, h.1, h'⟩
      have e' : DirectFormI.filter (fin x) b.toX f.state = (fin (secStep b x c).1, s') := e
      simp [RBJ.Filter.filter, Sample.toR, Sample.ofR, h.1, e'])
    ⟨hb, h⟩ x

/-- The delay lines of a reset pole filter are at rest. -/
theorem PoleFilter.sims_reset [LawfulState S XR] {f : PoleFilter S XR} {bs : List (Biquad ℝ)}
    (hl : f.states.length = bs.length) : Sims bs (PoleFilter.reset f).2.states (rest bs.length) := by
  simp only [PoleFilter.reset, modify_def, reset_states, hl]
  exact Sims.init bs

theorem Custom.SOS.sims_reset [LawfulState S XR] {f : Custom.SOS S XR} {bs : List (Biquad ℝ)}
    (hl : f.states.length = bs.length) : Sims bs (Custom.SOS.reset f).2.states (rest bs.length) := by
  simp only [Custom.SOS.reset, modify_def, reset_states, hl]
  exact Sims.init bs

end Iir
