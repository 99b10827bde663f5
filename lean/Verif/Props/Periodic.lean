import Verif.Spec.Periodic
import Verif.Props.SampleAccuracy
import Verif.Props.Objects

/-! # C101: periodic input, double arithmetic -/

set_option linter.unusedSectionVars false

namespace Iir
open Spec FArith

/-! ## Tools -/

theorem finite_doubles : {x : ℝ | IsDouble x}.Finite := by
  refine (((Set.finite_Icc (-2 ^ 53 : ℤ) (2 ^ 53)).prod (Set.finite_Icc (-1074 : ℤ) 971)).image
    fun p : ℤ × ℤ => (p.1 : ℝ) * (2 : ℝ) ^ p.2).subset ?_
  rintro x ⟨m, e, hm, h1, h2, rfl⟩
  exact ⟨(m, e), ⟨⟨(abs_lt.1 hm).1.le, (abs_lt.1 hm).2.le⟩, h1, h2⟩, rfl⟩

instance : Finite Dbl := by
  have : Finite {x : ℝ // 0 ≤ x ∧ IsDouble x} := (finite_doubles.subset fun _ h => h.2).to_subtype
  refine Finite.of_surjective (α := Option (Bool ⊕ (Bool × {x : ℝ // 0 ≤ x ∧ IsDouble x}))) (fun o => match o with
    | none => .nan
    | some (.inl b) => .inf b
    | some (.inr (b, x)) => .num b x) fun d => ?_
  rcases d with _ | b | ⟨b, x⟩
  · exact ⟨none, rfl⟩
  · exact ⟨some (.inl b), rfl⟩
  · exact ⟨some (.inr (b, x)), rfl⟩

instance : Finite (DirectFormI Dbl) :=
  .of_injective (β := Dbl × Dbl × Dbl × Dbl) (fun s => (s.x2, s.y2, s.x1, s.y1)) fun ⟨_, _, _, _⟩ ⟨_, _, _, _⟩ h => by
    simpa using h

instance : Finite (DirectFormII Dbl) :=
  .of_injective (β := Dbl × Dbl) (fun s => (s.v1, s.v2)) fun ⟨_, _⟩ ⟨_, _⟩ h => by simpa using h

instance : Finite (TransposedDirectFormII Dbl) :=
  .of_injective (β := Dbl × Dbl × Dbl × Dbl) (fun s => (s.s1, s.s1_1, s.s2, s.s2_1)) fun ⟨_, _, _, _⟩ ⟨_, _, _, _⟩ h => by
    simpa using h

theorem replies_step {σ T : Type} {flt : T → Exec σ T} {f : σ} {x y : ℕ → T} (h : Replies flt f x y) (n : ℕ) :
    flt (x n) (feed flt ((List.range n).map x) f).2 = (.ok (y n), (feed flt ((List.range (n + 1)).map x) f).2) := by
  have h1 := h n
  have h2 := h (n + 1)
  have er : ∀ z : ℕ → T, (List.range (n + 1)).map z = (List.range n).map z ++ [z n] := fun z => by
    rw [List.range_succ, List.map_append, List.map_cons, List.map_nil]
  rw [er, er, feed_snoc] at h2
  rw [er, feed_snoc]
  rcases e : feed flt ((List.range n).map x) f with ⟨r, s⟩
  rw [e] at h1 h2
  obtain rfl : r = .ok _ := h1
  simp only at h2 ⊢
  rcases e2 : flt (x n) s with ⟨r2, s2⟩
  rw [e2] at h2
  cases r2 with
  | ok v =>
    simp only [Res.ok.injEq, List.append_cancel_left_eq, List.cons.injEq, and_true] at h2
    rw [h2]
  | throw e => simp at h2
  | ub u => simp at h2

theorem exists_replies {σ T : Type} {flt : T → Exec σ T} (h : ∀ v s, ∃ w s', flt v s = (.ok w, s')) (f : σ) (x : ℕ → T) :
    ∃ y, Replies flt f x y := by
  choose out nxt hn using h
  let st : ℕ → σ := fun n => n.rec f fun n s => nxt (x n) s
  have key : ∀ N, feed flt ((List.range N).map x) f = (.ok ((List.range N).map fun n => out (x n) (st n)), st N) := fun N => by
    induction N with
    | zero => rfl
    | succ N ih =>
      rw [List.range_succ, List.map_append, List.map_append, List.map_cons, List.map_nil, feed_snoc, ih]
      simp only [hn]
      rfl
  exact ⟨_, fun N => congrArg Prod.fst (key N)⟩

/-- a deterministic object with finitely many states -/
theorem becomesPeriodic_of {σ T : Type} {flt : T → Exec σ T} {f : σ} {x y : ℕ → T} (h : Replies flt f x y) {A : Set σ}
    (hA : A.Finite) (hf : f ∈ A) (hs : ∀ v s, s ∈ A → (flt v s).2 ∈ A) {q : ℕ} (hx : Periodic q x) : BecomesPeriodic q y := by
  set st : ℕ → σ := fun n => (feed flt ((List.range n).map x) f).2 with hst
  have step : ∀ n, flt (x n) (st n) = (.ok (y n), st (n + 1)) := replies_step h
  have mem : ∀ n, st n ∈ A := fun n => by
    induction n with
    | zero => exact hf
    | succ n ih =>
      have := hs (x n) _ ih
      rwa [step n] at this
  obtain ⟨i, -, j, -, hij, e⟩ := Set.infinite_univ.exists_ne_map_eq_of_mapsTo (f := fun k => st (q * k)) (fun k _ => mem _) hA
  have key : ∀ i j, i < j → st (q * i) = st (q * j) → BecomesPeriodic q y := fun i j hij e => by
    have hxq : ∀ k n, x (n + q * k) = x n := fun k n => by
      induction k with
      | zero => rfl
      | succ k ih => rw [Nat.mul_succ, ← Nat.add_assoc, hx, ih]
    have same : ∀ m, st (m + q * i) = st (m + q * j) := fun m => by
      induction m with
      | zero => simpa using e
      | succ m ih =>
        have h1 := step (m + q * i)
        have h2 := step (m + q * j)
        rw [hxq, ih] at h1
        rw [hxq, h1] at h2
        have := congrArg Prod.snd h2
        rwa [show m + 1 + q * i = m + q * i + 1 by ring, show m + 1 + q * j = m + q * j + 1 by ring]
    refine ⟨q * i, j - i, by omega, fun n hn => ?_⟩
    obtain ⟨m, rfl⟩ := Nat.exists_eq_add_of_le hn
    have e1 : q * i + m + q * (j - i) = m + q * j := by
      obtain ⟨d, rfl⟩ := Nat.exists_eq_add_of_lt hij
      rw [show i + d + 1 - i = d + 1 by omega]; ring
    rw [e1, Nat.add_comm (q * i) m]
    have h1 := step (m + q * i)
    have h2 := step (m + q * j)
    rw [hxq, same m] at h1
    rw [hxq, h1] at h2
    exact (Res.ok.inj (congrArg Prod.fst h2)).symm
  rcases lt_or_gt_of_ne hij with h | h
  · exact key i j h e
  · exact key j i h e.symm

theorem finite_lists (α : Type) [Finite α] (n : ℕ) : {l : List α | l.length = n}.Finite :=
  (Set.finite_coe_iff (s := {l : List α | l.length = n})).1 (inferInstanceAs (Finite (List.Vector α n)))

variable {S : Type → Type} [StateType S Dbl] [Finite (S Dbl)] {T : Type} [Sample T Dbl] {q : ℕ} {x y : ℕ → T}

/-! ## C101 -/

/-- **C101**, double arithmetic: whatever the coefficients and the delay lines of a pole filter are, and whatever the type of the
samples, periodic input is answered by output that repeats itself bit by bit from some sample on. -/
theorem C101_pole (f : PoleFilter S Dbl) (hx : Periodic q x) (h : Replies (PoleFilter.filter (T := T)) f x y) :
    BecomesPeriodic q y :=
  becomesPeriodic_of h (((finite_lists (S Dbl) f.states.length).image fun s : List (S Dbl) => { f with states := s }))
    ⟨f.states, rfl, rfl⟩ (by
      rintro v _ ⟨s, hs, rfl⟩
      exact ⟨_, (filterD_length _ _ _).trans hs, rfl⟩) hx

/-- **C101** for `SOSCascade` with any coefficients -/
theorem C101_sos (f : Custom.SOS S Dbl) (hx : Periodic q x) (h : Replies (Custom.SOS.filter (T := T)) f x y) :
    BecomesPeriodic q y :=
  becomesPeriodic_of h (((finite_lists (S Dbl) f.states.length).image fun s : List (S Dbl) => { f with states := s }))
    ⟨f.states, rfl, rfl⟩ (by
      rintro v _ ⟨s, hs, rfl⟩
      exact ⟨_, (filterD_length _ _ _).trans hs, rfl⟩) hx

/-- **C101** for RBJ filters -/
theorem C101_rbj (f : RBJ.Filter Dbl) (hx : Periodic q x) (h : Replies (RBJ.Filter.filter (T := T)) f x y) :
    BecomesPeriodic q y :=
  becomesPeriodic_of h ((Set.finite_univ (α := DirectFormI Dbl)).image fun s => { f with state := s })
    ⟨f.state, trivial, rfl⟩ (by
      rintro v _ ⟨s, -, rfl⟩
      exact ⟨_, trivial, rfl⟩) hx

/-- **C101** for double samples: there always is an output, and it becomes periodic. -/
theorem C101_double (f : PoleFilter S Dbl) {x : ℕ → Dbl} (hx : Periodic q x) :
    ∃ y, Replies (PoleFilter.filter (T := Dbl)) f x y ∧ BecomesPeriodic q y := by
  obtain ⟨y, hy⟩ := exists_replies (PoleFilter.filter_double_ok (S := S) (R := Dbl)) f x
  exact ⟨y, hy, C101_pole f hx hy⟩

/-! ## Cases -/

/-- a constant is periodic: the end of every double signal, for the filter as constructed -/
example (v : Dbl) : ∃ y, Replies (PoleFilter.filter (T := Dbl))
    (PoleFilter.init DirectFormII .bwLowPass 4 : PoleFilter DirectFormII Dbl) (fun _ => v) y ∧
    BecomesPeriodic 1 y := C101_double _ fun _ => rfl

/-- in exact arithmetic it is not so: this output comes nearer and nearer to 2 -/
example : ∃ (f : Custom.SOS DirectFormII XR) (y : ℕ → ℝ),
    Produces (Custom.SOS.filter (T := XR)) (Custom.SOS.reset f).2 (fun _ => 1) y ∧ ¬ BecomesPeriodic 1 y := by
  obtain ⟨f, h1, h2, -⟩ := exSos
  obtain ⟨y, hy⟩ := (C07_sos h1 h2).1 fun _ => 1
  have hd := diffChain_one.1 ((C01_sos h1 h2 _ y).1 hy)
  have e : ∀ n, y n = 2 - 3 / 2 * (1 / 2) ^ n := fun n => by
    induction n with
    | zero => rw [hd 0]; norm_num [exCoeffs, delayed]
    | succ n ih =>
      rw [hd (n + 1)]
      simp only [exCoeffs, delayed, show 1 ≤ n + 1 by omega, if_true, Nat.add_sub_cancel, ih, pow_succ]
      ring
  refine ⟨f, y, hy, fun ⟨N, p, hp, h⟩ => ?_⟩
  have h := h N le_rfl
  rw [e, e] at h
  have : (1 / 2 : ℝ) ^ (N + 1 * p) < (1 / 2) ^ N := pow_lt_pow_right_of_lt_one₀ (by norm_num) (by norm_num) (by omega)
  linarith

end Iir
