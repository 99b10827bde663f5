import Verif.Props.Repaired
import Verif.Props.Inherited

/-! # Cases for C83, C84 and C85 -/

namespace Iir
open FArith Exec Spec Mem

/-! ## C83 -/

/-- An RBJ filter and a `SOSCascade` exist; then a low pass is constructed, set up, and used, while the others are
copied, attached to, and destroyed. -/
example (x : XR) : let after : List (Stmt XR XR) :=
      [.act 2 (.setup caseCall), .newCascade, .act 3 (.attach 1), .copy 1, .act 2 (.filter x), .act 0 (.filter x), .copy 3,
        .destroy 1, .act 2 (.attach 2), .act 2 (.filter x), .assign 0 0]
    let m := (Mem.run ([.newRbj, .newSos 2 .df1, .new .bwLowPass 4 .df2] : List (Stmt XR XR)) []).2
    resultsOn 2 after (m.run after).1 =
      ((lone 2 (.pole (newPole .bwLowPass 4 .df2 2))).run [.act 2 (.setup caseCall), .act 2 (.filter x), .act 2 (.attach 2),
        .act 2 (.filter x)]).1 := by
  intro after m
  have h0 : m = [some (.rbj .init), some (.sos ⟨CascadeStages.initStages 2, .init 2 .df1⟩),
    some (.pole (newPole .bwLowPass 4 .df2 2))] := rfl
  refine (C83_independent (m := m) (i := 2) (by rw [h0]; rfl) ?_ (by simp) after ?_).1
  · intro k y p hy hp
    rw [h0] at hy
    rcases k with _ | _ | _ | k
    · obtain rfl := Option.some.inj (show some (Thing.rbj .init) = some y from hy); exact hp.elim
    · obtain rfl := Option.some.inj (show some (Thing.sos _) = some y from hy); exact hp.elim
    · obtain rfl := Option.some.inj (show some (Thing.pole _) = some y from hy)
      rcases hp with h | h | h <;> simp [← h, newPole]
    · simp [Mem.obj_eq] at hy
  · simp [after, Stmt.Leaves, Thing.IsPole]

/-! ## C84 -/

theorem caseCall_pole (t : Topology) :
    (Mem.run (designPole (T := XR) .bwLowPass 4 t caseCall) ([] : Mem XR)).1 = [.ok (.object 0), .ok .none] := by
  have h7 := caseCall_new (S := DirectFormII) (n := 4) (by norm_num) (by norm_num)
  have h8 : (Call.run 4 caseCall (PoleFilter.initBase .bwLowPass 4)).1 = .ok () := by
    revert h7
    simp only [PoleFilter.setup, Exec.zoom, PoleFilter.init]
    rcases Call.run 4 caseCall (PoleFilter.initBase .bwLowPass 4) with ⟨_ | _ | _, _⟩ <;> simp
  obtain ⟨o, ho⟩ : ∃ o : PoleThing XR, o = newPole .bwLowPass 4 t 0 := ⟨_, rfl⟩
  have h9 : Mem.view [some (.pole o)] o = PoleFilter.initBase .bwLowPass 4 := by rw [ho]; rfl
  have h10 : o.cls = caseCall.design.cls := by rw [ho]; rfl
  have h11 : o.order = 4 := by rw [ho]; rfl
  have h12 : Mem.obj [some (Thing.pole o)] 0 = some (.pole o) := rfl
  have h13 : (Mem.step ([] : Mem XR) (.new .bwLowPass 4 t : Stmt XR XR)) = (.ok (.object 0), [some (.pole o)]) := by
    rw [ho]; rfl
  simp only [designPole, Mem.run, h13]
  simp only [step, act, h12, doPole, ← h10, if_true, h9, h11, h8, Res.map]

/-- A Butterworth low pass of order 3 designed into a `SOSCascade<2, DirectFormI>` through a `LowPass<4, DirectFormII>`
attached to it: it filters like a `LowPass<4, DirectFormI>`. -/
example (xs : List XR) :
    let a := Mem.run (designSos (T := XR) .bwLowPass 4 .df2 .df1 caseCall) ([] : Mem XR)
    let b := Mem.run (designPole (T := XR) .bwLowPass 4 .df1 caseCall) ([] : Mem XR)
    a.1.getLast? = some (.ok .none) ∧
      (a.2.run (xs.map fun x => .act 1 (.filter x))).1 = (b.2.run (xs.map fun x => .act 0 (.filter x))).1 := by
  intro a b
  obtain ⟨h1, h2⟩ := C84_sos (T := XR) (c := .bwLowPass) (n := 4) (by norm_num) (by norm_num) .df2 .df1 caseCall rfl
  have h3 : b.1.getLast? = some (.ok .none) := by
    show (Mem.run (designPole (T := XR) .bwLowPass 4 .df1 caseCall) ([] : Mem XR)).1.getLast? = _
    rw [caseCall_pole]; rfl
  exact ⟨h1.trans h3, h2 h3 xs⟩

/-- A `Cascade` and a `SOSCascade` of two sections: after `c.setCascadeStorage (s.getCascadeStorage ())` the response of
`c` at 1/8 is 1. -/
example : ((Mem.step (Mem.run ([.newCascade, .newSos 2 .df2] : List (Stmt XR XR)) []).2 (.act 0 (.attach 1) : Stmt XR XR)).2.step
    (.act 0 (.response (.fin (1 / 8))) : Stmt XR XR)).1 = .ok (.response (number 1)) :=
  C84_blind_exact (j := 1) (c := ⟨0, 0, none⟩) (y := .sos ⟨CascadeStages.initStages 2, .init 2 .df2⟩)
    (st := CascadeStages.initStages 2) (by decide) rfl rfl rfl (by norm_num) (by norm_num)

/-- After the `SOSCascade` is gone, `setup` on the filter attached to it never succeeds. -/
example (call : Call XR) (r : Obs XR XR) : ((Mem.run ([.newSos 2 .df2, .new .bwLowPass 4 .df2, .act 1 (.attach 0), .destroy 0] :
    List (Stmt XR XR)) []).2.step (.act 1 (.setup call))).1 ≠ .ok r := by
  obtain ⟨o, e1, e2, e3⟩ : ∃ o : PoleThing XR, (Mem.run ([.newSos 2 .df2, .new .bwLowPass 4 .df2, .act 1 (.attach 0), .destroy 0] :
      List (Stmt XR XR)) []).2.obj 1 = some (.pole o) ∧ o.stagePtr = 0 ∧ o.own.cascade.maxStages = 2 := ⟨_, rfl, rfl, rfl⟩
  exact C84_dangling.1 o e1 (by rw [e2]; rfl) (by rw [e3]; norm_num) call r

/-- A `Cascade` which was never attached -/
example (l : Layout XR) (hl : l.numPoles = 3) :
    ((Mem.run ([.newCascade] : List (Stmt XR XR)) []).2.step (.act 0 (.setLayout l) : Stmt XR XR)).1 = .throw .tooManyStages :=
  C84_unattached rfl (by rw [hl]; norm_num)

/-- `exRoots` put into a `SOSCascade<2>` through a `Cascade` -/
example : ∃ l m1 m2 f', exRoots.build 0 1 (Layout.storage 4) = (.ok (), l) ∧
    (Mem.run ([.newCascade, .newSos 2 .df2] : List (Stmt XR XR)) []).2.step (.act 0 (.attach 1) : Stmt XR XR) = (.ok .none, m1) ∧
    m1.step (.act 0 (.setLayout l) : Stmt XR XR) = (.ok .none, m2) ∧
    m2.obj 1 = some (.sos f') ∧ ∀ b ∈ f'.stages, StableSection b := by
  have hp : circle (0 / (2 * Real.pi)) ∉ exRoots.poles := fun hm => by
    have := exRoots_inside _ hm; rw [norm_circle] at this; exact lt_irrefl _ this
  obtain ⟨l, m1, m2, f', h1, h2, h3, h4, -, h6, -⟩ := C84_own_layout
    (m := (Mem.run ([.newCascade, .newSos 2 .df2] : List (Stmt XR XR)) []).2) (i := 0) (j := 1) (c := ⟨0, 0, none⟩)
    (f := ⟨CascadeStages.initStages 2, .init 2 .df2⟩) rfl rfl (r := exRoots) (by simp [exRoots, Roots.poles, Factor.poles])
    (by simp [exRoots, Factor.Allowed]) (N := 4) (by simp [exRoots, Roots.poles, Factor.poles])
    (by simp [exRoots, Roots.poles, Factor.poles, CascadeStages.initStages]) (w := 0) (g := 1) le_rfl Real.pi_pos.le hp exRoots_one
  exact ⟨l, m1, m2, f', h1, h2, h3, h4, h6.2 exRoots_inside⟩

/-! ## C85 -/

/-- A low pass, and a copy of it attached to its own sections: whatever is then done to the copy, the original filters as
if it were alone. -/
example (x y : XR) : let m := (Mem.run ([.new .bwLowPass 4 .df2, .copy 0, .act 1 (.attach 1)] : List (Stmt XR XR)) []).2
    let p : List (Stmt XR XR) := [.act 1 (.setup caseCall), .act 0 (.filter x), .act 1 (.filter y), .destroy 1, .act 0 (.filter y)]
    ∃ o, m.obj 0 = some o ∧ resultsOn 0 p (m.run p).1 = ((lone 0 o).run [.act 0 (.filter x), .act 0 (.filter y)]).1 := by
  intro m p
  obtain ⟨h1, -⟩ := C85_false (T := XR) .df2
  obtain ⟨o, ho⟩ := h1.1
  exact ⟨_, ho, C85_sections_partial ho h1 p (by simp [p, Stmt.Leaves]) (by simp [p, callsOn, Spec.Do.OnSections])⟩

end Iir
