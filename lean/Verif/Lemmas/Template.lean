import Verif.Lemmas.Result

/-! # The same design in objects of different template order -/

set_option linter.unusedSectionVars false

namespace Iir
open FArith Cx Exec Spec Biquad Cascade

variable {R : Type} [FArith R]

theorem Cascade.setLayout_ident_throw {e : Err} (h0 : (identR : Res (Biquad R)) = .throw e) {l : Layout R}
    {c : Cascade R} {M : Nat} (hc : c.Ok M) (h1 : 1 ≤ M) (hk : (l.numPoles + 1) / 2 ≤ M) :
    (setLayout l c).1 = .throw e := by
  have hloop : ∀ (n : Nat) (c : Cascade R), 1 ≤ n → 1 ≤ c.stages.length →
      Exec.loop n (fun i => onStage i Biquad.setIdentity) c = (.throw e, c) := by
    intro n
    induction n with
    | zero => intro c h; omega
    | succ n ih =>
      intro c _ hc
      rw [Exec.loop, bind_def']
      rcases Nat.eq_zero_or_pos n with rfl | hn
      · simp only [Exec.loop, pure_def']
        rw [onStage_eq hc stores_setIdentity, h0]; rfl
      · rw [ih c hn hc]
  unfold setLayout
  simp only [bind_def, modify_def, get_def, hc.maxStages]
  rw [show decide ((l.numPoles + 1) / 2 > M) = false by simp; omega]
  simp only [throwIf_false]
  rw [hloop M _ h1 (by have := hc.length; simp; omega)]

theorem Cascade.respLoop_prefix {c c' : Cascade R} {cs : List (Biquad R)} (h : c'.stages = c.stages ++ cs)
    (z1 z2 : Cx R) (k : Nat) (hk : k ≤ c.stages.length) : c'.respLoop z1 z2 k = c.respLoop z1 z2 k := by
  induction k with
  | zero => rfl
  | succ k ih =>
    have : c'.stageAt k = c.stageAt k := by
      unfold stageAt
      rw [h, List.getElem?_append_left (by omega)]
    rw [respLoop, respLoop, ih (by omega), this]

theorem Cascade.response_prefix {c c' : Cascade R} {cs : List (Biquad R)} (h : c'.stages = c.stages ++ cs)
    (hn : c'.numStages = c.numStages) (hk : c.numStages ≤ c.stages.length) (nf : R) :
    c'.response nf = c.response nf := by
  unfold response
  simp only [hn, respLoop_prefix h _ _ _ hk]

/-- the larger cascade is the smaller one followed by identity sections -/
structure Cascade.Extends (c c' : Cascade R) : Prop where
  num : c'.numStages = c.numStages
  le : c.numStages ≤ c.stages.length
  stages : ∃ (m : Nat) (b0 : Biquad R), identR = .ok b0 ∧ c'.stages = c.stages ++ List.replicate m b0

theorem Cascade.setLayout_template {l l' : Layout R} {k L L' M M' : Nat} (h : Layout.Same k L L' l l')
    {c c' : Cascade R} (hc : c.Ok M) (hc' : c'.Ok M') (h1 : 1 ≤ M) (hMM : M ≤ M') (hL : (k + 1) / 2 ≤ L)
    (hL' : (k + 1) / 2 ≤ L') (hM : (k + 1) / 2 ≤ M) :
    (setLayout l c).1 = (setLayout l' c').1 ∧
      ((setLayout l c).1 = .ok () → Extends (setLayout l c).2 (setLayout l' c').2) := by
  cases h0 : (identR : Res (Biquad R)) with
  | ub u => rcases coeffsR_throw h0 with ⟨b, hb⟩ | hb <;> simp at hb
  | throw e =>
    rw [setLayout_ident_throw h0 hc h1 (by rw [h.veq.left.1]; exact hM),
      setLayout_ident_throw h0 hc' (by omega) (by rw [h.veq.right.1]; omega)]
    exact ⟨rfl, fun h => by simp at h⟩
  | ok b0 =>
    have e1 := setLayout_eq (l := l) hc h0 (by rw [h.veq.left.1, h.veq.left.2]; exact hL)
      (by rw [h.veq.left.1]; exact hM)
    have e2 := setLayout_eq (l := l') hc' h0 (by rw [h.veq.right.1, h.veq.right.2]; exact hL')
      (by rw [h.veq.right.1]; omega)
    rw [h.veq.left.1, h.w, h.g, h.veq.pairs] at e1
    rw [h.veq.right.1] at e2
    have hrep : List.replicate M' b0 = List.replicate M b0 ++ List.replicate (M' - M) b0 := by
      rw [List.replicate_append_replicate]; congr 1; omega
    rw [hrep, placePairs_append _ _ _ (by simp; omega)] at e2
    rw [e1, e2]
    have hpl := placePairs_length (l'.pairs.take ((k + 1) / 2)) (List.replicate M b0)
    generalize placePairs (l'.pairs.take ((k + 1) / 2)) (List.replicate M b0) = pp at hpl ⊢
    rcases pp with ⟨r, st⟩
    simp only [List.length_replicate] at hpl
    cases r
    · simp only [finish]
      rw [response_prefix (c := ⟨(k + 1) / 2, M, st⟩)
        (c' := ⟨(k + 1) / 2, M', st ++ List.replicate (M' - M) b0⟩) rfl rfl (by simpa [hpl] using hM)]
      rcases Cascade.response ⟨(k + 1) / 2, M, st⟩ (l'.normalW / (2 * pi)) with hh | e | u
      · refine ⟨rfl, fun _ => ?_⟩
        simp only
        split_ifs with hlt
        · exact ⟨rfl, by simpa [hpl] using hM, M' - M, b0, h0, rfl⟩
        · refine ⟨rfl, by simpa [hpl] using hM, M' - M, b0, h0, ?_⟩
          cases st with
          | nil => rw [List.length_nil] at hpl; omega
          | cons q qs => rfl
      · exact ⟨rfl, fun h => by simp at h⟩
      · exact ⟨rfl, fun h => by simp at h⟩
    · exact ⟨rfl, fun h => by simp at h⟩
    · exact ⟨rfl, fun h => by simp at h⟩

namespace PFB

theorem rest_template {n n' k : Nat} {d : Design R} (hn1 : 1 ≤ n) (hnn : n ≤ n') {p p' : PFB R}
    (hp : p.Ok d.cls n) (hp' : p'.Ok d.cls n')
    (ha : Layout.Same k ((n + 1) / 2) ((n' + 1) / 2) p.analog.lay p'.analog.lay) :
    (rest d p).1 = (rest d p').1 ∧ ((rest d p).1 = .ok () →
      Cascade.Extends (rest d p).2.cascade (rest d p').2.cascade ∧
      (rest d p).2.getPoleZeros = (rest d p').2.getPoleZeros) := by
  have h1 : k ≤ n := ha.veq.left.1 ▸ hp.analog.1
  have h3 := Nat.mul_le_mul_right d.cls.mult h1
  have h4 := Nat.mul_le_mul_right d.cls.mult hnn
  have ht := trans_same hp hp' ha
  rw [rest_apply, rest_apply]
  revert ht
  rcases d.trans p.analog.lay p.digital with ⟨r, l⟩
  rcases d.trans p'.analog.lay p'.digital with ⟨r', l'⟩
  rintro ⟨h, hl⟩
  dsimp only at h hl
  subst h
  cases r
  · simp only
    replace hl := hl rfl
    have hms : 1 ≤ d.cls.mult := by cases d <;> simp [Design.cls, Cls.mult]
    have h5 : n * 1 ≤ n * d.cls.mult := Nat.mul_le_mul_left n hms
    have := Cascade.setLayout_template hl hp.cascade hp'.cascade
      (by unfold PoleFilter.numStages; rw [Cls.maxDigital_eq]; omega)
      (by unfold PoleFilter.numStages; rw [Cls.maxDigital_eq, Cls.maxDigital_eq]; omega)
      (by rw [Cls.maxDigital_eq]; omega) (by rw [Cls.maxDigital_eq]; omega)
      (by unfold PoleFilter.numStages; rw [Cls.maxDigital_eq]; omega)
    refine ⟨this.1, fun h => ⟨this.2 h, ?_⟩⟩
    unfold PFB.getPoleZeros
    simp only
    rw [hl.veq.left.1, hl.veq.right.1]
    exact poleZerosLoop_same hl _ (Nat.le_refl _)
  · exact ⟨rfl, fun h => by simp at h⟩
  · exact ⟨rfl, fun h => by simp at h⟩

theorem stale_init (n n' : Nat) (o : Int) (d : Design R) :
    d.stale o (PoleFilter.initBase d.cls n : PFB R).analog =
      d.stale o (PoleFilter.initBase d.cls n' : PFB R).analog := by cases d <;> rfl

theorem baseSetup_template {n n' : Nat} (hn1 : 1 ≤ n) (hnn : n ≤ n') {o : Int} (ho : o ≤ n) (d : Design R) :
    (d.baseSetup o (PoleFilter.initBase d.cls n)).1 = (d.baseSetup o (PoleFilter.initBase d.cls n')).1 ∧
    ((d.baseSetup o (PoleFilter.initBase d.cls n)).1 = .ok () →
      Cascade.Extends (d.baseSetup o (PoleFilter.initBase d.cls n)).2.cascade
        (d.baseSetup o (PoleFilter.initBase d.cls n')).2.cascade ∧
      (d.baseSetup o (PoleFilter.initBase d.cls n)).2.getPoleZeros =
        (d.baseSetup o (PoleFilter.initBase d.cls n')).2.getPoleZeros) := by
  have hok := PFB.ok_init (R := R) d.cls n
  have hok' := PFB.ok_init (R := R) d.cls n'
  rw [PFB.baseSetup_proto, PFB.baseSetup_proto]
  cases hs : d.stale o (PoleFilter.initBase d.cls n : PFB R).analog with
  | false =>
    rw [d.proto_hit hs, d.proto_hit (by rw [← stale_init n n', hs])]
    refine rest_template (k := 0) hn1 hnn hok hok' ⟨⟨⟨rfl, hok.analog.2⟩, ⟨rfl, hok'.analog.2⟩, rfl⟩, rfl, rfl⟩
  | true =>
    rw [d.proto_miss hs, d.proto_miss (by rw [← stale_init n n', hs])]
    have := d.build_same (n' := n') hn1 ho (by omega) (by omega) (d.cls.lay0 n) (d.cls.lay0 n')
      ⟨(Cls.lay0_atMost _ n).2, (Cls.lay0_atMost _ n').2⟩ (fun _ => rfl) (fun _ => rfl)
    have e1 : d.build o (PoleFilter.initBase d.cls n : PFB R).analog.lay = d.build o (d.cls.lay0 n) := rfl
    have e2 : d.build o (PoleFilter.initBase d.cls n' : PFB R).analog.lay = d.build o (d.cls.lay0 n') := rfl
    rw [e1, e2]
    have hle := builtPoles_le ho hn1
    revert this
    rcases d.build o (d.cls.lay0 n) with ⟨r, l⟩
    rcases d.build o (d.cls.lay0 n') with ⟨r', l'⟩
    rintro ⟨h, hl⟩
    dsimp only at h hl
    subst h
    cases r
    · have hsm := hl rfl
      exact rest_template hn1 hnn (p := { (PoleFilter.initBase d.cls n : PFB R) with
          analog := { d.setKey o (PoleFilter.initBase d.cls n : PFB R).analog with lay := l } })
        (p' := { (PoleFilter.initBase d.cls n' : PFB R) with
          analog := { d.setKey o (PoleFilter.initBase d.cls n' : PFB R).analog with lay := l' } })
        ⟨hok.cascade, hok.digital, ⟨hsm.veq.left.1 ▸ hle, hsm.veq.left.2⟩⟩
        ⟨hok'.cascade, hok'.digital, ⟨hsm.veq.right.1 ▸ by omega, hsm.veq.right.2⟩⟩ hsm
    · exact ⟨rfl, fun h => by simp at h⟩
    · exact ⟨rfl, fun h => by simp at h⟩

end PFB
end Iir
