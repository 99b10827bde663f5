import Verif.Lemmas.Overflow
import Verif.Lemmas.OneMore
import Verif.Props.Template
import Verif.Props.History
import Verif.Props.Copies
import Verif.Spec.Designs

/-! # C74: the inherited `setup` of the base classes -/

set_option linter.unusedSectionVars false

namespace Iir
open FArith Cx Exec Spec

variable {R : Type} [FArith R] {S : Type → Type} [StateType S R] {T : Type} [Sample T R] {n : ℕ}

theorem PoleFilter.baseSetup_apply (o : ℤ) (d : Design R) (f : PoleFilter S R) :
    PoleFilter.baseSetup o d f = ((d.baseSetup o f.base).1, { f with base := (d.baseSetup o f.base).2 }) := rfl

/-- **C74** (any arithmetic).  With an order up to `FilterOrder` the inherited `setup (order, …)` of the base class is
`setupN (order, …)`. -/
theorem C74_same_as_setupN {o : ℤ} (ho : o ≤ n) (d : Design R) (f : PoleFilter S R) :
    PoleFilter.baseSetup o d f = PoleFilter.setup n (.setupNReq o d) f := by
  rw [PoleFilter.baseSetup_apply, PoleFilter.setup_apply, Call.run_eq]
  rw [if_neg (by show ¬o > n; omega)]
  rfl

theorem Design.proto_room {o : ℕ} (d : Design R) {a : Proto R} (ha : a.numPoles ≠ o)
    (h : (d.proto o a).1 = .ok ()) : (o + 1) / 2 ≤ a.lay.pairs.length := by
  rw [d.proto_miss (d.stale_of_ne ha)] at h
  have := d.ifOk_build o a.lay.pairs.length a.lay rfl
  revert this h
  rcases d.build o a.lay with ⟨_ | _ | _, l⟩ <;> intro h this
  · exact this.2.2
  · exact absurd h (by simp)
  · exact absurd h (by simp)

theorem Spec.Reach.proto_not_ok (hn1 : 1 ≤ n) (hn : n < 2 ^ 30) {d : Design R} {f : PoleFilter S R}
    (h : Reach S T d.cls n f) {o : ℕ} (hbig : (n + 1) / 2 < (o + 1) / 2) : (d.proto o f.base.analog).1 ≠ .ok () := by
  intro hok
  have h1 := h.numPoles_le
  have h2 := d.proto_room (by omega) hok
  rw [(h.ok hn1 hn).analog.2] at h2
  omega

/-- **C74** (any arithmetic).  With an order that needs more pairs than the storage has, it never succeeds. -/
theorem C74_never_ok (hn1 : 1 ≤ n) (hn : n < 2 ^ 30) {d : Design R} {f : PoleFilter S R} (h : Reach S T d.cls n f)
    {o : ℕ} (hbig : (n + 1) / 2 < (o + 1) / 2) : (PoleFilter.baseSetup o d f).1 ≠ .ok () := by
  have h1 := h.proto_not_ok hn1 hn hbig
  rw [PoleFilter.baseSetup_apply, PFB.baseSetup_proto]
  revert h1
  rcases d.proto o f.base.analog with ⟨_ | _ | _, a⟩ <;> intro h1
  · exact absurd rfl h1
  · simp
  · simp

/-- **C74** (any arithmetic).  If the same parameters are accepted by a filter of the same class with a large enough
`FilterOrder`, then what happens is a write outside the storage of the prototype, whatever was called before. -/
theorem C74_out_of_bounds (hn1 : 1 ≤ n) (hn : n < 2 ^ 30) {d : Design R} {f : PoleFilter S R} (h : Reach S T d.cls n f)
    {o N : ℕ} (hbig : (n + 1) / 2 < (o + 1) / 2) (hN : o ≤ N)
    (hok : (PoleFilter.setup N (.setupNReq o d) (PoleFilter.init S d.cls N)).1 = .ok ()) :
    (PoleFilter.baseSetup o d f).1 = .ub .outOfBounds := by
  have h1 := h.numPoles_le
  have h2 := h.proto_not_ok hn1 hn hbig
  have h3 : (d.proto o (PoleFilter.initBase d.cls N).analog).1 = .ok () := by
    rw [PoleFilter.setup_apply, Call.run_eq, if_neg (by show ¬(o : ℤ) > N; omega)] at hok
    have e : (Call.setupNReq (o : ℤ) d).normDesign.baseSetup ((Call.setupNReq (o : ℤ) d).order N)
        (PoleFilter.init S d.cls N : PoleFilter S R).base = d.baseSetup o (PoleFilter.initBase d.cls N) := rfl
    rw [e, PFB.baseSetup_proto] at hok
    revert hok
    rcases d.proto o (PoleFilter.initBase d.cls N).analog with ⟨_ | _ | _, a⟩ <;> intro hok
    · rfl
    · exact absurd hok (by simp)
    · exact absurd hok (by simp)
  have hkey : (PoleFilter.initBase d.cls N : PFB R).analog.numPoles ≠ o := by
    have : (PoleFilter.initBase d.cls N : PFB R).analog.numPoles ≤ 0 := by
      show (d.cls.protoInit : Proto R).numPoles ≤ 0
      cases d.cls <;> first | exact le_refl _ | exact (by decide : (-1 : ℤ) ≤ 0)
    omega
  have hne : f.base.analog.numPoles ≠ o := by omega
  rw [d.proto_miss (d.stale_of_ne hkey)] at h3
  rw [d.proto_miss (d.stale_of_ne hne)] at h2
  have hreset : ∀ l : Layout R, ∀ k, d.build o { l with numPoles := k } = d.build o l := by
    intro l k
    cases d <;> rfl
  have hres : (d.build o f.base.analog.lay).1 = .ub .outOfBounds := by
    have hlen : f.base.analog.lay.pairs.length ≤ (PoleFilter.initBase d.cls N : PFB R).analog.lay.pairs.length := by
      rw [(h.ok hn1 hn).analog.2]
      show _ ≤ (List.replicate ((N + 1) / 2) PoleZeroPair.default).length
      rw [List.length_replicate]; omega
    have := LessRoom.build o d { f.base.analog.lay with numPoles := 0 }
      (PoleFilter.initBase d.cls N : PFB R).analog.lay ⟨rfl, hlen⟩
    rw [hreset] at this
    rcases this with h4 | ⟨h4, -⟩
    · exact h4
    · exact absurd (h4.trans h3) h2
  rw [PoleFilter.baseSetup_apply, PFB.baseSetup_proto, d.proto_miss (d.stale_of_ne hne)]
  revert hres
  rcases d.build o f.base.analog.lay with ⟨r, l⟩
  rintro rfl
  rfl

/-- For an odd `FilterOrder` and the next order the arrays of the prototype are long enough. -/
theorem Spec.Reach.proto_next [SignedZeros R] (hn : n < 2 ^ 30) (hodd : n % 2 = 1) {d : Design R} {f : PoleFilter S R}
    (h : Reach S T d.cls n f) :
    (d.proto (n + 1 : ℕ) f.base.analog).1 = (d.proto (n + 1 : ℕ) (PoleFilter.initBase d.cls (n + 1)).analog).1 ∧
      ((d.proto (n + 1 : ℕ) f.base.analog).1 = .ok () →
        Layout.Same (builtPoles (n + 1 : ℕ)) ((n + 1 + 1) / 2) ((n + 1 + 1) / 2) (d.proto (n + 1 : ℕ) f.base.analog).2.lay
          (d.proto (n + 1 : ℕ) (PoleFilter.initBase d.cls (n + 1)).analog).2.lay) := by
  have hkey : (PoleFilter.initBase d.cls (n + 1) : PFB R).analog.numPoles ≠ (n + 1 : ℕ) := by
    have : (PoleFilter.initBase d.cls (n + 1) : PFB R).analog.numPoles ≤ 0 := by
      show (d.cls.protoInit : Proto R).numPoles ≤ 0
      cases d.cls <;> first | exact le_refl _ | exact (by decide : (-1 : ℤ) ≤ 0)
    omega
  have hne : f.base.analog.numPoles ≠ (n + 1 : ℕ) := by have := h.numPoles_le; omega
  rw [d.proto_miss (d.stale_of_ne hkey), d.proto_miss (d.stale_of_ne hne)]
  have hcoh := h.coh (by omega) hn
  have e : (n + 1 + 1) / 2 = (n + 1) / 2 := by omega
  exact d.build_same (n := n + 1) (n' := n + 1) (o := (n + 1 : ℕ)) (by omega) le_rfl (by omega) le_rfl f.base.analog.lay
    (d.cls.lay0 (n + 1)) ⟨by rw [e]; exact (h.ok (by omega) hn).analog.2, (Cls.lay0_atMost _ _).2⟩
    (fun h => (hcoh.nrm h).1) (fun h => (hcoh.nrm h).2)

/-- **C74** (any arithmetic).  One more than an odd `FilterOrder`, classes other than the band filters: the arrays are
long enough, and the object becomes the filter that a template with the next `FilterOrder` gives. -/
theorem C74_next_order [SignedZeros R] (hn : n < 2 ^ 30) (hodd : n % 2 = 1) {d : Design R} (hm : d.cls.mult = 1)
    {f : PoleFilter S R} (h : Reach S T d.cls n f) :
    (PoleFilter.baseSetup (n + 1 : ℕ) d f).1 =
      (PoleFilter.setup (n + 1) (.setupNReq (n + 1 : ℕ) d) (PoleFilter.init S d.cls (n + 1))).1 ∧
    ((PoleFilter.baseSetup (n + 1 : ℕ) d f).1 = .ok () → SameConfig (PoleFilter.baseSetup (n + 1 : ℕ) d f).2
      (PoleFilter.setup (n + 1) (.setupNReq (n + 1 : ℕ) d) (PoleFilter.init S d.cls (n + 1))).2) := by
  have hp := h.proto_next hn hodd
  have hok := (h.ok (by omega) hn).next hodd hm
  have e0 : (PoleFilter.setup (n + 1) (.setupNReq (n + 1 : ℕ) d) (PoleFilter.init S d.cls (n + 1)) :
      Res Unit × PoleFilter S R) = ((d.baseSetup (n + 1 : ℕ) (PoleFilter.initBase d.cls (n + 1))).1,
        { (PoleFilter.init S d.cls (n + 1) : PoleFilter S R) with
          base := (d.baseSetup (n + 1 : ℕ) (PoleFilter.initBase d.cls (n + 1))).2 }) := by
    rw [PoleFilter.setup_apply, Call.run_eq, if_neg (by show ¬((n + 1 : ℕ) : ℤ) > (n + 1 : ℕ); omega)]; rfl
  have key : (d.baseSetup (n + 1 : ℕ) f.base).1 = (d.baseSetup (n + 1 : ℕ) (PoleFilter.initBase d.cls (n + 1))).1 ∧
      ((d.baseSetup (n + 1 : ℕ) f.base).1 = .ok () →
        PFB.Agree (d.baseSetup (n + 1 : ℕ) f.base).2 (d.baseSetup (n + 1 : ℕ) (PoleFilter.initBase d.cls (n + 1))).2) := by
    have hle := builtPoles_le (order := ((n + 1 : ℕ) : ℤ)) (n := n + 1) le_rfl (by omega)
    have hok' := PFB.ok_init (R := R) d.cls (n + 1)
    rw [PFB.baseSetup_proto, PFB.baseSetup_proto]
    revert hp
    rcases d.proto (n + 1 : ℕ) f.base.analog with ⟨r, a⟩
    rcases d.proto (n + 1 : ℕ) (PoleFilter.initBase d.cls (n + 1)).analog with ⟨r', a'⟩
    rintro ⟨h1, h2⟩
    dsimp only at h1 h2
    subst h1
    cases r
    · have hs := h2 rfl
      exact PFB.rest_same (d := d) (by omega) (p := { f.base with analog := a })
        (p' := { (PoleFilter.initBase d.cls (n + 1) : PFB R) with analog := a' })
        ⟨hok.cascade, hok.digital, ⟨hs.veq.left.1 ▸ hle, hs.veq.left.2⟩⟩
        ⟨hok'.cascade, hok'.digital, ⟨hs.veq.right.1 ▸ hle, hs.veq.right.2⟩⟩ hs
    · exact ⟨rfl, fun h => by simp at h⟩
    · exact ⟨rfl, fun h => by simp at h⟩
  rw [PoleFilter.baseSetup_apply, e0]
  exact ⟨key.1, fun h => (key.2 h).sameConfig⟩

/-- **C74** (any arithmetic).  One more than an odd `FilterOrder`, band filters: the prototype fits, but the band
transform writes outside the storage of the digital layout. -/
theorem C74_next_order_band [SignedZeros R] (hn : n < 2 ^ 30) (hodd : n % 2 = 1) {d : Design R} (hm : d.cls.mult = 2)
    {f : PoleFilter S R} (h : Reach S T d.cls n f) {N : ℕ} (hN : n + 1 ≤ N)
    (hok : (PoleFilter.setup N (.setupNReq (n + 1 : ℕ) d) (PoleFilter.init S d.cls N)).1 = .ok ()) :
    (PoleFilter.baseSetup (n + 1 : ℕ) d f).1 = .ub .outOfBounds := by
  rw [← (C18_template_new (S := S) (n := n + 1) (n' := N) (by omega) hN d (n + 1 : ℕ) le_rfl).1] at hok
  have hp := h.proto_next hn hodd
  have hf := h.ok (by omega) hn
  have hf' := PFB.ok_init (R := R) d.cls (n + 1)
  have e0 : (d.baseSetup (n + 1 : ℕ) (PoleFilter.initBase d.cls (n + 1) : PFB R)).1 = .ok () := by
    rw [PoleFilter.setup_apply, Call.run_eq, if_neg (by show ¬((n + 1 : ℕ) : ℤ) > (n + 1 : ℕ); omega)] at hok
    exact hok
  have hlen : f.base.digital.pairs.length = n := by rw [hf.digital.2, Cls.maxDigital_eq, hm]; omega
  have hlen' : (PoleFilter.initBase d.cls (n + 1) : PFB R).digital.pairs.length = n + 1 := by
    rw [hf'.digital.2, Cls.maxDigital_eq, hm]; omega
  rw [PoleFilter.baseSetup_apply, PFB.baseSetup_proto]
  rw [PFB.baseSetup_proto] at e0
  have hk : builtPoles ((n + 1 : ℕ) : ℤ) = n + 1 := by
    unfold builtPoles; rw [if_neg (by omega)]; omega
  revert hp e0
  rcases d.proto (n + 1 : ℕ) f.base.analog with ⟨r, a⟩
  rcases d.proto (n + 1 : ℕ) (PoleFilter.initBase d.cls (n + 1)).analog with ⟨r', a'⟩
  rintro ⟨h1, h2⟩ e0
  dsimp only at h1 h2
  subst h1
  cases r
  · have hs := h2 rfl
    rw [hk] at hs
    simp only [PFB.rest_apply] at e0 ⊢
    have et : d.trans a'.lay = d.trans a.lay := (d.trans_congr hs).symm
    rw [et] at e0
    have e1 : (d.trans a.lay (PoleFilter.initBase d.cls (n + 1) : PFB R).digital).1 = .ok () := by
      revert e0
      rcases d.trans a.lay (PoleFilter.initBase d.cls (n + 1) : PFB R).digital with ⟨_ | _ | _, l⟩ <;> intro e0
      · rfl
      · exact absurd e0 (by simp)
      · exact absurd e0 (by simp)
    have e2 := LessRoom.trans d a.lay { f.base.digital with numPoles := 0 }
      { (PoleFilter.initBase d.cls (n + 1) : PFB R).digital with numPoles := 0 } ⟨rfl, by
        show f.base.digital.pairs.length ≤ (PoleFilter.initBase d.cls (n + 1) : PFB R).digital.pairs.length
        omega⟩
    rw [d.trans_reset a.lay f.base.digital 0,
      d.trans_reset a.lay (PoleFilter.initBase d.cls (n + 1) : PFB R).digital 0] at e2
    have e3 : (d.trans a.lay f.base.digital).1 = .ub .outOfBounds := by
      rcases e2 with e2 | ⟨e2, -⟩
      · exact e2
      · exfalso
        have := d.ifOk_trans hm a.lay f.base.digital hlen
        rw [e1] at e2
        revert this e2
        rcases d.trans a.lay f.base.digital with ⟨_ | _ | _, l⟩ <;> intro e2 this
        · have h3 := this.2.2
          rw [hs.veq.left.1] at h3
          omega
        · exact absurd e2 (by simp)
        · exact absurd e2 (by simp)
    revert e3
    rcases d.trans a.lay f.base.digital with ⟨r, l⟩
    rintro rfl
    rfl
  · exact absurd e0 (by simp)
  · exact absurd e0 (by simp)

/-! ## C75: `CascadeStages::setup` -/

/-- **C75** (any arithmetic).  `CascadeStages::setup (sos)` on a pole filter: it has the same result, and from then on
`filter` gives the same outputs, as on an `SOSCascade` that starts with the same sections and delay lines. -/
theorem C75_filters_like_sos (rows : List (CascadeStages.SosRow R)) (f : PoleFilter S R) (xs : List T) :
    let g : Custom.SOS S R := ⟨f.base.cascade.stages, f.states⟩
    (PoleFilter.sosSetup rows f).1 = (Custom.SOS.setup rows g).1 ∧
      (feed PoleFilter.filter xs (PoleFilter.sosSetup rows f).2).1 =
        (feed Custom.SOS.filter xs (Custom.SOS.setup rows g).2).1 := by
  refine ⟨rfl, ?_⟩
  have key : ∀ (xs : List T) (f : PoleFilter S R) (g : Custom.SOS S R), f.base.cascade.stages = g.stages →
      f.states = g.states → (feed PoleFilter.filter xs f).1 = (feed Custom.SOS.filter xs g).1 := by
    intro xs
    induction xs with
    | nil => intro f g _ _; rfl
    | cons x xs ih =>
      intro f g h1 h2
      obtain ⟨fb, fs⟩ := f
      obtain ⟨gb, gs⟩ := g
      simp only at h1 h2
      subst h1 h2
      simp only [feed, bind_def]
      have e1 : PoleFilter.filter x (⟨fb, fs⟩ : PoleFilter S R) =
          ((CascadeStages.filter fb.cascade.stages x fs).1,
            ⟨fb, (CascadeStages.filter fb.cascade.stages x fs).2⟩) := rfl
      have e2 : Custom.SOS.filter x (⟨fb.cascade.stages, fs⟩ : Custom.SOS S R) =
          ((CascadeStages.filter fb.cascade.stages x fs).1,
            ⟨fb.cascade.stages, (CascadeStages.filter fb.cascade.stages x fs).2⟩) := rfl
      rw [e1, e2]
      rcases CascadeStages.filter fb.cascade.stages x fs with ⟨_ | _ | _, ss⟩
      · have := ih ⟨fb, ss⟩ ⟨fb.cascade.stages, ss⟩ rfl rfl
        revert this
        simp only
        rcases feed PoleFilter.filter xs (⟨fb, ss⟩ : PoleFilter S R) with ⟨r, f1⟩
        rcases feed Custom.SOS.filter xs (⟨fb.cascade.stages, ss⟩ : Custom.SOS S R) with ⟨r', g1⟩
        rintro rfl
        cases r <;> rfl
      · rfl
      · rfl
  exact key xs _ _ rfl rfl

/-- **C75** (any arithmetic).  It changes neither the number of sections nor the poles and zeros that the object
reports. -/
theorem C75_reports_stay (rows : List (CascadeStages.SosRow R)) (f : PoleFilter S R) :
    (PoleFilter.sosSetup rows f).2.getNumStages = f.getNumStages ∧
      (PoleFilter.sosSetup rows f).2.getPoleZeros = f.getPoleZeros ∧
      (PoleFilter.sosSetup rows f).2.states = f.states := ⟨rfl, rfl, rfl⟩

end Iir
