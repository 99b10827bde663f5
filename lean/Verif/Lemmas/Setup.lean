import Verif.Lemmas.Bounds
import Verif.Spec.Client

/-! # Common form of the 21 `setup` members, and their array bounds -/

set_option linter.unusedSectionVars false

namespace Iir
open FArith Cx Exec PFB

variable {R : Type} [FArith R]

/-! ## Common form -/

/-- The cache test of `design`. -/
def Design.stale (o : Int) : Design R → Proto R → Bool
  | .bwLowPass _ | .bwHighPass _ | .bwBandPass _ _ | .bwBandStop _ _ => fun s => s.numPoles != o
  | .bwLowShelf _ g | .bwHighShelf _ g | .bwBandShelf _ _ g =>
    fun s => s.numPoles != o || fne s.gainDb g
  | .c1LowPass _ r | .c1HighPass _ r | .c1BandPass _ _ r | .c1BandStop _ _ r
  | .c2LowPass _ r | .c2HighPass _ r | .c2BandPass _ _ r | .c2BandStop _ _ r =>
    fun s => s.numPoles != o || fne s.rippleDb r
  | .c1LowShelf _ g r | .c1HighShelf _ g r | .c1BandShelf _ _ g r
  | .c2LowShelf _ g r | .c2HighShelf _ g r | .c2BandShelf _ _ g r =>
    fun s => s.numPoles != o || fne s.rippleDb r || fne s.gainDb g

/-- Storing the arguments of the design. -/
def Design.setKey (o : Int) : Design R → Proto R → Proto R
  | .bwLowPass _ | .bwHighPass _ | .bwBandPass _ _ | .bwBandStop _ _ =>
    fun s => { s with numPoles := o }
  | .bwLowShelf _ g | .bwHighShelf _ g | .bwBandShelf _ _ g =>
    fun s => { s with numPoles := o, gainDb := g }
  | .c1LowPass _ r | .c1HighPass _ r | .c1BandPass _ _ r | .c1BandStop _ _ r
  | .c2LowPass _ r | .c2HighPass _ r | .c2BandPass _ _ r | .c2BandStop _ _ r =>
    fun s => { s with numPoles := o, rippleDb := r }
  | .c1LowShelf _ g r | .c1HighShelf _ g r | .c1BandShelf _ _ g r
  | .c2LowShelf _ g r | .c2HighShelf _ g r | .c2BandShelf _ _ g r =>
    fun s => { s with numPoles := o, rippleDb := r, gainDb := g }

/-- Construction of the analog prototype. -/
def Design.build (o : Int) : Design R → Exec (Layout R) Unit
  | .bwLowPass _ | .bwHighPass _ | .bwBandPass _ _ | .bwBandStop _ _ => Butterworth.lowPassBuild o
  | .bwLowShelf _ g | .bwHighShelf _ g | .bwBandShelf _ _ g => Butterworth.lowShelfBuild o g
  | .c1LowPass _ r | .c1HighPass _ r | .c1BandPass _ _ r | .c1BandStop _ _ r =>
    ChebyshevI.lowPassBuild o r
  | .c1LowShelf _ g r | .c1HighShelf _ g r | .c1BandShelf _ _ g r => ChebyshevI.lowShelfBuild o g r
  | .c2LowPass _ r | .c2HighPass _ r | .c2BandPass _ _ r | .c2BandStop _ _ r =>
    ChebyshevII.lowPassBuild o r
  | .c2LowShelf _ g r | .c2HighShelf _ g r | .c2BandShelf _ _ g r =>
    ChebyshevII.lowShelfBuild o g r

/-- Band shelves: band pass transform and normalisation in one step. -/
def bandShelfTransform (fc fw : R) (a : Layout R) : Exec (Layout R) Unit := do
  bandPassTransform fc fw a
  Layout.setNormal (if flt fc 0.25 then pi else 0) 1

/-- The transform to the digital layout. -/
def Design.trans : Design R → Layout R → Exec (Layout R) Unit
  | .bwLowPass fc | .bwLowShelf fc _ | .c1LowPass fc _ | .c1LowShelf fc _ _ | .c2LowPass fc _
  | .c2LowShelf fc _ _ => lowPassTransform fc
  | .bwHighPass fc | .bwHighShelf fc _ | .c1HighPass fc _ | .c1HighShelf fc _ _ | .c2HighPass fc _
  | .c2HighShelf fc _ _ => highPassTransform fc
  | .bwBandPass fc fw | .c1BandPass fc fw _ | .c2BandPass fc fw _ => bandPassTransform fc fw
  | .bwBandStop fc fw | .c1BandStop fc fw _ | .c2BandStop fc fw _ => bandStopTransform fc fw
  | .bwBandShelf fc fw _ | .c1BandShelf fc fw _ _ | .c2BandShelf fc fw _ _ =>
    bandShelfTransform fc fw

theorem designBandShelf_eq (design : Exec (Proto R) Unit) (fc fw : R) :
    designBandShelf design (bandPassTransform fc fw) fc =
      designWith design (bandShelfTransform fc fw) := by
  funext s
  simp only [designBandShelf, designWith, bandShelfTransform, bind_def, onDigital, onAnalog,
    onCascade, Exec.zoom, get_def]
  rcases design s.analog with ⟨r, a⟩
  cases r <;> try rfl
  simp only
  rcases bandPassTransform fc fw a.lay s.digital with ⟨r, d⟩
  cases r <;> rfl

/-- All 21 `setup` members have the same form. -/
theorem Design.baseSetup_eq (o : Int) (d : Design R) :
    d.baseSetup o = designWith (Proto.cached (d.stale o) (d.setKey o) (d.build o)) d.trans := by
  cases d <;> first | rfl | exact designBandShelf_eq _ _ _

/-- 2 for band filters, 1 for the others. -/
def Cls.mult : Cls → Nat
  | .bwBandPass | .bwBandStop | .bwBandShelf
  | .c1BandPass | .c1BandStop | .c1BandShelf
  | .c2BandPass | .c2BandStop | .c2BandShelf => 2
  | _ => 1

theorem Cls.maxDigital_eq (c : Cls) (n : Nat) : c.maxDigital n = n * c.mult := by
  cases c <;> simp [Cls.maxDigital, Cls.mult]

theorem Spec.PolarModulus.one (o : Int) (d : Design R) : Spec.PolarModulus o d 1 := by
  cases d <;> simp [Spec.PolarModulus]

theorem Design.good_build {n : Nat} {o : Int} (hn1 : 1 ≤ n) (hn : n < 1073741824) (ho : o ≤ n) :
    (d : Design R) → GoodBuild (Spec.PolarModulus o d) n o (d.build o)
  | .bwLowPass _ | .bwHighPass _ | .bwBandPass _ _ | .bwBandStop _ _ =>
    Butterworth.good_lowPass hn1 hn ho
  | .bwLowShelf _ g | .bwHighShelf _ g | .bwBandShelf _ _ g => Butterworth.good_lowShelf hn1 hn ho g
  | .c1LowPass _ r | .c1HighPass _ r | .c1BandPass _ _ r | .c1BandStop _ _ r =>
    ChebyshevI.good_lowPass hn1 hn ho r
  | .c1LowShelf _ g r | .c1HighShelf _ g r | .c1BandShelf _ _ g r =>
    ChebyshevI.good_lowShelf hn1 hn ho g r
  | .c2LowPass _ r | .c2HighPass _ r | .c2BandPass _ _ r | .c2BandStop _ _ r =>
    ChebyshevII.good_lowPass hn1 hn ho r
  | .c2LowShelf _ g r | .c2HighShelf _ g r | .c2BandShelf _ _ g r =>
    ChebyshevII.good_lowShelf hn1 hn ho g r

theorem trip_bandShelfTransform {U : UB → Prop} {fc fw : R} {a : Layout R} {N L : Nat}
    (ha : a.AtMost N ((N + 1) / 2)) (hL : N ≤ L) :
    Trip (Layout.AtMost (N * 2) L) (bandShelfTransform fc fw a)
      (fun _ => Layout.Has (a.numPoles * 2) L) (fun _ => Layout.AtMost (N * 2) L) U :=
  Trip.bind (trip_bandPassTransform ha hL) fun _ => Layout.trip_setNormal

theorem Design.trip_trans {U : UB → Prop} {n L : Nat} {a : Layout R}
    (ha : a.AtMost n ((n + 1) / 2)) : (d : Design R) → (hL : (d.cls.maxDigital n + 1) / 2 ≤ L) →
    Trip (Layout.AtMost (d.cls.maxDigital n) L) (d.trans a)
      (fun _ => Layout.Has (a.numPoles * d.cls.mult) L)
      (fun _ => Layout.AtMost (d.cls.maxDigital n) L) U
  | .bwLowPass _, hL | .bwLowShelf _ _, hL | .c1LowPass _ _, hL | .c1LowShelf _ _ _, hL
  | .c2LowPass _ _, hL | .c2LowShelf _ _ _, hL => by
    simp only [Design.cls, Cls.mult, Nat.mul_one]
    exact trip_lowPassTransform ha hL
  | .bwHighPass _, hL | .bwHighShelf _ _, hL | .c1HighPass _ _, hL | .c1HighShelf _ _ _, hL
  | .c2HighPass _ _, hL | .c2HighShelf _ _ _, hL => by
    simp only [Design.cls, Cls.mult, Nat.mul_one]
    exact trip_highPassTransform ha hL
  | .bwBandPass _ _, hL | .c1BandPass _ _ _, hL | .c2BandPass _ _ _, hL =>
    trip_bandPassTransform ha (by simp only [Design.cls, Cls.maxDigital] at hL; omega)
  | .bwBandStop _ _, hL | .c1BandStop _ _ _, hL | .c2BandStop _ _ _, hL =>
    trip_bandStopTransform ha (by simp only [Design.cls, Cls.maxDigital] at hL; omega)
  | .bwBandShelf _ _ _, hL | .c1BandShelf _ _ _ _, hL | .c2BandShelf _ _ _ _, hL =>
    trip_bandShelfTransform ha (by simp only [Design.cls, Cls.maxDigital] at hL; omega)

/-! ## Bounds of `Cascade::setLayout` -/

/-- Array of `M` stages with at most `M` in use. -/
structure Cascade.Ok (M : Nat) (c : Cascade R) : Prop where
  maxStages : c.maxStages = M
  length : c.stages.length = M
  num : c.numStages ≤ M

/-- with exactly `k` in use -/
structure Cascade.OkAt (M k : Nat) (c : Cascade R) : Prop where
  maxStages : c.maxStages = M
  length : c.stages.length = M
  num : c.numStages = k

theorem Biquad.setCoefficients_not_ub (a0 a1 a2 b0 b1 b2 : R) (s : Biquad R) (u : UB) :
    (Biquad.setCoefficients a0 a1 a2 b0 b1 b2 s).1 ≠ .ub u := by
  unfold Biquad.setCoefficients
  simp only [bind_def]
  cases FArith.isNan a0 <;> simp
  cases FArith.isNan a1 <;> simp
  cases FArith.isNan a2 <;> simp
  cases FArith.isNan b0 <;> simp
  cases FArith.isNan b1 <;> simp
  cases FArith.isNan b2 <;> simp

theorem Biquad.setOnePole_not_ub (p z : Cx R) (s : Biquad R) (u : UB) :
    (Biquad.setOnePole p z s).1 ≠ .ub u := by
  unfold Biquad.setOnePole
  simp only [bind_def]
  cases fne p.im 0 <;> simp
  cases fne z.im 0 <;> simp [Biquad.setCoefficients_not_ub]

theorem Biquad.pairCoeffs_not_ub (e : Err) (p z : Cx R) (u : UB) :
    Biquad.pairCoeffs e p z ≠ .ub u := by
  unfold Biquad.pairCoeffs
  split_ifs <;> simp

theorem Biquad.setTwoPole_not_ub (p1 z1 p2 z2 : Cx R) (s : Biquad R) (u : UB) :
    (Biquad.setTwoPole p1 z1 p2 z2 s).1 ≠ .ub u := by
  unfold Biquad.setTwoPole
  simp only [bind_def, lift_def]
  have h1 := Biquad.pairCoeffs_not_ub .twoPolePoles p1 p2
  have h2 := Biquad.pairCoeffs_not_ub .twoPoleZeros z1 z2
  revert h1 h2
  cases Biquad.pairCoeffs .twoPolePoles p1 p2 <;> simp
  cases Biquad.pairCoeffs .twoPoleZeros z1 z2 <;> simp [Biquad.setCoefficients_not_ub]

theorem Biquad.setPoleZeroPair_not_ub (pr : PoleZeroPair R) (s : Biquad R) (u : UB) :
    (Biquad.setPoleZeroPair pr s).1 ≠ .ub u := by
  unfold Biquad.setPoleZeroPair
  split_ifs
  · exact Biquad.setOnePole_not_ub _ _ _ _
  · exact Biquad.setTwoPole_not_ub _ _ _ _ _ _

theorem Cascade.trip_onStage {U : UB → Prop} {M k i : Nat} (hi : i < M)
    {m : Exec (Biquad R) Unit} (hm : ∀ b u, (m b).1 ≠ .ub u) :
    Trip (Cascade.OkAt M k) (Cascade.onStage i m) (fun _ => Cascade.OkAt M k)
      (fun _ => Cascade.OkAt M k) U := by
  intro c hc
  have : i < c.stages.length := hc.length ▸ hi
  unfold Cascade.onStage
  rw [List.getElem?_eq_getElem this]
  simp only
  have hb := hm c.stages[i]
  have hok : Cascade.OkAt M k { c with stages := c.stages.set i (m c.stages[i]).2 } :=
    ⟨hc.maxStages, by simpa using hc.length, hc.num⟩
  revert hb hok
  rcases m c.stages[i] with ⟨r, b⟩
  intro hb hok
  cases r
  · exact hok
  · exact hok
  · exact (hb _ rfl).elim

theorem Cascade.stageAt_ok {c : Cascade R} {i : Nat} (h : i < c.stages.length) :
    c.stageAt i = .ok c.stages[i] := by
  simp [Cascade.stageAt, h]

theorem Cascade.respLoop_ok {c : Cascade R} (z1 z2 : Cx R) {k : Nat} (h : k ≤ c.stages.length) :
    ∃ r, c.respLoop z1 z2 k = .ok r := by
  induction k with
  | zero => exact ⟨_, rfl⟩
  | succ k ih =>
    obtain ⟨r, hr⟩ := ih (by omega)
    refine ⟨(cmul r.1 (c.stages[k].respTop z1 z2), cmul r.2 (c.stages[k].respBot z1 z2)), ?_⟩
    simp only [Cascade.respLoop, Bind.bind, Res.bind, hr]
    rw [Cascade.stageAt_ok (by omega)]
    rfl

theorem Cascade.response_ub {c : Cascade R} {M : Nat} (h : Cascade.Ok M c) (nf : R) (u : UB)
    (hu : c.response nf = .ub u) :
    u = .polarPrecondition ∧ ∃ theta : R, FArith.polar 1 theta = none := by
  unfold Cascade.response at hu
  split_ifs at hu
  unfold polarC at hu
  cases h1 : FArith.polar (1 : R) (-(2 * pi * nf)) with
  | none =>
    simp only [h1, Bind.bind, Res.bind, Res.ub.injEq] at hu
    exact ⟨hu.symm, _, h1⟩
  | some z1 =>
    simp only [h1, Bind.bind, Res.bind] at hu
    cases h2 : FArith.polar (1 : R) (-2 * (2 * pi * nf)) with
    | none =>
      simp only [h2, Res.ub.injEq] at hu
      exact ⟨hu.symm, _, h2⟩
    | some z2 =>
      simp only [h2] at hu
      obtain ⟨r, hr⟩ := Cascade.respLoop_ok z1 z2 (c := c) (k := c.numStages)
        (by rw [h.length]; exact h.num)
      simp [hr, pure] at hu

theorem Biquad.applyScale_not_ub (k : R) (b : Biquad R) (u : UB) :
    (Biquad.applyScale k b).1 ≠ .ub u := by simp [Biquad.applyScale]

theorem Cascade.trip_applyScale {U : UB → Prop} {M k : Nat} (hk : k ≤ M) (x : R) :
    Trip (Cascade.OkAt M k) (Cascade.applyScale x) (fun _ => Cascade.OkAt M k)
      (fun _ => Cascade.OkAt M k) U := by
  unfold Cascade.applyScale
  refine Trip.bind (Q := fun c0 c => c0.OkAt M k ∧ c.OkAt M k) (Trip.get fun _ h => ⟨h, h⟩)
    fun c0 => ?_
  by_cases h0 : c0.OkAt M k
  swap
  · exact fun s hs => (h0 hs.1).elim
  refine Trip.pre (P := Cascade.OkAt M k) ?_ fun _ h => h.2
  split_ifs with h1
  · exact Trip.pure fun _ h => h
  · rw [h0.num] at h1
    exact Cascade.trip_onStage (by omega) (Biquad.applyScale_not_ub x)

theorem Cascade.trip_setLayout {A : R → Prop} (hA : A 1) {o : Int} {M N : Nat} {l : Layout R} (hl : l.AtMost N ((N + 1) / 2))
    (hM : (N + 1) / 2 = M) :
    Trip (Cascade.Ok M) (Cascade.setLayout l) (fun _ => Cascade.OkAt M ((l.numPoles + 1) / 2))
      (fun _ => Cascade.OkAt M ((l.numPoles + 1) / 2)) (DesignUB A o) := by
  have hk : (l.numPoles + 1) / 2 ≤ M := by have := hl.1; omega
  unfold Cascade.setLayout
  refine Trip.bind (Q := fun _ => Cascade.OkAt M ((l.numPoles + 1) / 2))
    (Trip.modify fun c h => ⟨h.maxStages, h.length, rfl⟩) fun _ => ?_
  refine Trip.bind (Q := fun c0 c => c0.OkAt M ((l.numPoles + 1) / 2) ∧
    c.OkAt M ((l.numPoles + 1) / 2)) (Trip.get fun _ h => ⟨h, h⟩) fun c0 => ?_
  by_cases h0 : c0.OkAt M ((l.numPoles + 1) / 2)
  swap
  · exact fun s hs => (h0 hs.1).elim
  refine Trip.pre (P := Cascade.OkAt M ((l.numPoles + 1) / 2)) ?_ fun _ h => h.2
  refine Trip.bind (Trip.throwIf (Q := fun _ => Cascade.OkAt M ((l.numPoles + 1) / 2))
    (fun _ h _ => h) fun _ h _ => h) fun _ => ?_
  refine Trip.bind (Q := fun _ => Cascade.OkAt M ((l.numPoles + 1) / 2)) ?_ fun _ => ?_
  · refine Trip.loop (I := fun _ => Cascade.OkAt M ((l.numPoles + 1) / 2)) _ fun i hi => ?_
    rw [h0.maxStages] at hi
    exact Cascade.trip_onStage hi fun b u => Biquad.setCoefficients_not_ub _ _ _ _ _ _ _ _
  refine Trip.bind (Q := fun _ => Cascade.OkAt M ((l.numPoles + 1) / 2)) ?_ fun _ => ?_
  · refine Trip.loop (I := fun _ => Cascade.OkAt M ((l.numPoles + 1) / 2)) _ fun i hi => ?_
    obtain ⟨pr, hpr, _⟩ := Layout.getPair_ok hl hi
    refine Trip.bind (Trip.lift_ok hpr) fun pr' => ?_
    exact (Cascade.trip_onStage (by omega) fun b u =>
      Biquad.setPoleZeroPair_not_ub _ _ _).pre fun _ h => h.2
  refine Trip.bind (Q := fun c0 c => c0.OkAt M ((l.numPoles + 1) / 2) ∧
    c.OkAt M ((l.numPoles + 1) / 2)) (Trip.get fun _ h => ⟨h, h⟩) fun c1 => ?_
  by_cases h1 : c1.OkAt M ((l.numPoles + 1) / 2)
  swap
  · exact fun s hs => (h1 hs.1).elim
  refine Trip.pre (P := Cascade.OkAt M ((l.numPoles + 1) / 2)) ?_ fun _ h => h.2
  refine Trip.bind (Q := fun _ => Cascade.OkAt M ((l.numPoles + 1) / 2))
    (Trip.lift fun c hc => ?_) fun h => Cascade.trip_applyScale hk _
  cases hr : c1.response (l.normalW / (2 * pi)) with
  | ok a => exact hc
  | throw e => exact hc
  | ub u =>
    obtain ⟨e, theta, h⟩ := Cascade.response_ub ⟨h1.maxStages, h1.length, h1.num ▸ hk⟩ _ _ hr
    exact .inl ⟨e, 1, theta, hA, h⟩

/-! ## Whole object -/

/-- The array bounds of an object of class `c` with template order `n`. -/
structure PFB.Ok (c : Cls) (n : Nat) (p : PFB R) : Prop where
  cascade : p.cascade.Ok (PoleFilter.numStages c n)
  digital : p.digital.AtMost (c.maxDigital n) ((c.maxDigital n + 1) / 2)
  analog : p.analog.lay.AtMost n ((n + 1) / 2)

theorem Cls.proto_numPoles (c : Cls) : (c.protoInit : Proto R).lay.numPoles = 0 := by
  cases c <;> rfl

theorem PFB.ok_init (c : Cls) (n : Nat) : PFB.Ok c n (PoleFilter.initBase c n : PFB R) where
  cascade := ⟨rfl, by simp [PoleFilter.initBase, CascadeStages.initStages], by
    simp [PoleFilter.initBase]⟩
  digital := ⟨by simp [PoleFilter.initBase, Layout.storage], by
    simp [PoleFilter.initBase, Layout.storage]⟩
  analog := ⟨by simp [PoleFilter.initBase, Layout.setStorage], by
    simp [PoleFilter.initBase, Layout.setStorage, Layout.storage]⟩

theorem Proto.trip_cached {A : R → Prop} {n : Nat} {o : Int} {stale : Proto R → Bool} {setKey : Proto R → Proto R}
    {build : Exec (Layout R) Unit} (hb : GoodBuild A n o build) (hk : ∀ s, (setKey s).lay = s.lay)
    (ho : builtPoles o ≤ n) :
    Trip (fun s => s.lay.AtMost n ((n + 1) / 2)) (Proto.cached stale setKey build)
      (fun _ s => s.lay.AtMost n ((n + 1) / 2)) (fun _ s => s.lay.AtMost n ((n + 1) / 2))
      (DesignUB A o) := by
  unfold Proto.cached
  refine Trip.bind (Q := fun _ s => s.lay.AtMost n ((n + 1) / 2)) (Trip.get fun _ h => h) fun s0 => ?_
  split_ifs
  · refine Trip.bind (Q := fun _ s => s.lay.AtMost n ((n + 1) / 2))
      (Trip.modify fun s h => by rw [hk]; exact h) fun _ => ?_
    exact Trip.zoom hb (fun s h => h) (fun s _ l _ h => h.atMost ho) fun s _ l _ h => h
  · exact Trip.pure fun _ h => h

theorem Design.setKey_lay (o : Int) (d : Design R) (s : Proto R) :
    (d.setKey o s).lay = s.lay := by cases d <;> rfl

theorem PFB.trip_baseSetup {n : Nat} {o : Int} (hn1 : 1 ≤ n) (hn : n < 1073741824) (ho : o ≤ n)
    (d : Design R) :
    Trip (PFB.Ok d.cls n) (d.baseSetup o) (fun _ => PFB.Ok d.cls n) (fun _ => PFB.Ok d.cls n)
      (DesignUB (Spec.PolarModulus o d) o) := by
  rw [Design.baseSetup_eq]
  unfold PFB.designWith
  refine Trip.bind (Trip.zoom (Proto.trip_cached (d.good_build hn1 hn ho) (d.setKey_lay o)
    (builtPoles_le ho hn1)) (P' := PFB.Ok d.cls n) (Q' := fun _ => PFB.Ok d.cls n)
    (fun s h => h.analog) (fun s _ t h ht => ⟨h.cascade, h.digital, ht⟩)
    (fun s _ t h ht => ⟨h.cascade, h.digital, ht⟩)) fun _ => ?_
  refine Trip.bind (Q := fun s0 s => s0.Ok d.cls n ∧ s.Ok d.cls n) (Trip.get fun _ h => ⟨h, h⟩)
    fun s0 => ?_
  by_cases h0 : s0.Ok d.cls n
  swap
  · exact fun s hs => (h0 hs.1).elim
  refine Trip.pre (P := PFB.Ok d.cls n) ?_ fun _ h => h.2
  refine Trip.bind (Q := fun _ => PFB.Ok d.cls n) (Trip.zoom (d.trip_trans h0.analog (Nat.le_refl _))
    (fun s h => h.digital)
    (fun s _ t h ht => ⟨h.cascade, ht.atMost ?_, h.analog⟩)
    (fun s _ t h ht => ⟨h.cascade, ht, h.analog⟩)) fun _ => ?_
  · rw [Cls.maxDigital_eq]; exact Nat.mul_le_mul_right _ h0.analog.1
  refine Trip.bind (Q := fun s0 s => s0.Ok d.cls n ∧ s.Ok d.cls n) (Trip.get fun _ h => ⟨h, h⟩)
    fun s1 => ?_
  by_cases h1 : s1.Ok d.cls n
  swap
  · exact fun s hs => (h1 hs.1).elim
  refine Trip.pre (P := PFB.Ok d.cls n) ?_ fun _ h => h.2
  have hle : (s1.digital.numPoles + 1) / 2 ≤ PoleFilter.numStages d.cls n := by
    have := h1.digital.1
    unfold PoleFilter.numStages; omega
  exact Trip.zoom (Cascade.trip_setLayout (.one o d) h1.digital rfl) (fun s h => h.cascade)
    (fun s _ t h ht => ⟨⟨ht.maxStages, ht.length, ht.num ▸ hle⟩, h.digital, h.analog⟩)
    (fun s _ t h ht => ⟨⟨ht.maxStages, ht.length, ht.num ▸ hle⟩, h.digital, h.analog⟩)

/-- `overFs` divides the frequency arguments by the sampling rate. -/
theorem Design.overFs_eq (fs : R) (d : Design R) : d.overFs fs = Spec.mapFreq (· / fs) d := by
  cases d <;> rfl

theorem Design.mapFreq_cls (h : R → R) (d : Design R) : (Spec.mapFreq h d).cls = d.cls := by
  cases d <;> rfl

theorem Design.overFs_cls (fs : R) (d : Design R) : (d.overFs fs).cls = d.cls := by
  cases d <;> rfl

theorem Spec.PolarModulus.overFs (o : Int) (fs : R) (d : Design R) :
    Spec.PolarModulus o (d.overFs fs) = Spec.PolarModulus o d := by
  cases d <;> rfl

theorem Call.trip_run {n : Nat} (hn1 : 1 ≤ n) (hn : n < 1073741824) (call : Call R) :
    Trip (PFB.Ok call.design.cls n) (call.run n) (fun _ => PFB.Ok call.design.cls n)
      (fun _ => PFB.Ok call.design.cls n) (DesignUB (Spec.PolarModulus (call.order n) call.design) (call.order n)) := by
  cases call with
  | setup fs d =>
    have := PFB.trip_baseSetup (o := n) hn1 hn (Int.le_refl _) (d.overFs fs)
    rwa [Design.overFs_cls, Spec.PolarModulus.overFs] at this
  | setupN d => exact PFB.trip_baseSetup (o := n) hn1 hn (Int.le_refl _) d
  | setupReq o fs d =>
    unfold Call.run
    by_cases ho : o > (n : Int)
    · refine Trip.bind (Q := fun _ _ => False) (Trip.throwIf (fun s h _ => h) fun s h hb => ?_)
        fun _ s h => h.elim
      simp [ho] at hb
    · have := PFB.trip_baseSetup (o := o) hn1 hn (by omega) (d.overFs fs)
      rw [Design.overFs_cls, Spec.PolarModulus.overFs] at this
      exact Trip.bind (Trip.throwIf (fun s h _ => h) fun s h _ => h) fun _ => this
  | setupNReq o d =>
    unfold Call.run
    by_cases ho : o > (n : Int)
    · refine Trip.bind (Q := fun _ _ => False) (Trip.throwIf (fun s h _ => h) fun s h hb => ?_)
        fun _ s h => h.elim
      simp [ho] at hb
    · have := PFB.trip_baseSetup (o := o) hn1 hn (by omega) d
      exact Trip.bind (Trip.throwIf (fun s h _ => h) fun s h _ => h) fun _ => this

end Iir
