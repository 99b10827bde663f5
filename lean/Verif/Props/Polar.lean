import Verif.Props.Setup
import Verif.Exact.XR

/-! # C63: the calls of `std::polar`

The C++ standard leaves `std::polar (rho, theta)` undefined when `rho` is negative or NaN; libstdc++ tests
`rho >= 0` when its assertions are enabled.  Every call in the library passes 1 except that of the Butterworth shelf
prototype, which passes `-1/G` and `-G`, and that of `Custom::TwoPole`, which passes on what the user gave. -/

namespace Iir
open FArith Spec

section
variable {R : Type} [FArith R] {S : Type → Type} [StateType S R] {T : Type} [Sample T R]

/-- The designs of the three Butterworth shelf classes. -/
def Spec.ButterworthShelf : Design R → Prop
  | .bwLowShelf .. | .bwHighShelf .. | .bwBandShelf .. => True
  | _ => False

/-- The gain in dB that a Butterworth shelf is set up with (0 for the other classes). -/
def Spec.shelfGainDb : Design R → R
  | .bwLowShelf _ g | .bwHighShelf _ g | .bwBandShelf _ _ g => g
  | _ => 0

/-- **C63**, the part that holds: in any arithmetic whose `std::polar` is defined for modulus 1, a `setup` of any
object of any class violates the precondition only as a Butterworth shelf of order 2 or more. -/
theorem C63_setup_partial (hone : ∀ theta : R, polar 1 theta ≠ none) {c : Cls} {n : Nat} (hn1 : 1 ≤ n)
    (hn : n < 2 ^ 30) {f : PoleFilter S R} (h : Reach S T c n f) (call : Call R) (hc : call.design.cls = c)
    (hu : (PoleFilter.setup n call f).1 = .ub .polarPrecondition) :
    ButterworthShelf call.design ∧ 2 ≤ call.order n := by
  rcases C16_setup_in_bounds hn1 hn h call hc _ hu with ⟨_, rho, theta, h1, h2⟩ | ⟨h1, _⟩
  · rcases hd : call.design <;> rw [hd] at h1 <;> simp only [PolarModulus] at h1 <;>
      first
        | (subst h1; exact (hone _ h2).elim)
        | (rcases h1 with rfl | h1
           · exact (hone _ h2).elim
           · exact ⟨trivial, h1.1⟩)
  · cases h1

/-- **C63** for the queries: `response` passes modulus 1 only. -/
theorem C63_response (hone : ∀ theta : R, polar 1 theta ≠ none) {c : Cls} {n : Nat} (hn1 : 1 ≤ n)
    (hn : n < 2 ^ 30) {f : PoleFilter S R} (h : Reach S T c n f) (nf : R) :
    f.response nf ≠ .ub .polarPrecondition := fun hr =>
  let ⟨_, theta, h1⟩ := (C16_queries_in_bounds hn1 hn h .polarPrecondition).2.2 nf hr
  hone theta h1

theorem Exec.bind_ub {σ α β : Type} {u : UB} {m : Exec σ α} {f : α → Exec σ β} {s : σ}
    (h : (m s).1 = .ub u) : ((m >>= f) s).1 = .ub u := by
  rw [Exec.bind_def]
  revert h
  rcases m s with ⟨_ | _ | _, s'⟩ <;> intro h <;> simp_all

theorem Exec.loop_ub {σ : Type} {u : UB} {body : Nat → Exec σ Unit} (h : ∀ s, (body 0 s).1 = .ub u) :
    ∀ (n : Nat) (s : σ), 0 < n → (Exec.loop n body s).1 = .ub u
  | 0, _, hn => absurd hn (lt_irrefl _)
  | 1, s, _ => h s
  | n + 2, s, _ => Exec.bind_ub (Exec.loop_ub h (n + 1) s (Nat.succ_pos n))

theorem Butterworth.lowShelfBuild_ub {o : Int} {g : R} (ho : 2 ≤ o) (ho2 : o < 2 ^ 30)
    (hp : ∀ rho theta : R, rho = -1 / pow (pow 10 (g / 20)) (1 / ofInt (o * 2)) → polar rho theta = none)
    (l : Layout R) : (Butterworth.lowShelfBuild o g l).1 = .ub .polarPrecondition := by
  have h1 : (-2147483648 : Int) ≤ o * 2 ∧ o * 2 ≤ 2147483647 := by constructor <;> omega
  have h2 : 0 < (o.tdiv 2).toNat := by
    rw [Int.tdiv_eq_ediv_of_nonneg (by omega)]; omega
  simp only [Butterworth.lowShelfBuild, Layout.reset, Exec.modify, intChecked, if_pos h1, Exec.bind_def,
    Exec.pure, Proto.ofI]
  have h3 := Exec.loop_ub (σ := Layout R) (u := .polarPrecondition) (body := fun j => (do
    let p ← Exec.lift (polarC (-1 / pow (pow 10 (g / 20)) (1 / ofInt (o * 2)) : R)
      (pi * (0.5 - ofInt (2 * ((j : Int) + 1) - 1) / ofInt (o * 2))))
    let z ← Exec.lift (polarC (-pow (pow 10 (g / 20)) (1 / ofInt (o * 2)))
      (pi * (0.5 - ofInt (2 * ((j : Int) + 1) - 1) / ofInt (o * 2))))
    Layout.addPoleZeroConjugatePairs p z)) (fun s => by
      refine Exec.bind_ub ?_
      simp [polarC, hp _ _ rfl, Exec.lift, Exec.undefined]) _ { l with numPoles := 0 } h2
  revert h3
  generalize Exec.loop (o.tdiv 2).toNat _ _ = r
  rcases r with ⟨_ | _ | _, s'⟩ <;> intro h3 <;> simp_all

/-- **C63 is false** in every arithmetic whose `std::polar` rejects the modulus `-1/G`: setting up a new Butterworth
shelf with any order from 2 up is undefined behaviour. -/
theorem C63_shelf_undefined {n : Nat} (call : Call R) (hs : ButterworthShelf call.design)
    (ho : 2 ≤ call.order n) (hon : call.order n ≤ n) (hn : n < 2 ^ 30)
    (hp : ∀ rho theta : R,
      rho = -1 / pow (pow 10 (shelfGainDb call.design / 20)) (1 / ofInt (call.order n * 2)) →
        polar rho theta = none) :
    (PoleFilter.setup n call (PoleFilter.init S call.design.cls n)).1 = .ub .polarPrecondition := by
  have key : ∀ (d : Design R) (o : Int) (c : Cls), d.cls = c → ButterworthShelf d → 2 ≤ o → o < 2 ^ 30 →
      (∀ rho theta : R, rho = -1 / pow (pow 10 (shelfGainDb d / 20)) (1 / ofInt (o * 2)) → polar rho theta = none) →
      (d.baseSetup o (PoleFilter.initBase c n)).1 = .ub .polarPrecondition := by
    intro d o c hc hs ho ho2 hp
    subst hc
    have hne : ((-1 : Int) != o) = true := by simp; omega
    cases d <;> simp only [ButterworthShelf] at hs <;>
      simp only [Design.baseSetup, Butterworth.lowShelfSetup, Butterworth.highShelfSetup,
        Butterworth.bandShelfSetup, PFB.designWith, PFB.designBandShelf] <;>
      refine Exec.bind_ub ?_ <;>
      simp only [PFB.onAnalog, Exec.zoom, Butterworth.lowShelfDesign, Proto.cached, Exec.bind_def, Exec.get,
        PoleFilter.initBase, Cls.protoInit, Design.cls, Butterworth.lowShelfInit, hne, Bool.true_or, if_true,
        Exec.modify, Proto.onLay] <;>
      exact Butterworth.lowShelfBuild_ub ho ho2 hp _
  have hmod : ∀ (fs : R) (d : Design R), shelfGainDb (d.overFs fs) = shelfGainDb d ∧
      (ButterworthShelf d → ButterworthShelf (d.overFs fs)) ∧ (d.overFs fs).cls = d.cls := fun fs d => by
    cases d <;> exact ⟨rfl, id, rfl⟩
  show (call.run n (PoleFilter.initBase call.design.cls n)).1 = _
  cases call with
  | setup fs d =>
    obtain ⟨a, b, c⟩ := hmod fs d
    exact key _ _ _ c (b hs) ho (by simp only [Call.order] at hon; omega) (by rw [a]; exact hp)
  | setupN d => exact key _ _ _ rfl hs ho (by simp only [Call.order] at hon; omega) hp
  | setupReq o fs d =>
    obtain ⟨a, b, c⟩ := hmod fs d
    simp only [Call.order] at ho hon
    have h1 : decide (o > (n : Int)) = false := by simp; omega
    simp only [Call.run, Exec.throwIf, h1, Exec.bind_def]
    exact key _ _ _ c (b hs) ho (by omega) (by rw [a]; exact hp)
  | setupNReq o d =>
    simp only [Call.order] at ho hon
    have h1 : decide (o > (n : Int)) = false := by simp; omega
    simp only [Call.run, Exec.throwIf, h1, Exec.bind_def]
    exact key _ _ _ rfl hs ho (by omega) hp

end

/-! ## The witness: exact arithmetic with a `std::polar` that tests its precondition -/

/-- The exact numbers, with a `std::polar` that tests its precondition. -/
def StrictXR := XR

/-- What libstdc++ asserts in `std::polar`: `__rho >= 0`. -/
def Spec.PolarAllowed : XR → Prop
  | .fin rho => 0 ≤ rho
  | .pinf => True
  | _ => False

open Classical in
/-- The exact arithmetic, with `std::polar` as libstdc++ has it when its assertions are enabled. -/
noncomputable instance strictArith : FArith StrictXR :=
  { exactArith with
    polar := fun rho theta => if PolarAllowed rho then exactArith.polar rho theta else none }

theorem strict_one (theta : StrictXR) : polar 1 theta ≠ none := by
  have h : PolarAllowed ((1 : StrictXR) : XR) := by
    show PolarAllowed (XR.fin ((1 : ℤ) : ℝ))
    simp [PolarAllowed]
  have h1 : polar (1 : StrictXR) theta = exactArith.polar (1 : StrictXR) theta := if_pos h
  rw [h1]
  exact Option.some_ne_none _

/-- **C63 is false**: with a `std::polar` that tests its precondition, every `setup` of a new Butterworth shelf of
order 2 or more, with whatever real gain, is undefined behaviour. -/
theorem C63_false {S : Type → Type} [StateType S StrictXR] {n : Nat} (call : Call StrictXR)
    (hs : ButterworthShelf call.design) (ho : 2 ≤ call.order n) (hon : call.order n ≤ n) (hn : n < 2 ^ 30) {g : ℝ}
    (hg : shelfGainDb call.design = (XR.fin g : XR)) :
    (PoleFilter.setup n call (PoleFilter.init S call.design.cls n)).1 = .ub .polarPrecondition := by
  refine C63_shelf_undefined call hs ho hon hn fun rho theta hr => ?_
  have hx : rho = (-1 / pow (pow 10 (XR.fin g / 20)) (1 / ofInt (call.order n * 2)) : XR) := by
    rw [hr, hg]; rfl
  have ho' : (2 : ℝ) ≤ (call.order n : ℝ) := by exact_mod_cast ho
  have hv : (-1 / pow (pow 10 (XR.fin g / 20)) (1 / ofInt (call.order n * 2)) : XR) =
      XR.fin (-1 / (((10 : ℝ) ^ (g / 20)) ^ (1 / ((call.order n : ℝ) * 2)))) := by
    have e1 : (ofInt (call.order n * 2) : XR) = XR.fin ((call.order n : ℝ) * 2) := by
      show XR.fin ((call.order n * 2 : Int) : ℝ) = _
      push_cast; rfl
    have e2 : (-1 : XR) = XR.fin (-1) := by
      show XR.neg (XR.fin ((1 : Int) : ℝ)) = _
      simp [XR.neg]
    rw [e1, e2, XR.lit_ofNat, XR.lit_ofNat, XR.fin_div _ (by norm_num), XR.pow_fin _ (by norm_num),
      XR.lit_one, XR.fin_div _ (by positivity), XR.pow_fin _ (by positivity), XR.fin_div _ (by positivity)]
  refine if_neg (?_ : ¬ PolarAllowed rho)
  rw [hx, hv]
  refine not_le.2 ?_
  exact div_neg_of_neg_of_pos (by norm_num) (by positivity)

/-- The cases that `C63_setup_partial` leaves over do occur: with this arithmetic, a new Butterworth low shelf of
order 2 at a tenth of the sample rate with 6 dB. -/
example : (∀ theta : StrictXR, polar 1 theta ≠ none) ∧
    ∃ (f : PoleFilter DirectFormII StrictXR) (call : Call StrictXR),
      Reach DirectFormII StrictXR .bwLowShelf 2 f ∧ call.design.cls = .bwLowShelf ∧
        (PoleFilter.setup 2 call f).1 = .ub .polarPrecondition :=
  ⟨strict_one, PoleFilter.init DirectFormII .bwLowShelf 2, .setupN (.bwLowShelf (XR.fin 0.1) (XR.fin 6)), .new, rfl,
    C63_false (.setupN (.bwLowShelf (XR.fin 0.1) (XR.fin 6))) trivial (le_refl _) (le_refl _) (by norm_num) rfl⟩

end Iir
