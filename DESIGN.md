# iir1 in Lean 4: design of the model and of the proofs

Contents: 1 Approach, 2 Layout of the project, 3 Trusted base, 4 Not modelled, 5 Properties,
6 Axioms, 7 What was found in the code, 8 Mutation testing.

## 1. Approach

`/repo/iir` is about 2000 lines of C++ logic: second order sections (`Biquad`), delay lines
(`State.h`), chains of sections (`Cascade`), pole/zero containers (`Layout`), s-plane to z-plane
transforms (`PoleFilter.cpp`), three families of analog prototypes (`Butterworth`, `ChebyshevI`,
`ChebyshevII`), closed-form biquads (`RBJ`), direct coefficient entry (`Custom`).

The model is one Lean definition per C++ function, in `lean/Verif/Model/`. It is **generic in the
arithmetic**: every floating point operation the code performs is a field of a class `FArith R`
(`+ - * /`, comparisons, `sin`, `tan`, `pow`, complex `sqrt`, ...). No law is assumed. Then

* *structural* properties (causality, reset, memory safety, exceptions, caching, aliasing,
  overloads) are proved **for every `FArith R`**, so in particular for IEEE doubles with whatever
  rounding the compiler uses. Where a law is needed it is a separate class that IEEE doubles satisfy:
  `NanPropagates` (C09: NaN through `+ - *`), `SignedZeros` (C12, C18, C19: doubles that compare
  equal are the same or zeros, and the prototypes do not see the sign of a zero parameter),
  `Spec.Rounds` (C54: the standard rounding model). All three laws are proved for `Dbl`
  (`Verif/Exact/IEEE.lean`), IEEE 754 binary64 defined in Lean: sign and magnitude, NaN, infinities,
  subnormals, signed zeros, `+ - * /` rounded to nearest even (`Lemmas/DoubleLaws.lean`). C64 and C65
  are stated for `Dbl`;
* *analytic* properties (difference equations, frequency responses, stability) are proved for the
  **exact instance** `FArith XR`, `XR` = reals plus +inf, -inf and NaN with IEEE rules. They are
  statements about the code run in exact arithmetic with `doublePi` = pi, `doubleLn10` = ln 10,
  `doubleLn2` = ln 2. C54 says how far a rounded run of a stable filter can be from the exact run;
* the same definitions are run at Lean's `Float` (IEEE double) as a *test* of the model against the
  reference numbers in `/repo/test` (`Verif/FloatCheck.lean`; a test, not a proof).

Effects: a method is `Exec σ α = σ → Res α × σ`: it ends in `ok a`, `throw e`
(`std::invalid_argument`, state changes made before the throw are kept, as in C++) or `ub u`
(undefined behaviour, a distinct outcome: out-of-bounds access, null or dangling pointer, int
overflow, violated library precondition, out-of-range float to int conversion).

Histories: `Spec.Reach S T c n f` says that `f` is obtained from the constructor of class `c` with
template order `n` by any sequence of `setup`, `filter`, `reset` and `applyScale` calls, successful
or throwing. `Spec.SosReach` is the same for `SOSCascade`. Theorems about "any object" are about all
`f` with `Reach`.

Aliasing: pole filters hold raw pointers into the storage of a `PoleFilter` object; the implicit copy
constructor copies the pointers. `Model/Heap.lean` models a program with many objects, object
identities and dangling pointers on top of the single object model: a heap is a list of objects, a
pole filter object stores the *identities* of the objects whose arrays its `Cascade` and two
`LayoutBase` members point to, and every member function reads and writes through these identities.
`Model/Attach.lean` is the larger model of C83-C85: also SOS cascades, RBJ filters and bare `Cascade` objects, any mixture of
delay lines, and `setCascadeStorage`.

Statements: the properties are stated with the definitions of `lean/Verif/Spec/`, which do not use
helper functions of the model (difference equations, transfer functions, signals, programs,
magnitude formulas with `Real.tan` and the Chebyshev polynomials of Mathlib).

## 2. Layout of the project

| directory | content |
|-----------|---------|
| `Verif/Model` | the code, function by function, with file and line of each |
| `Verif/Spec` | vocabulary of the statements |
| `Verif/Props` | the property theorems (`C01_…` to `C104_…`) and the examples beside them (those for C12, C15, C18, C19, C47, C50, C74, C75 are collected in `Props/Cases.lean`, those for C83-C85 in `Props/AttachCases.lean`) |
| `Verif/Lemmas` | structural lemmas (Hoare triples for `Exec`, invariants of layouts, cascades, caches, heap) |
| `Verif/Exact` | exact arithmetic: the instance, sections, prototypes, transforms, designs |
| `Verif/Math` | mathematics that does not mention the code (recursions, products, band maps, Jury criterion, rounding of recursions) |
| `Verif/FloatCheck.lean` | runs of the model at `Float` against reference numbers |
| `tools` | `gen_properties.py` writes `properties.jsonl`, `claims.json` + `manifest.py` write `MANIFEST.json`, `axioms.py` writes `AXIOMS.md` |

## 3. Trusted base

* Lean 4.33.0 kernel; axioms at most `propext`, `Classical.choice`, `Quot.sound` (section 6). No axiom
  of our own, no `sorry`, no `native_decide`/`bv_decide`.
* The reading of the C++ source: each definition cites file and lines.
* The reading of C++ semantics and of the standard library, in particular
  `FArith` (which library calls are made with which arguments), and for the exact instance that the
  library functions compute their mathematical values.
* `Dbl` is meant to be the arithmetic of `double` in the default rounding mode. `filter` uses only its `+`, `-`
  and `*` (and `C65` its `==`), for which IEEE 754 leaves no choice. The library functions of `Dbl` (`sin`, `pow`, complex
  square root and quotient, ...) are the exact values rounded once, which no real library guarantees; C12 and C19 at `Dbl` use of them
  only that they are functions that do not see the sign of a zero parameter. C71 is proved for every library with a relative error of
  at most `2^-45` (`Rounds.Accurate`; 256 ulp), C72 for the same with complex operations (`Rounds.Library`); `Dbl` is shown to be one of each.
* Complex product and quotient are fields of `FArith`. In the exact instance they follow C99 Annex G
  (recovery of infinities), because the band transforms multiply infinite values.
* The definitions in `Verif/Spec`, which say what the English statements mean.

## 4. Not modelled

* in the analytic theorems: rounding (but C54, C64, C71, C72, C76, C77, C79, C80, C81, C82, C86, C87, C89-C92, C99, C101, C103), signed zeros (`XR` has one zero), overflow to infinity
  and subnormals (C54 has an underflow term and assumes that no intermediate result leaves the range);
* contraction of `a * b + c` into fused multiply-add by the compiler in the design code (the `.cpp` files are compiled with
  the flags of the library; GCC contracts by default where the target has the instruction, such as aarch64), and excess
  precision (x87); contraction in `filter` is C79;
* in the analytic theorems: the run time test of `std::polar`'s precondition (`polar` is total in the exact instance; C63 has it).
  libstdc++ checks `rho >= 0` only with assertions on; the Butterworth shelf prototypes call it with
  negative `rho` (section 7);
* `LayoutBase::setStorage` called by user code on its own layouts; `setCascadeStorage` with a `Storage` that does not come
  from `getCascadeStorage` (C83-C85 have those that do, `Model/Attach.lean`); `Cascade::setLayout`, `CascadeStages::setup` and the
  `setup` of the base classes are modelled (`Model/Inherited.lean`, C73-C75) but are not among the calls of `Reach` (C78 carries
  over what depends on `setup`); the members of `Biquad` on an RBJ object are covered as functions on the `Biquad` part;
* C43-C45 fix one `StateType` per program (C83-C85 do not);
* threads below the level of whole calls (the library has no synchronisation; C88 interleaves whole calls, and `C88_footprint` says that
  calls of different threads do not write what the others read or write) and construction inside threads (objects are numbered in
  the order of construction; destruction and assignment are in C88), performance, CMake, `IIR1_NO_EXCEPTIONS` (abort instead
  of throw), the text of exception messages except as constructor names of `Err`;
* overload resolution of `setup` (for example ambiguous calls with an `int` sample rate): a call of the
  model names its overload.

## 5. Properties, what is modelled, how it is proved

Every property is expressible; none is "not applicable". Where the unchanged code violates a property
the negation is proved with a witness and the part that holds is proved with suffix `_partial`
(C12, C15, C19, C21, C24, C44, C52, C63, C85, C87, C90, C91, C93, C96).

| id | model | proof |
|----|-------|-------|
| C01, C02 | `State.lean` at `XR` | simulation between delay line and the last two inputs/outputs (`ExactState`), for a section, a pole filter, an SOS cascade, an RBJ filter; induction over time |
| C03 | `filter` of the three kinds of object | induction over the samples, any arithmetic |
| C04, C05, C06 | ops `filter`, `reset`, `setup` | induction over op lists, any arithmetic |
| C07 | as C01 | power series: a chain of sections is multiplication by a series |
| C08 | constructors | induction at `XR` |
| C09 | `State.lean` | invariant "delay line holds NaN" (`NanSticky`), law `NanPropagates` |
| C10 | `CascadeStages.filter` | serial composition by induction (any arithmetic); permutation by power series (exact) |
| C11 | class `Sample` (double, float, int) | induction; truncation in exact arithmetic |
| C12, C15, C50 | `design` with its cache | invariant "where the cache would be used it holds what construction on a new object gives" (`Proto.Coh`), law `SignedZeros`; in exact arithmetic that construction throws only for bad ripple/gain; counterexample by evaluation |
| C13, C14 | transforms, overloads | triples for "changes nothing", any arithmetic |
| C16 | arrays as lists with checked access, checked int arithmetic | invariant on lengths (`PFB.Ok`), induction over histories, any arithmetic |
| C17 | overloads; scaling | unfolding; scaling in exact arithmetic, and in doubles bit by bit (`C17_double`) when the scaled numbers are exact, since a quotient is rounded from the exact quotient |
| C18 | two template orders | relation "same visible part" (`Layout.VEq`, `Cascade.Extends`) preserved by every step |
| C19 | `setLayout` | counting; exact arithmetic for the general case |
| C20-C24 | `Biquad.lean` | field arithmetic at `XR`, complex numbers |
| C25, C26 | `response` | complex arithmetic, induction on stages |
| C27, C28 | runs over infinite inputs | factor the denominator over the complex numbers, first order recursions, limits |
| C29 | all 21 designs | Re p < 0 maps into the unit disc, also through the band quadratics |
| C30-C37 | whole `setup` at `XR` | one theorem per transform relating digital and analog factors projectively (`Realises`); one product formula per prototype (roots of unity, Chebyshev polynomials); `AfterSetup` carries it through cache, transform and `setLayout` for any history |
| C38-C42 | `RBJ.lean` at `XR` | trigonometric identities, Jury criterion |
| C43-C45 | `Heap.lean` | frame lemmas over programs, simulation by a program without copies; counterexamples by explicit programs |
| C46 | `SOSCascade` | induction over rows |
| C47, C48 | `Layout.lean`, `setLayout` | invariants over call sequences |
| C49 | negative `reqOrder` | what the loops do with a negative count |
| C51 | odd order, band transforms | the real prototype pole sits where the two band poles coincide: NaN test of `addPoleZeroConjugatePairs`/`add` |
| C52 | as C29, width not validated | reversed band = reciprocal poles |
| C53 | runs over infinite inputs | power series with a pole inside the disc of convergence; resonance for poles on the circle |
| C54 | `FArith` with a rounding model | local error bounds per topology, second order error recursion with explicit gain, chains by induction |
| C64 | `Dbl` | C54 at `Dbl`; the rounding model is proved from the definition of rounding to nearest even (`doubleRounds`) |
| C65 | `Dbl` | relations between two runs that `+`, `-` and multiplication by the coefficients respect (`Lemmas/Related`): equal but for the sign of zeros, opposite, zero |
| C55 | as C28 | joint linearity in state and input; signals divided by `ρ^n` obey a section with poles divided by `ρ`, so C28's bound applies; from parameters via C29 and C42 |
| C56 | `RBJ.lean`, exact | sections with the same denominator in parallel, uniqueness of solutions of the difference equation |
| C57 | `RBJ.lean`, `Filters.lean`, exact | RBJ: numerator and denominator exchanged, so each difference equation is the other read backwards; pole filters: the closed forms of C34 and C37, in the time domain (`C57_shelves_restore`) by C66 and C67 |
| C58 | exact | the closed forms of C30–C33 |
| C59 | exact | Parseval's identity on the circle (`Lemmas/Energy`): the transform of the output of a chain of stable sections is the transfer function times the transform of the input (geometric decay from C55 gives summability); the input is cut off at the time in question, by causality the output until then is the same. Bounds of the gain from C30–C37 and C62. |
| C60 | exact | the same, for the impulse |
| C61 | exact | the same for signals that end; for inputs of finite energy by approximation in ℓ² (the gain is bounded). From the parameters with C58 and C41. |
| C62 | exact | the squared gain is a quotient of quadratics in `cos 2πf`; identities that show its distance from the bound as a sum of products of nonnegative terms. `C62_attained` gives the frequencies where the bounds are met. |
| C66 | exact | the design chain keeps the whole complex value: after normalisation the response is gain × (value of the prototype at `i x/y`) / (value at the reference point), because the sections differ from the transformed prototype by one factor that is shown to be positive (`Realises.quot_eq`); five prototypes against the products in `Spec/Transfer`. RBJ: numerator and denominator as forms in `i sin πf cos πf0` and `cos πf sin πf0`. |
| C67 | exact | `Lemmas/Identify`: on `(0, 1/2)` the transforms of the two outputs of an input that ends agree, they are absolutely convergent, so Parseval's identity makes the difference of the outputs zero; other inputs are cut off, by causality. `Known run H` says that `run` is a chain of stable sections with response `H`; series, parallel and inverse connections are rules for it. |
| C68 | exact | C67 and C66: the products over pairs of conjugate Butterworth poles are the quadratics of the cookbook; for bands the prewarped frequency is `q` times the difference of `lowRatio` and its inverse |
| C69 | exact | C67 (parallel connection) and C66 |
| C70 | exact | a section with the signs of `a1` and `b1` changed returns the alternated output (`Lemmas/Mirror`); its response is the conjugate at `1/2 - f`; the textbook transfer functions have real coefficients and `tan (π/2 - x) = 1/tan x`; C67. RBJ `IIRNotch` and `BandShelf` are left out: their widths depend on the frequency. |
| C71 | any arithmetic with the precision of doubles and a library of 256 ulp; `Dbl` | interval bounds for every intermediate result (`Lemmas/RoundDesign`), the Jury criterion with margins (`core_stable`, `shelf_core`, `notch_core`); two witnesses outside the limits (`C71_false_…`), computed at `Dbl` |
| C72 | any arithmetic with the precision of doubles and a (complex) library of 256 ulp; `Dbl` | error bounds for the prototypes (`RoundProto`, `RoundCheby`, `RoundCheby2`), for the image of the left half plane under the rounded bilinear transform (`RoundComplex`, `RoundMap`), the Jury criterion for the rounded coefficients (`RoundPairs`), range of the response used for scaling (`RoundCascade`); histories by C12 |
| C73 | `Inherited.lean`, `Layout.lean`, `setLayout` | any arithmetic for the rejected layout; exact: the layout built by the client's calls holds the roots (`Roots.done_build`), then the lemma on `setLayout` that the designs use (`setLayout_core`), products over the roots regrouped by pairs, C27's argument in the time domain |
| C74 | any arithmetic; exact for valid parameters | the builders of two layouts of different size run in step until the smaller one overflows (`LessRoom`), and a builder that ends normally has written `order` poles (`ifOk_build`); so where the larger template succeeds the smaller one overflows. For `order = FilterOrder + 1` with odd `FilterOrder` the arrays are as long as those of the next template (`PFB.Ok.next`), so the comparison of C18 and C12 applies; for band filters the same argument as before for the digital layout (`LessRoom.trans`, `Design.ifOk_trans`). `C74_orders`: in exact arithmetic the outcome for every order |
| C75 | any arithmetic; exact | the same list of sections is run by both objects; exact: `sos_setup_ok` (C46), response and steady state of chains (C27); witness `C75_response_false` |
| C76 | any arithmetic with the precision of doubles and a library of 256 ulp; `Dbl` | absolute errors of every intermediate result (`Lemmas/RoundAt`): stored coefficients within `2^-41` of the ideal ones; Jury's inequalities with a margin bound the gain of the poles of both sections (`pole_margin`); the outputs of two sections with close coefficients (`diffEq_close`) and the rounding errors of filtering (C54) add up (`run_close`); shelves: C82 |
| C77 | any arithmetic with the precision of doubles and a library of 256 ulp; `Dbl` | every pole of the computed prototype is within `2^-43` of the ideal one, of the digital filter within `2^-40` (`Lemmas/RoundBw`, `RoundBwLayout`); stored coefficients (`RoundPairsNear`), normalisation factor (`RoundScale`), outputs of a chain of close sections (`RoundSharp`, `RoundGains`, `RoundStages`); the ideal sections have the response of the filter in exact arithmetic and so give its samples (`BwChain`, C57); orders above 16, band filters, shelves and Chebyshev filters not covered |
| C78 | any arithmetic; exact | histories of all public members (`Spec/AnyHistory`); simulation by the object that got the setups alone: prototype, poles and array sizes of both are the same, and a setup overwrites the rest (`Call.run_fit`) |
| C79 | any arithmetic with rounding laws; `Dbl` | `Spec/Contraction`: a relation `Computes F e v` between an expression of the source and the values that code with the fma instruction `F` may give it; `Computes.close` bounds all of them at once, and the theorems of C54, C76 and C77 are proved for this relation (`SecC`, `ChainC`), of which the code without contraction is one case (`C79_plain_*`, `C79_may`) |
| C80 | any arithmetic with rounding laws, any library of that accuracy; `Dbl` | `Lemmas/RoundResponse`: numerators and denominators of the sections are followed through the loop of `Cascade::response` with a bound on the relative error of the running products (also when one of them is zero, as at the stopped end); `Lemmas/BwResponse` and `Lemmas/RbjResponse` bound the denominators on the unit circle from below; compared with `Response`/`SectionResponse` of the exact filter, whose magnitude C30 gives |
| C81 | `Dbl`, `Flt` (binary32), integer types | `Exact/SampleTypes`: floats as a subtype of the doubles with rounding to nearest even, integers with truncation, both undefined out of range; a run of `filter<Sample>` is the run of `filter<double>` with conversions at both ends (`Casts.run`, `Casts.stop`), so C76, C77 and C64 carry over; `C81_overshoot` computes the step response 1/3, 1, 11/9 of a low pass at a quarter of the rate |
| C82 | any arithmetic with the precision of doubles and a library of 256 ulp; `Dbl`, all sample types of C81 | as C76, with errors that grow with `γ = 10^(\|g\|/40)`: `Lemmas/ShelfAt` follows them through the design (for the band shelf through `sinh` of a quotient), stored coefficients within `γ³ 2^-40` and `γ⁵ 2^-40`; the margins of the poles come from `a0 + a1 + a2 = 2 (A+1+(A-1)c) - 2 (A-1+(A+1)c)` and the like (`shelf_facts`), for the band shelf from `core_margin`; `run_gain` and `one_response` are `run_close` and `response_rel` with separate tolerances for numerator and denominator. Not covered: more than 24 dB, slopes so small that the radicand exceeds 4, band shelves with `sinh(…) > A` |
| C83 | `Attach.lean`: memory of objects of four kinds with any delay lines, pointers as object numbers | `C83_reach`: case analysis of the calls over `store`/`change`; `C83_independent`: simulation between the program and the one with that object alone, the invariant being `Private` (preserved by every statement that `Leaves` the object alone); `C83_new`: pointers are below the number of objects (`Mem.Bounded`), so nothing points to a new one |
| C84 | `Attach.lean`; exact for `C84_own_layout`, `C84_blind_exact` | the view of the attached filter differs from its own members in the sections only, and `setup` overwrites these (`Call.run_same_analog` of C78); the outputs of the two programs of `C84_sos` are both `sectionsOut` of the same sections and lines; `C84_own_layout` carries C73's construction to the sections of another object |
| C85 | `Attach.lean`; exact for the witness | **false** (`C85_false`): the copy still designs with the prototypes of the original, so destroying the original makes a `setup` of the repaired copy fail that succeeded before. `C85_sections_partial`: every other call on a filter that works on its own sections, which nothing else works on, has the outcome as alone, in every program (simulation up to the arrays of the prototypes); `C85_repair`: the repair establishes this for both objects, and `setup` on the copy then has the outcome, sections and response of a `setup` on the original and leaves sections and delay lines of the original alone |
| C86 | any arithmetic with rounding laws | `Spec/Fade`: `CalmsTo z B` (limit superior at most `B`). `Lemmas/Fade`: at each step the residual of the difference equation is at most `18 (u s + η)` with `s` the magnitudes of that very step (`df1_point`, `df2_fade`, `tdf2_point`, for every choice of fused operations); a stable recurrence passes limits superior on (`CalmsTo.gain`), so the bound on the fed back signal improves itself until it depends on the present input only (`CalmsTo.contract`); chains by induction. Needs the arithmetic to be twice as precise as C54 does |
| C87 | `Dbl` | **false** (`C87_false`): `y[n] = x[n] + 3/4 y[n-1]` holds the smallest double for ever, since 3/4 of it rounds to itself; `SOSCascade` with any delay line. `C87_pole_filter_partial`, `C87_rbj_partial`: the output does fall to a multiple of the smallest double that depends on the coefficients only (from C86 with `X1 = 0`) |
| C88 | any arithmetic; exact for the necessity of the condition | programs with pointers of C83-C85, each statement with its thread; footprint of every call (`C88_footprint`: frame and locality), then induction over the schedule; `C88_constructed`: the condition holds for all objects that were constructed and not copied; `C88_copies`: it is needed, a repaired copy and its original in different threads interfere |
| C89 | any arithmetic with the precision of doubles and a library of 256 ulp; `Dbl` | ideal filter as a plain recurrence (`Spec/CustomAccuracy`); the stored coefficients are within `2^-41` of the ideal ones (`Lemmas/RoundCustom`: polar, conjugate pair, division by `a0 = 1`, scale), perturbation of the section as in C77 |
| C90 | `Dbl`; any arithmetic with the precision of doubles for the partial theorem | one pole: proved, an equivalence, as the stored pole is exact (`Lemmas/DoubleUnits`: dividing by one changes no double). Two poles: **false** (`C90_false`): with radius `1 - 2^-53` and angle 0 the rounding of `a2` puts a pole on the unit circle. `C90_twoPole_partial`: true for radii up to `1 - 2^-19` (Jury) |
| C91 | `Dbl`; any arithmetic with the precision of doubles for the bound | **false** (`C91_false`): the getters return `a1 / a0 * a0`, and `1 / 49 * 49` is `1 - 2^-53`. `C91_unit_partial`: exact for `a0 = 1`; `C91_close_partial`: within two roundings otherwise (`C91_getters` ties the expression to the getters) |
| C92 | `Dbl` | induction over the rows with `a / 1 = a`; then C64 |
| C93 | exact | `C93_equation`: the retuned filter obeys the difference equation with the coefficients of the moment. **False**: `C93_false`, two low passes (valid, stable) in turn before every sample, the impulse response grows at least by 3/2 every two samples (signs alternate in pairs, so that the two feed back terms add up). `C93_slow_partial`: for every finite choice of valid settings there is a time such that the output is bounded if every setting is kept that long, from some time on (each section forgets geometrically; the state is halved in every stretch). Missing: nothing that is true in general |
| C94 | exact | RBJ: from the prototypes (C66) in homogeneous coordinates `P : R = tan² πf : tan² πf0`; for two frequencies `N D' - N' D` is `(P R' - P' R)` times a symmetric form whose sign is that of the parameters; the notch directly in `cos 2πf`. Butterworth shelves: `(t + g) / (t + 1/g)` is monotonic in `t` (C34); filters from C30-C33. The statements contain that the gain exists at every frequency |
| C95 | exact | the square of the gain is a strictly monotonic function of `T_o²` of the (inverse) prewarped frequency (C35-C37); `T_o (cos θ) = cos oθ`, so `T_o²` moves between 0 and 1 as θ passes the multiples of `π / 2o`; the prewarped frequency is continuous and strictly monotonic, so every such value is taken at one frequency (intermediate value theorem). Band filters under the hypotheses of C35-C37 |
| C96 | exact | `C96_total`: whatever the schedule of valid calls, no call fails and the output is a determined sequence of numbers (a valid call leaves the same sections in every object of the class: C29, C12). **False** beyond that: `C96_false`, for each of the three delay lines, Butterworth low passes of order 2 at 1/8 and 3/8 of the sampling rate in turn (their coefficients are read off the impulse response, which C68 gives): the state grows at least by 11/9 every two samples. `C96_slow_partial`: for every finite choice of valid calls of one class there is a time such that the output is bounded if every setting is kept that long, from some time on; one section at a time, with the quantity that each delay line keeps. Missing: nothing that is true in general |
| C97 | exact | `C97_bw_*`, `C97_c1_*`, `C97_c2_*`, `C97_rbj_*`: two calls on any two objects, related by `Louder`, `Quieter`, `NotLouder` (`Spec/Knobs.lean`: the squares of the gains exist and are ordered). From the closed forms of C30-C36 and, for RBJ, the prototypes of C66 in homogeneous frequency coordinates as in C94; for the order of Chebyshev filters, that `T_n(x)` grows with `n` for `x > 1`. Not claimed: the cutoff in the rippled band, the cutoff of resonant RBJ filters and the width of the band filters, where the gain is not monotonic |
| C98 | exact | `C98_filter`, `C98_design`, `C98_rbj`, `C98_sos`: the output is the convolution of the input with the answer to an impulse, which is absolutely summable for stable sections; the sharpness is by the input whose signs are those of the answer read backwards (`PeakGain`, `Spec/Headroom.lean`). `C98_bw_*`, `C98_c2_*` (`Overshoots`): if the absolute values summed to no more than the greatest gain, all terms of the sum that is the response would have one phase at the frequency of that gain, and the gain would fall from there like a parabola (`power_bend`, `flat_overshoot` in `Lemmas/Headroom.lean`); but these responses are flat to the fourth order there (C30-C36). High passes and shelves by C70. `C98_first_order`, `C98_first_order_high`: the answer to an impulse in closed form, identified by its spectrum as in C67. Not claimed: Chebyshev I, whose gain is not flat where it is greatest |
| C99 | `Dbl`, integer types | `C99_butterworth`, `C99_rbj`, `C99_shelf` (`IntRange`, `Spec/IntHeadroom.lean`): C81 (C82 for shelves) says that the output is made of numbers within `d M` of that of the ideal filter and is undefined at the latest at the first number certainly out of range; the two parts of the peak gain (C98) decide whether one is. `C99_first_order_safe`, `C99_first_order_overflow`: for order 1 the peak gain and the error bound are known in closed form, and up to a quarter of the rate the answer to an impulse is nowhere negative (`C98_first_order_range`). Between the two cases, when `P M` is within `d M` of the limit, nothing is said, nor for cutoffs between 1/4 and 1/3 |
| C100 | the filters of C29/C42/C46 one after the other (`Chained`) | each is a stable chain of sections with its reported response (C66); chains compose, and the response determines the output (C67); peak gain by composing the bounds and the sharpness in C98 |
| C101 | `Dbl`, any sample type | there are finitely many doubles, so finitely many contents of the delay lines; two equal states at multiples of the period of the input give equal output from there on. For integer samples the hypothesis is that the outputs can be converted (C99). In exact arithmetic it is not so (an example beside the theorem) |
| C102 | the devices of C100, delays, series, mixers (`Network`) | by induction a network is the convolution with an absolutely summable signal whose spectrum is the response (Cauchy products); such a signal is determined by its spectrum (Parseval, as in C67), and gives steady state and peak gain |
| C103 | `DblDevice` (the filters of C76, C77 and C82, set up and run in `Dbl`), `Levels` | induction along the series: the error so far is an input to the ideal rest, which is a convolution, and grows at most by its peak gain (C98); the rest works on a signal of level `(P + e) X`. The bound is the worst case; filters not covered by C76, C77, C82 (Chebyshev, band filters) are not either here |
| C104 | `swelling`, `Swells` and `ComesLate` (written with sines and cosines), `rampOf` (table) | exact arithmetic. A section answers `(K n + L) z^n` with `(K H n + L H + K H') z^n` and a remainder obeying the homogeneous recursion, which vanishes by stability; along the cascade the derivatives combine by the product rule. The value and derivative of `response()` at 0 come from C66; for Butterworth low passes the sum of the inverses of the poles is `-1 / sin (π / (2 o))`. At frequency 0 the theorems speak of ramps; the RBJ notch has no entry in `rampOf` (C66 gives its response in another form) and its own theorem, `C104_ramp_notch`, from the coefficients (`C104_ramp_section`) |
| C63 | any arithmetic; exact for the witness | **false** (`C63_false`): the prototype of a Butterworth shelf of order 2 or more passes `-1/G` and `-G`, so with a `std::polar` that tests its argument (`strictArith`, exact numbers otherwise) every `setup` of a new such object is undefined behaviour. `C63_setup_partial`, `C63_response`: all other calls pass 1. Not covered: `Custom::TwoPole`, which passes on the modulus that the user gave. |

Conditions that the English text of a property leaves implicit are explicit in the theorems:
template order `1 <= n < 2^30`; orders `-2^30 <= o`; normalised frequency in `[0, 1/2)` etc.

## 6. Axioms

`AXIOMS.md` lists for every theorem of the manifest what `#print axioms` says. Nothing beyond `propext`,
`Classical.choice` and `Quot.sound` occurs; the structural theorems often need less.

## 7. What was found in the code

Violations of stated properties (theorem names in brackets):

* **Chebyshev cache after a rejected setup.** `design` of ChebyshevI/II stores its cache key before it
  builds the prototype. A negative ripple makes a NaN pole, `setup` throws; the same call again finds
  the key, uses the empty prototype and *succeeds*, leaving a pass-through filter that reports 0 poles
  (`C12_false`, `C15_false`, `C19_false`).
* **NaN check before the division.** `setCoefficients` tests its arguments, not the quotients by `a0`:
  an RBJ filter with `q = 0` or an SOS row of zeros stores NaN coefficients without an exception
  (`C21_false_rbj`, `C21_false_sos`). `applyScale` is not checked at all.
* **BiquadPoleState of first order sections.** The single pole branch reports the zero as `-b0/b1`
  (inverted) and the pole as `-a1` without dividing by `a0` (`C24_false_first_order`,
  `C24_false_first_order_pole`). A second order section with `b0 = 0` always throws.
* **Copy constructor of pole filters.** A copy shares the arrays of the original: `setup` on the copy
  changes the original, the copy itself keeps filtering with its old coefficients, and after the
  original is destroyed `setup` on the copy writes through dangling pointers (`C44_false`,
  `C44_setup_on_copy`, `C44_copy_frozen`, `C44_dangling`). `operator=` copies nothing and only resets
  (`C45_assign`).
* **A copy can be repaired only in part.** `copy.setCascadeStorage (copy.getCascadeStorage ())` separates the sections of
  copy and original (`C85_sections_partial`, `C85_repair`), but both go on designing in the prototype arrays of the original, and
  `setup` on the copy writes through dangling pointers once the original is gone (`C85_false`).
* `Custom::TwoPole` with `poleRho` the largest double below 1 and `poleTheta = 0` stores a section with a pole at exactly 1 (`C90_false`):
  poles that close to the unit circle (and to each other) do not survive the rounding of `a2`.
* The getters of `Biquad` need not return the numbers given to `setCoefficients`: they multiply the rounded quotients by `a0` again
  (`C91_false`, `a0 = 49`).
* After the end of the input a stable filter need not become silent: it may go on with subnormal numbers for ever (`C87_false`), which
  processors handle slowly. Nothing in the library prevents this.
* Retuning a filter before every sample between two stable settings can make its output grow without bound (RBJ: `C93_false`;
  Butterworth with any of the three delay lines: `C96_false`); if every
  setting is kept long enough this cannot happen (`C93_slow_partial`, `C96_slow_partial`). (`demo/rbj_update.cpp` retunes a running filter every 75 samples.) `setupN` keeps the delay line (C06), which holds outputs that
  belong to the old setting.
* **Negative band width.** `setup` of all nine band classes accepts it and gives a filter with every
  pole outside the unit circle (`C52_reversed`, `C52_false`). Chebyshev low/high pass with an odd
  negative order: also unstable (`C52_negative_order`).

Other behaviour proved or noted while modelling:

* `filter` with an integer sample type does not clip: the overshoot of a filter with gain 1 is enough to make the
  conversion back undefined (`C81_overshoot`: three full scale `int16_t` samples and an RBJ low pass);
* negative `reqOrder` is not rejected (C49): even gives a pass-through filter, odd gives a Butterworth
  filter of order 1, for a Butterworth shelf with the gain divided by the order; -1 is ignored by a new
  object because it is the initial cache key; below -2^30 `2 * order` overflows `int`;
* odd order band filters are refused at one exact width (C51), e.g. Butterworth band pass/stop with a
  band of a quarter of the sampling rate;
* zero width and Chebyshev shelves with gain 0 or ripple <= 0 throw; ripple >= |gain| runs into a
  branch the authors mark "surely wrong" (`eps = G - 1`);
* the Chebyshev II shelf code is the Chebyshev I shelf code (they are equal by `rfl`);
* even order Chebyshev shelves have their gain at the edge of the shelf `rippleDb` nearer to 0 dB than
  requested (C37);
* `fc = 0` is accepted: the pole is at z = 1, the response there is infinite, the scale becomes 0;
* RBJ filters validate nothing but NaN;
* a tiny cutoff frequency of an RBJ low pass (`2^-100`; `cos` rounds to 1) stores the numerator 0 and a double pole at z = 1
  (`C71_false_tiny_cutoff`); a wide band shelf near the Nyquist frequency makes `sinh` overflow and stores NaN, because the
  coefficients are tested for NaN before they are divided by `a0` (`C71_false_band_shelf`);
* Butterworth shelves of order >= 2 call `std::polar` with negative `rho`, which the standard does not
  allow (C63; works with libstdc++ without assertions);
* `setLayout` stores the new number of stages and clears the sections before it can throw, and a
  transform that throws midway has already reset the digital layout: a throwing `setup` can leave a
  partly configured filter. An invalid frequency throws before anything is changed (C13);
* `Cascade::setLayout` called by a client with too many poles throws after it has stored the new number of stages:
  `response` and `operator[]` then read outside `m_stages` (`C73_too_many`,
  `C73_too_many_response`) until the next successful `setup` (`C73_recovers`); after a layout that is accepted,
  `getPoleZeros` reports the poles of the last `setup` instead (`C73_poleZeros_stay`);
* `f.LowPassBase::setup (order, ...)` (a hidden but public member) does not check the order and writes outside the
  arrays (`C74_out_of_bounds`, `C74_exact`);
* `CascadeStages::setup` on a pole filter changes what `filter` does but not `getNumStages`, so `response` does not see
  the new sections (`C75_response_false`);
* `setCascadeStorage` sets the number of stages to 0: until the next `setLayout` the `Cascade` reports response 1 and no poles,
  whatever the sections do (`C84_blind`, `C84_blind_exact`); a pole filter attached to another object reports the response
  of that object's sections but filters with its own (`C84_setup`);
* `Cascade::response` with a NaN frequency passes its range check;
* `applyScale` on a cascade with no active section has no effect (`C26_applyScale_empty`);
* `add (ComplexPair, ComplexPair)` does not check for NaN (`C48_nan_pair_accepted`);
* lowering the order of a running filter: with TransposedDirectFormII the sections that become
  pass-through still release up to two samples of their state.

## 8. Mutation testing

`seeded/LOG.jsonl`: one line per attempt. A copy of the project outside `/verif` gets one realistic bug
in one model definition; a driver recompiles every module that depends on it, skipping the declarations
that fail and everything that uses them, and reports which property theorems are lost. An edit that
loses no theorem of the claim it breaks led to new or tightened theorems (field `theorems_tightened`).
A theorem is listed as failed when its proof, or one it uses, no longer goes through; that alone does not show that
its statement has become false. Edits to definitions near the bottom of the model therefore list theorems that have
nothing to do with the bug; `expected_properties` names those that were expected, before the run, to contradict the edit. Entries with the field
`checked` recompiled only the modules needed for the expected properties, so theorems elsewhere are not listed.
