#!/usr/bin/env python3
"""Source of properties.jsonl (run: python3 tools/gen_properties.py > properties.jsonl)."""
import json
P = []
def p(id, title, statement, quantifier, why, anchors):
    P.append(dict(id=id, title=title, statement=statement, quantifier=quantifier,
                  why_tests_cant=why, anchors=anchors))

p("C01", "Every topology realises the documented difference equation",
  "Starting from a reset delay line, feeding x[0],x[1],... through a second order section with any of the three StateTypes (DirectFormI, DirectFormII, TransposedDirectFormII) returns y[n] = (b0 x[n] + b1 x[n-1] + b2 x[n-2] - a1 y[n-1] - a2 y[n-2]) / a0 with samples before time 0 taken as 0 (exact arithmetic).",
  "all coefficients, all input sequences of every length, all three topologies",
  "infinitely many signals and coefficient sets; a test compares a handful of samples for two coefficient sets and never runs TransposedDirectFormII",
  ["iir/State.h:DirectFormI::filter", "iir/State.h:DirectFormII::filter", "iir/State.h:TransposedDirectFormII::filter", "iir/Biquad.cpp:Biquad::setCoefficients"])
p("C02", "The StateType template argument does not change the output",
  "Two filters with the same coefficients but different StateType produce, from reset, exactly the same output sequence for the same input (exact arithmetic), for a cascade of any number of sections.",
  "all cascades of every length, all inputs, every pair of topologies",
  "the claim relates all pairs of runs; tests sample a few", ["iir/State.h", "iir/Cascade.h:CascadeStages::filter"])
p("C03", "Sample-by-sample processing is causal and block independent",
  "The outputs for xs followed by ys are the outputs for xs followed by what the same object, left in the state reached, returns for ys; hence output n depends on inputs 0..n only. Holds for any arithmetic, including IEEE doubles with any rounding.",
  "all filters, all states, all input sequences and all ways of cutting them into blocks",
  "quantifies over all splits of all signals", ["iir/Cascade.h:CascadeStages::filter", "iir/RBJ.h:RBJbase::filter"])
p("C04", "reset() makes a filter indistinguishable from a fresh one with the same coefficients",
  "After any history, reset() followed by any inputs returns bit for bit the outputs a freshly constructed filter with the same coefficients returns; a second reset() changes nothing.",
  "all histories, all later inputs, all arithmetic interpretations, all topologies",
  "histories are unbounded", ["iir/State.h:reset", "iir/Cascade.h:CascadeStages::reset", "iir/RBJ.h:RBJbase::reset"])
p("C05", "Filtering and resetting never change the configuration",
  "No sequence of filter() and reset() calls changes any coefficient, the reported poles/zeros, the number of stages or response().",
  "all call sequences and all samples", "histories are unbounded", ["iir/Cascade.h:CascadeStages", "iir/Cascade.h:Cascade", "iir/RBJ.h:RBJbase"])
p("C06", "setup() never touches the delay lines",
  "setup()/setupN() with any arguments, whether it succeeds or throws, leaves the delay lines as they were, so parameters can be changed while the filter is running; setup() followed by reset() equals setup() on a filter that never processed a sample.",
  "all filter types, arguments, histories", "all histories and all outcomes including exceptions", ["iir/Cascade.cpp:Cascade::setLayout", "iir/PoleFilter.h", "iir/RBJ.cpp"])
p("C07", "Linear and time invariant",
  "From reset the filter is linear (response to a*x+b*y is a times the response to x plus b times the response to y) and time invariant (delaying the input by k zero samples delays the output by k), exact arithmetic.",
  "all cascades, inputs, scalars, delays", "universally quantified over signals", ["iir/State.h", "iir/Cascade.h:CascadeStages::filter"])
p("C08", "An unconfigured filter passes samples through unchanged",
  "A default constructed pole filter or SOSCascade returns every finite sample unchanged for every topology and its response is 1 at every frequency in 0..1/2.",
  "all template sizes, all finite sample sequences", "all signals and sizes", ["iir/Biquad.h:Biquad (default members)", "iir/PoleFilter.h:PoleFilter::PoleFilter", "iir/Custom.h:SOSCascade"])
p("C09", "A NaN sample poisons the filter until reset()",
  "Once a NaN sample has entered a section, every later output is NaN, whatever the later inputs, until reset(); reset() restores normal operation.",
  "all coefficients, states, later inputs; any arithmetic in which NaN propagates through +,-,*", "the later signal is unbounded", ["iir/State.h", "iir/Cascade.h:CascadeStages::filter"])
p("C10", "A cascade is the serial composition of its sections, in any order",
  "The output of an N section cascade is the output of section N fed by ... fed by section 1; splitting a cascade in two cascades changes nothing (any arithmetic), and permuting the sections (from reset, exact arithmetic) changes nothing.",
  "all section lists, all permutations, all inputs", "all permutations of all cascades on all signals", ["iir/Cascade.h:CascadeStages::filter"])
p("C11", "Sample type only affects the final cast",
  "filter<Sample>() computes on the double value of the sample and converts only the returned value: the delay lines evolve as they would for double samples; an int result is the double result truncated toward zero, undefined only if that does not fit.",
  "all samples and states", "all inputs", ["iir/Cascade.h:CascadeStages::filter", "iir/RBJ.h:RBJbase::filter"])
p("C12", "setup() depends on its arguments only, not on the history of the object",
  "Whatever setup/filter/reset calls preceded it (including ones that threw), a successful setup() gives the same coefficients, response and reported poles as the same call on a newly constructed filter.",
  "all call histories, all arguments, all 21 pole filter classes", "the analog prototype is cached across calls; only induction over histories covers all cache states",
  ["iir/Butterworth.cpp:AnalogLowPass::design", "iir/ChebyshevI.cpp:design", "iir/ChebyshevII.cpp:design", "iir/PoleFilter.cpp"])
p("C13", "An invalid cutoff or centre frequency is rejected and leaves the running filter untouched",
  "If the normalised cutoff/centre frequency is not in [0,1/2) (too high, negative, NaN, or infinite because of a zero sampling rate), setup() throws and all coefficients, delay lines, reported poles and response() are what they were.",
  "all pole filter classes, all orders, all invalid frequencies, all prior states, any arithmetic", "infinitely many invalid values and prior states",
  ["iir/PoleFilter.cpp:LowPassTransform", "iir/PoleFilter.cpp:HighPassTransform", "iir/PoleFilter.cpp:BandPassTransform", "iir/PoleFilter.cpp:BandStopTransform"])
p("C14", "A requested order above the template order is rejected without any effect",
  "setup/setupN with reqOrder > FilterOrder throws and the object is bit for bit unchanged.",
  "all classes, orders, arguments, states", "all orders and states", ["iir/Butterworth.h", "iir/ChebyshevI.h", "iir/ChebyshevII.h"])
p("C15", "A rejected setup() is rejected again when retried",
  "If setup(args) throws, calling setup(args) again throws again. (Found false: ChebyshevI with negative ripple, see DESIGN.md.)",
  "all argument tuples and histories", "needs every pair of consecutive calls; the failing case is an interaction of the prototype cache with the exception",
  ["iir/ChebyshevI.cpp:AnalogLowPass::design", "iir/ChebyshevII.cpp:AnalogLowPass::design", "iir/Layout.h:addPoleZeroConjugatePairs"])
p("C16", "setup() never writes or reads outside the statically allocated arrays",
  "For every template order >= 1, every requested order and every argument, every history of setup calls (successful or throwing) only accesses array elements in range, never uses a null pointer, and does not overflow int unless the requested order is below -2^30.",
  "all template orders, all int requested orders, all arguments, all histories, any arithmetic", "memory safety over unbounded sizes and histories",
  ["iir/Layout.h:LayoutBase", "iir/Cascade.cpp:Cascade::setLayout", "iir/PoleFilter.h:PoleFilter"])
p("C17", "All setup overloads agree",
  "setup(sampleRate, F, ...) equals setupN(F/sampleRate, ...), and the overloads without reqOrder equal the ones with reqOrder = FilterOrder; in exact arithmetic scaling sampleRate and all frequencies by the same nonzero factor changes nothing; in double arithmetic the same holds bit by bit for every positive factor by which these numbers can be multiplied without rounding.",
  "all classes, arguments, states", "all arguments", ["iir/Butterworth.h", "iir/ChebyshevI.h", "iir/ChebyshevII.h", "iir/RBJ.h"])
p("C18", "A lower order in a larger template behaves like the exact template",
  "A filter with template order M set up with reqOrder n < M gives, from reset, the same output and the same response as one with a smaller sufficient template order set up with the same reqOrder; the unused sections are pass-through.",
  "all n <= N <= M, all arguments, all inputs, all classes", "all sizes and signals", ["iir/Cascade.cpp:Cascade::setLayout", "iir/Cascade.h:CascadeStages"])
p("C19", "Number of stages and poles reported after setup",
  "After a successful setup of order n >= 0, getNumStages() and the length of getPoleZeros() are (n+1)/2 for low/high pass and shelves and n for band filters; indexing a stage outside the range throws.",
  "all orders and template sizes", "all sizes", ["iir/Cascade.h:getNumStages", "iir/Cascade.h:operator[]", "iir/PoleFilter.h:getPoleZeros"])
p("C20", "setCoefficients is checked, atomic and faithful",
  "setCoefficients throws iff one of its arguments is NaN, and then nothing is changed; otherwise the getters return the values that were set whenever a0 is finite and nonzero (exact arithmetic).",
  "all coefficient tuples, all prior states", "all tuples", ["iir/Biquad.cpp:Biquad::setCoefficients", "iir/Biquad.h:getA0..getB2"])
p("C21", "Successful setup never leaves NaN coefficients",
  "README: parameters which result in coefficients being NaN throw. (Found false: the NaN test precedes the division by a0; partial theorem and witnesses.)",
  "all filters and arguments", "all arguments", ["iir/Biquad.cpp:Biquad::setCoefficients", "iir/Biquad.cpp:Biquad::applyScale", "iir/RBJ.cpp", "README.md"])
p("C22", "One-pole section has the requested pole, zero and gain",
  "setOnePole/OnePole::setup gives H(z) = scale (1 - zero/z)/(1 - pole/z); a pole or zero with an imaginary part is rejected with the section unchanged.",
  "all poles, zeros, scales", "all arguments", ["iir/Biquad.cpp:setOnePole", "iir/Custom.cpp:OnePole::setup"])
p("C23", "Two-pole section has the requested poles, zeros and gain",
  "setTwoPole/TwoPole::setup gives H(z) = scale (1-z1/z)(1-z2/z)/((1-p1/z)(1-p2/z)) for conjugate or real pairs, and anything else is rejected with the section unchanged.",
  "all pole/zero pairs, scales", "all arguments", ["iir/Biquad.cpp:setTwoPole", "iir/Custom.cpp:TwoPole::setup"])
p("C24", "Pole/zero form of a section can be recovered and reconstructs it",
  "getPoleZeros()/BiquadPoleState of a section returns its poles and zeros, and setPoleZeroForm of it restores the normalised coefficients. (Found false for first order sections: the zero is inverted.)",
  "all sections", "all coefficients", ["iir/Biquad.cpp:BiquadPoleState::BiquadPoleState", "iir/Biquad.cpp:setPoleZeroForm", "iir/Biquad.cpp:getPoleZeros"])
p("C25", "Biquad::response is the transfer function on the unit circle",
  "response(f) = (b0+b1 e^-iw+b2 e^-2iw)/(a0+a1 e^-iw+a2 e^-2iw), w = 2 pi f, whenever the denominator is nonzero.",
  "all coefficients and frequencies", "all reals", ["iir/Biquad.cpp:Biquad::response"])
p("C26", "Cascade::response is the product of the section responses and is range checked",
  "For 0 <= f <= 1/2 the response of the cascade is the product of the section responses; outside that range it throws; applyScale multiplies it by the scale.",
  "all cascades, frequencies", "all cascades", ["iir/Cascade.cpp:Cascade::response", "iir/Cascade.cpp:Cascade::applyScale"])
p("C27", "filter() realises response()",
  "If all poles are inside the unit circle, the output for the input A cos(2 pi f n + phi) converges to A |H| cos(2 pi f n + phi + arg H) with H = response(f), from any initial delay line content.",
  "all stable cascades, frequencies, amplitudes, phases, initial states", "limit statement over an infinite run", ["iir/Cascade.h:CascadeStages::filter", "iir/Cascade.cpp:Cascade::response", "iir/State.h"])
p("C28", "Stable sections give bounded output and decay to rest",
  "If all poles are inside the unit circle, bounded input gives bounded output and after the input stops the output converges to 0, from any state, for every topology.",
  "all stable cascades, all bounded inputs, all states", "infinite runs", ["iir/State.h", "iir/Cascade.h:CascadeStages::filter"])
p("C29", "Every design is stable",
  "Every low/high/band pass, band stop and shelf setup with cutoff in (0,1/2), band edges in order, positive ripple or rejection (for Chebyshev shelves less than |gainDb|) succeeds and gives poles strictly inside the unit circle, for Butterworth, Chebyshev I and Chebyshev II at every order, whatever was done with the object before. (Excepted in exact arithmetic: odd order and the band width for which the transformed real pole or zero lies at z=0; there setup throws, see C51.)",
  "all orders, cutoffs, widths, ripples, gains", "all orders and real parameters; tests only watch one impulse response decay", ["iir/PoleFilter.cpp", "iir/Butterworth.cpp", "iir/ChebyshevI.cpp", "iir/ChebyshevII.cpp"])
p("C30", "Butterworth low pass has the Butterworth magnitude response",
  "After LowPass setup with order n and cutoff fc in (0,1/2): |response(f)|^2 = 1/(1+(tan(pi f)/tan(pi fc))^(2n)) for 0<=f<1/2 and 0 at 1/2; so gain 1 at DC, -3 dB at fc, strictly decreasing.",
  "all orders, cutoffs, frequencies", "closed form over all orders and reals", ["iir/Butterworth.cpp:LowPassBase::setup", "iir/PoleFilter.cpp:LowPassTransform", "iir/Cascade.cpp:setLayout"])
p("C31", "Butterworth high pass has the Butterworth magnitude response",
  "|response(f)|^2 = 1/(1+(tan(pi fc)/tan(pi f))^(2n)) for 0<f<1/2, 0 at DC, 1 at Nyquist, monotone.",
  "all orders, cutoffs, frequencies", "as C30", ["iir/Butterworth.cpp:HighPassBase::setup", "iir/PoleFilter.cpp:HighPassTransform"])
p("C32", "Butterworth band pass has the Butterworth magnitude response",
  "With band edges f1=fc-fw/2, f2=fc+fw/2 inside (0,1/2): |response(f)|^2 = 1/(1+L(f)^(2n)), L = (cos w0 - cos w)/(tan(pi(f2-f1)) sin w); unit gain at the warped centre, -3 dB at both edges, zero at DC and Nyquist, strictly monotone on either side of the centre (except the case of C51, where setup throws).",
  "all orders, centre frequencies, widths, frequencies", "as C30", ["iir/Butterworth.cpp:BandPassBase::setup", "iir/PoleFilter.cpp:BandPassTransform"])
p("C33", "Butterworth band stop has the Butterworth magnitude response",
  "|response(f)|^2 = 1/(1+L(f)^(-2n)); zero at the warped centre, -3 dB at both edges, unit gain at DC and Nyquist, strictly monotone on either side of the centre (except the case of C51, where setup throws).",
  "all orders, centre frequencies, widths, frequencies", "as C30", ["iir/Butterworth.cpp:BandStopBase::setup", "iir/PoleFilter.cpp:BandStopTransform"])
p("C34", "Butterworth shelves have the requested gain",
  "Low shelf: gain 10^(gainDb/20) at DC and 1 at Nyquist, |response|^2 = (G+x^(2n))/(1/G+x^(2n)); high shelf mirrored; band shelf: gain G at the warped centre and 1 at DC and Nyquist.",
  "all orders, cutoffs, gains, frequencies", "as C30", ["iir/Butterworth.cpp:AnalogLowShelf::design", "iir/Butterworth.cpp:LowShelfBase::setup", "iir/Butterworth.cpp:HighShelfBase::setup", "iir/Butterworth.cpp:BandShelfBase::setup"])
p("C35", "Chebyshev I filters keep the ripple specification",
  "|response|^2 = 1/(1+eps^2 T_n(x)^2) with eps^2 = 10^(ripple/10)-1 and x the prewarped normalised frequency (low, high, band pass, band stop): in the pass band the gain stays between -rippleDb and 0 dB, equals -rippleDb at the edge and falls monotonically beyond it.",
  "all orders, cutoffs, positive ripples, frequencies", "as C30", ["iir/ChebyshevI.cpp:AnalogLowPass::design", "iir/ChebyshevI.cpp:LowPassBase::setup"])
p("C36", "Chebyshev II filters guarantee the stop band rejection",
  "|response|^2 = 1/(1+1/(eps^2 T_n(1/x)^2)) with eps^2 = 1/(10^(stopBandDb/10)-1): everywhere in the stop band the rejection is at least stopBandDb, as ChebyshevII.h promises, exactly that at the edge, and the gain in the pass band is monotone.",
  "all orders, cutoffs, positive rejections, frequencies", "as C30", ["iir/ChebyshevII.cpp:AnalogLowPass::design", "iir/ChebyshevII.h"])
p("C37", "Chebyshev shelves have the requested gain",
  "With 0 < ripple < |gainDb|, an odd order low shelf has gain gainDb at DC (even order: ripple dB nearer to 0 dB), unit gain at Nyquist, in the pass band the gain stays between gainDb and the edge gain (ripple dB nearer to 0 dB), and beyond the edge it tends strictly to 0 dB; likewise high and band shelves. (gainDb = 0 is found to throw.)",
  "all orders, cutoffs, gains, ripples", "as C30", ["iir/ChebyshevI.cpp:AnalogLowShelf::design", "iir/ChebyshevII.cpp:AnalogLowShelf::design"])
p("C38", "RBJ low and high pass gains",
  "For 0<f0<1/2 and q>0: low pass has gain 1 at DC, 0 at Nyquist and q at f0; high pass has 0 at DC, 1 at Nyquist and q at f0. At every other frequency the squared gain is 1/((1-x^2)^2+(x/q)^2), x = tan(pi f)/tan(pi f0) (low pass) or its inverse (high pass).",
  "all frequencies and q", "all reals", ["iir/RBJ.cpp:LowPass::setupN", "iir/RBJ.cpp:HighPass::setupN"])
p("C39", "RBJ band pass, band stop and notch gains",
  "BandPass2 peaks with gain 1 at the centre and nowhere exceeds it, BandPass1 has gain equal to the bandWidth argument at the centre, both reject DC and Nyquist; BandStop and IIRNotch have gain exactly 0 at the centre; BandStop has gain 1 at DC and Nyquist.",
  "all centre frequencies and widths", "all reals", ["iir/RBJ.cpp:BandPass1::setupN", "iir/RBJ.cpp:BandPass2::setupN", "iir/RBJ.cpp:BandStop::setupN", "iir/RBJ.cpp:IIRNotch::setupN"])
p("C40", "RBJ shelf gains",
  "LowShelf: 10^(gainDb/20) at DC and 1 at Nyquist; HighShelf: 1 at DC and 10^(gainDb/20) at Nyquist; BandShelf: 10^(gainDb/20) at the centre and 1 at DC and Nyquist.",
  "all frequencies, gains, slopes, widths", "all reals", ["iir/RBJ.cpp:LowShelf::setupN", "iir/RBJ.cpp:HighShelf::setupN", "iir/RBJ.cpp:BandShelf::setupN"])
p("C41", "RBJ all pass has gain one everywhere",
  "|response(f)| = 1 for every f, every phaseFrequency in (0,1/2) and q>0; for a phaseFrequency outside that range (which the library does not reject) the same holds wherever the section has a nonzero leading coefficient and no pole at that frequency.", "all frequencies and parameters", "all reals", ["iir/RBJ.cpp:AllPass::setupN"])
p("C42", "RBJ filters are stable for valid parameters",
  "For 0<f0<1/2 and positive q / width / 0<slope<=1 all RBJ filters have their poles strictly inside the unit circle.", "all valid parameters", "all reals", ["iir/RBJ.cpp"])
p("C43", "Copies of RBJ filters and SOS cascades are independent values",
  "Copying an RBJ filter or SOSCascade yields an object that continues identically, and operations on one never affect the other.", "all histories of both objects", "interleavings of operations on two objects", ["iir/RBJ.h", "iir/Custom.h:SOSCascade"])
p("C44", "Copy construction of pole filters",
  "A copy constructed pole filter continues with the same outputs, and filtering/resetting one never affects the other; setting one up should only affect that one. (Found false: copies share the original's coefficient storage through pointers; setup on the copy reconfigures the original, and is undefined after the original is destroyed.)",
  "all interleavings of operations on the objects of a program", "aliasing shows only for particular interleavings; the existing test passes in spite of it", ["iir/PoleFilter.h:PoleFilter(const PoleFilter&)", "iir/Cascade.h:Cascade::m_stageArray", "test/assignment.cpp"])
p("C45", "Assignment of pole filters resets and keeps the target's configuration",
  "f = g leaves f's coefficients and response as they were (nothing is copied from g), clears f's delay lines and never changes g.", "all f, g, histories", "all pairs of objects", ["iir/PoleFilter.h:PoleFilter::operator="])
p("C46", "SOSCascade imports scipy second order sections",
  "SOSCascade(sos) realises the product of (s0+s1/z+s2/z^2)/(s3+s4/z+s5/z^2) over the rows; a NaN row throws, leaving earlier rows installed and later rows untouched.", "all matrices of every size, all inputs", "all matrices and signals", ["iir/Custom.h:SOSCascade", "iir/Cascade.h:CascadeStages::setup"])
p("C47", "Reported poles and zeros are those of the sections",
  "After a successful setup the i-th entry of getPoleZeros() is the pole/zero pair of the i-th section: conjugate or both real, and the section's transfer function has exactly these poles and zeros.", "all designs", "all designs", ["iir/PoleFilter.h:PoleFilterBase2::getPoleZeros", "iir/Cascade.cpp:setLayout", "iir/Layout.h"])
p("C48", "Layout accepts only realisable pole/zero sets",
  "LayoutBase::add / addPoleZeroConjugatePairs reject NaN, non real single poles, unmatched pairs and anything after an odd (first order) entry, leaving the layout unchanged; getPair rejects every index outside the pairs added.", "all call sequences", "histories", ["iir/Layout.h:LayoutBase"])
p("C49", "setup with negative order",
  "Requested orders that are zero or negative are not rejected. Even ones configure the object like a new one (no stages, pass-through) whatever the other parameters; odd ones below -1 give for Butterworth low/high/band pass and band stop what order 1 gives, and for Butterworth shelves the first order shelf of gain gainDb/order (so of opposite sign); order -1 is silently ignored by a new Butterworth object but acts as order 1 on one set up before with another order.", "all negative orders, histories", "all orders and histories", ["iir/Butterworth.cpp:AnalogLowPass::design", "iir/Butterworth.h"])
p("C50", "setup twice with the same arguments equals setup once",
  "Repeating a successful setup() leaves coefficients, response, reported poles and delay lines exactly as after the first one.", "all classes, arguments, histories", "all arguments", ["iir/Butterworth.cpp", "iir/ChebyshevI.cpp", "iir/ChebyshevII.cpp"])
p("C51", "Odd order band filters at the critical width are refused",
  "For odd order and otherwise valid parameters, a band pass, band stop or band shelf whose width sends the prototype's real pole (or zero) to z=0 (Butterworth: width exactly fs/4) cannot be set up: setup throws on every object, whatever was done before. These are exactly the widths excepted in C29 and C32-C37.",
  "all odd orders, centre frequencies, ripples, gains, histories", "a single real width per design; no test hits it", ["iir/Types.h:ComplexPair::isMatchedPair", "iir/PoleFilter.cpp:BandPassTransform", "iir/PoleFilter.cpp:BandStopTransform", "iir/Layout.h:LayoutBase::add"])
p("C52", "A setup that succeeds leaves a stable filter",
  "If setup()/setupN() returns without throwing, the filter is stable: bounded input gives bounded output and every transient dies out. (Found false: a negative band width is accepted silently by all nine band pass, band stop and band shelf classes and puts every pole outside the unit circle, giving an unbounded impulse response; so do odd negative orders of the Chebyshev low and high pass filters. It holds for all parameters that are valid in the sense of C29.)",
  "all classes, orders, parameters, histories, inputs", "all real parameters; tests only try valid ones", ["iir/PoleFilter.cpp:BandPassTransform", "iir/PoleFilter.cpp:BandStopTransform", "iir/ChebyshevI.cpp:AnalogLowPass::design", "iir/Butterworth.h"])
p("C53", "A pole outside the unit circle makes the output unbounded",
  "If a section of a filter (pole filter, SOSCascade or RBJ) has a pole outside the unit circle that no zero of any section cancels, then filtering an impulse from the reset state gives outputs exceeding every bound; the library never detects this. If the pole is on the unit circle, some bounded input does so; when no pole is cancelled, bounded inputs give bounded outputs exactly if all poles are inside the unit circle.",
  "all coefficients, all delay line types, all numbers of sections", "limit statement over an infinite execution", ["iir/State.h", "iir/Cascade.h:CascadeStages::filter", "iir/Custom.h:SOSCascade", "iir/RBJ.h:RBJbase::filter"])
p("C54", "Rounding errors of a stable filter do not accumulate",
  "For coefficients with all poles inside the unit circle there is a constant C such that, in every arithmetic whose +, -, * have relative error at most u and absolute error at most eta below its overflow threshold Omega (IEEE double: u = 2^-53), where u is small enough for each section (18 u (1 + (A+B)/((1-|p|)(1-|q|))) <= 1, which is so for all small u), for every input bounded by X with C (X + eta) <= Omega: after reset no output is ever infinite or NaN, and each output differs from the exact response of the stored coefficients to that input by at most C (u X + eta), no matter how many samples have been processed. For one section C is explicit: 9 (1+A+B) / ((1-|p|)(1-|q|)) times the bound on intermediate results.",
  "all stable coefficient sets, all three delay lines, all pole filter classes, SOS cascades and RBJ filters, all arithmetics satisfying the standard rounding model, all bounded inputs of any length",
  "a claim about unboundedly long runs and all rounding patterns; a test sees one rounding of finitely many samples", ["iir/State.h:DirectFormI", "iir/State.h:DirectFormII", "iir/State.h:TransposedDirectFormII", "iir/Cascade.h:CascadeStages"])
p("C55", "A filter forgets its past at the rate of its slowest pole",
  "If all poles have modulus less than rho, two objects with the same coefficients but different (finite) delay line contents, fed the same samples, return outputs that differ by at most C rho^n after n samples, whatever the samples. In particular, after a setup with valid parameters on a running object (delay lines are kept) its output approaches geometrically that of the same filter after reset().",
  "all coefficient sets, all delay line contents, all inputs of any length, all pole filter classes, SOS cascades, RBJ filters, three delay line types",
  "a claim about all inputs and unbounded time", ["iir/State.h", "iir/Cascade.h:CascadeStages", "iir/RBJ.h"])
p("C56", "RBJ filters of the same frequency and quality complement each other",
  "For the same frequency f0 and quality/width q: BandStop plus BandPass2 returns the input, LowPass plus HighPass returns what BandStop returns, AllPass returns the input minus twice BandPass2, and BandPass1 is q times BandPass2; sample for sample, from reset, in exact arithmetic.",
  "0 < f0 < 1/2, q > 0, all inputs of any length", "all parameters and inputs", ["iir/RBJ.cpp"])
p("C57", "A shelf with gain g and the one with gain -g undo each other",
  "RBJ LowShelf, HighShelf, BandShelf: filtering with gain g dB and then with -g dB (same frequency, slope/width) restores the signal sample for sample, from reset, in exact arithmetic. So do Butterworth and Chebyshev I/II low, high and band shelves of the same order, and their gains multiply to 1 at every frequency.",
  "all valid parameters and orders, all inputs, whatever was done with the objects before", "all parameters, orders, inputs", ["iir/RBJ.cpp", "iir/Butterworth.cpp:AnalogLowShelf::design", "iir/ChebyshevI.cpp:AnalogLowShelf::design", "iir/ChebyshevII.cpp:AnalogLowShelf::design"])
p("C58", "Butterworth pairs are power complementary",
  "A Butterworth low pass and high pass of the same order and cutoff have |H_LP|^2 + |H_HP|^2 = 1 at every frequency, and so have band pass and band stop of the same order and band.",
  "all orders, cutoffs and bands, frequencies in [0, 1/2]", "all orders and frequencies", ["iir/Butterworth.cpp", "iir/PoleFilter.cpp"])
p("C59", "A filter never amplifies energy by more than its largest gain squared",
  "After reset, for every input and at every time, the energy of the output so far is at most G times the energy of the input so far, where G is the largest |response|^2. So Butterworth and Chebyshev I/II low, high, band passes and band stops with valid parameters never return more energy than they were given, shelves at most max(1, gain^2) times as much, RBJ filters at most the square of the peak gain of C62.",
  "all stable filters (21 pole filter classes, SOS cascades, RBJ), all inputs of any length, all times", "all inputs; a test sees finitely many", ["iir/State.h", "iir/Cascade.h:CascadeStages::filter", "iir/Cascade.cpp:Cascade::response", "iir/Butterworth.cpp", "iir/ChebyshevI.cpp", "iir/ChebyshevII.cpp", "iir/RBJ.cpp"])
p("C60", "The energy of the impulse response is the mean of the squared gain",
  "The sum of the squares of the impulse response of a stable filter equals 2 times the integral of |response(f)|^2 for f from 0 to 1/2 (Parseval): response() and filter() agree in total energy.",
  "all stable pole filters and RBJ filters", "infinite sum and integral", ["iir/Cascade.cpp:Cascade::response", "iir/Biquad.cpp:Biquad::response", "iir/State.h"])
p("C61", "Complementary filters split the energy and all-passes keep it",
  "For every input of finite energy: the outputs of a Butterworth low pass and high pass of the same order and cutoff (or band pass and band stop of the same band) have energies that add up to that of the input, and the output of an RBJ AllPass has exactly the energy of the input.",
  "all orders, cutoffs, bands, all inputs of finite energy (also without end)", "all inputs, infinite sums", ["iir/Butterworth.cpp", "iir/PoleFilter.cpp", "iir/RBJ.cpp:AllPass"])
p("C62", "Largest and smallest gain of the RBJ filters",
  "At every frequency the gain of an RBJ filter with valid parameters lies between bounds that are attained: LowPass and HighPass: 0 and 1 if 2q^2 <= 1, else 0 and the resonance 2q^2/sqrt(4q^2-1); BandPass1: 0 and q; BandPass2, BandStop: 0 and 1; AllPass: 1; IIRNotch: 0 and 2(1+|c|)/(1+r^2+2r|c|) (more than 1) with c = cos(2 pi f0), r = exp(-pi f0/q); shelves: 1 and 10^(gainDb/20).",
  "all valid parameters, all frequencies", "all parameters and frequencies", ["iir/RBJ.cpp"])
p("C63", "std::polar is only called with a nonnegative modulus",
  "No setup() and no response() calls std::polar with a negative or NaN modulus (undefined behaviour by the C++ standard, an abort with the assertions of libstdc++ enabled).",
  "all classes, orders, arguments, histories, any arithmetic", "depends on the standard library: a test without assertions sees nothing", ["iir/Butterworth.cpp:AnalogLowShelf::design", "iir/Butterworth.cpp:AnalogLowPass::design", "iir/Cascade.cpp:Cascade::response", "iir/Biquad.cpp:Biquad::response"])
p("C64", "IEEE double: outputs stay within rounding errors of the exact response, whatever the delay line type",
  "With IEEE 754 binary64 arithmetic (round to nearest even, subnormals, signed zeros, infinities, NaN): for stable stored coefficients with 18 * 2^-53 (1 + (A+B)/((1-|p|)(1-|q|))) <= 1 for each section there is C such that after reset, for every input bounded by X with C (X + 2^-1075) at most the largest double, no output is ever infinite or NaN and each is within C (2^-53 X + 2^-1075) of the exact response. Two objects that differ in the delay line type (DirectFormI, DirectFormII, TransposedDirectFormII) only, return outputs that differ by at most twice that, for ever.",
  "all such coefficients, all pole filter classes, SOS cascades and RBJ filters, all inputs of any length", "all inputs, unbounded time", ["iir/State.h:DirectFormI", "iir/State.h:DirectFormII", "iir/State.h:TransposedDirectFormII", "iir/Cascade.h:CascadeStages", "iir/RBJ.h:RBJbase"])
p("C65", "IEEE double: filters are odd and time invariant without any error",
  "With IEEE 754 binary64 arithmetic, after reset: if every input sample is negated, every output sample is negated (the doubles compare equal, or both are NaN), for any coefficients and inputs including infinities and NaN. If zeros are prepended to the input and the coefficients are finite, then the output is zeros and then the same output as before.",
  "all coefficients, all inputs of any length, all delays, all pole filter classes, SOS cascades and RBJ filters, three delay line types", "all inputs and coefficients; a claim about exact equality of rounded results", ["iir/State.h:DirectFormI", "iir/State.h:DirectFormII", "iir/State.h:TransposedDirectFormII", "iir/Cascade.h:CascadeStages", "iir/RBJ.h:RBJbase"])
p("C66", "response() is the textbook transfer function, phase included",
  "After a setup with valid parameters, response(f) of each of the 21 Butterworth and Chebyshev I/II designs is the complex value of the textbook transfer function (product over the poles and zeros of the analog prototype, gain 1 - or -ripple for even order Chebyshev I - at the reference point, positive sign) at s = i tan(pi f)/tan(pi fc), its inverse, or the prewarped frequency of the band. The ten RBJ filters have the transfer functions of the Audio EQ Cookbook at s = i tan(pi f)/tan(pi f0) (IIRNotch: zeros at exp(+-i w0), poles at r exp(+-i w0)). So a Butterworth low pass of order o shifts its cutoff frequency by exactly -45 degrees times o.",
  "all orders, valid parameters, frequencies in [0, 1/2], whatever was done with the object before", "all orders, parameters and frequencies", ["iir/Butterworth.cpp", "iir/ChebyshevI.cpp", "iir/ChebyshevII.cpp", "iir/PoleFilter.cpp", "iir/Cascade.cpp:Cascade::setLayout", "iir/Cascade.cpp:Cascade::response", "iir/RBJ.cpp"])
p("C67", "The frequency response determines the output",
  "Two stable pole filters (of whatever class, size and delay line type; also a pole filter and an RBJ filter) return the same samples for every input after reset() if and only if response() returns the same complex value at every frequency in (0, 1/2); agreeing on the unit impulse is enough too. If two responses multiply to a third, the two filters in series return what the third returns; if they multiply to 1, the second restores the input of the first; if a combination of two responses is a third, the same combination of the outputs is the third output. So objects asked for the same order and design return the same samples whatever their template order, delay line type, overload of setup and past.",
  "all stable filters, all inputs, all classes, sizes and delay line types", "all inputs; equality of two functions on an interval", ["iir/Cascade.cpp:Cascade::response", "iir/Cascade.h:CascadeStages::filter", "iir/State.h", "iir/RBJ.h", "iir/PoleFilter.h"])
p("C68", "Butterworth filters are RBJ filters in series",
  "Butterworth::LowPass (HighPass) of even order 2m returns the same samples as m RBJ::LowPass (HighPass) in series, with the same cutoff and q = 1/(2 sin(pi(2k+1)/(4m))), k < m; for order 2 it is the RBJ filter with q = 1/sqrt 2. Butterworth::LowShelf and HighShelf of order 2 are the RBJ shelves with slope 1. Butterworth::BandPass, BandStop and BandShelf of order 1 are RBJ::BandPass2, BandStop and BandShelf of the same band.",
  "all m, valid parameters, all inputs from reset, whatever was done with the objects before", "all orders, parameters and inputs; links two independently written parts of the library", ["iir/Butterworth.cpp", "iir/PoleFilter.cpp", "iir/Cascade.cpp:Cascade::setLayout", "iir/RBJ.cpp"])
p("C69", "Crossovers add up",
  "The outputs of Butterworth LowPass and HighPass of order 1 with the same cutoff add up to the input, sample for sample. The Linkwitz-Riley crossover of order 4 (two Butterworth low passes of order 2 in series, two high passes in series) adds up to the output of RBJ::AllPass with q = 1/sqrt 2.",
  "all cutoffs in (0, 1/2), all inputs from reset, whatever was done with the objects before, also different delay line types", "all cutoffs and inputs", ["iir/Butterworth.cpp", "iir/RBJ.cpp:AllPass::setupN", "iir/State.h"])
p("C70", "High filters are mirror images of low filters",
  "If every other sample of the input is negated, the filter of the same order, gain and ripple with low and high exchanged and fc replaced by 1/2 - fc returns the same output with every other sample negated: low pass and high pass, low shelf and high shelf, and band filters at fc and 1/2 - fc of the same width, for Butterworth and Chebyshev I/II; also RBJ LowPass/HighPass, LowShelf/HighShelf, BandPass1, BandPass2, BandStop, AllPass.",
  "all orders, valid parameters, all inputs from reset, whatever was done with the objects before", "all orders, parameters and inputs", ["iir/PoleFilter.cpp", "iir/Butterworth.cpp", "iir/ChebyshevI.cpp", "iir/ChebyshevII.cpp", "iir/RBJ.cpp"])
p("C71", "IEEE double: RBJ filters designed in floating point are stable within practical limits",
  "With the whole of setup/setupN computed in double arithmetic and a mathematical library with errors of at most 256 ulp: for finite parameters with 2^-20 <= fc/fs <= 1/2 - 2^-20 and 2^-10 <= q <= 2^10 (shelves: |gain| <= 60 dB, slope in [1/64, 1]; band shelf: fc/fs <= 3/8, |gain| <= 60 dB, bandwidth in [2^-10, 4]) the call succeeds, leaves the delay line alone and stores finite coefficients whose poles are inside the unit circle. The limits are needed: the RBJ low pass with fc/fs = 2^-100 stores a double pole at z = 1 and zero numerator, and the four octave band shelf at fc/fs = 1/2 - 2^-20 stores NaN without an exception.",
  "all ten RBJ filters, all parameters within the limits, all past states of the object, all libraries of that accuracy", "all parameters; accumulated rounding errors next to the unit circle", ["iir/RBJ.cpp", "iir/Biquad.cpp:Biquad::setCoefficients", "iir/RBJ.h"])
p("C72", "IEEE double: Butterworth and Chebyshev low and high passes designed in floating point are stable within practical limits",
  "With the whole of setup computed in double arithmetic (prototype, bilinear transform in complex numbers, section coefficients, response at the reference frequency, scaling) and a mathematical library with relative errors of at most 2^-45 (256 ulp): for a Butterworth, Chebyshev I or Chebyshev II low or high pass of any order from 1 to 16, with 2^-10 <= fc/fs <= 1/2 - 2^-10, ripple between 1/64 and 30 dB and stop band between 3 and 100 dB, every overload of setup succeeds, whatever was done to the object before, and every section it stores is finite and has its poles inside the unit circle.",
  "all six classes, orders 1 to 16, all parameters within the limits, all histories of the object, all libraries of that accuracy", "all parameters; accumulated rounding errors next to the unit circle", ["iir/Butterworth.cpp", "iir/ChebyshevI.cpp", "iir/ChebyshevII.cpp", "iir/PoleFilter.cpp:LowPassTransform", "iir/PoleFilter.cpp:HighPassTransform", "iir/Cascade.cpp:Cascade::setLayout", "iir/Biquad.cpp"])
p("C73", "setLayout realises any poles and zeros of the client",
  "A client adds conjugate pairs, pairs of real roots and possibly one single real pole and zero to a LayoutBase, asks for gain g at angular frequency w, and calls the inherited setLayout of any pole filter object: every call succeeds, the delay lines stay, getNumStages() is half the number of poles (rounded up), the filter is stable if and only if all poles are inside the unit circle, response(f) is the rational function with these roots scaled to magnitude g at w, and sinusoids settle to it; getPoleZeros() goes on reporting the last setup. A layout with more pairs than sections throws: filter() goes on as before and the next successful setup() does exactly what it would have done, but until then getNumStages() is too large and response() and operator[] read outside the array.",
  "all poles and zeros, gains and frequencies, all classes, template orders and histories of the object", "all roots; undefined behaviour", ["iir/Cascade.cpp:Cascade::setLayout", "iir/Cascade.h:Cascade", "iir/Layout.h:LayoutBase", "iir/Biquad.cpp:Biquad::setPoleZeroPair"])
p("C74", "The inherited setup(order, ...) of the base classes does not check the order",
  "With an order up to FilterOrder the setup(order, ...) of the *Base class, which the user classes hide but do not remove, is setupN(order, ...). With an order that needs more pairs of poles than the template has room for, it never succeeds, and if the same parameters are accepted by a filter with a larger FilterOrder (always for valid parameters in exact arithmetic), it writes outside the storage of the prototype, whatever was called before. An order that is one more than an odd FilterOrder needs no more room for the prototype: it gives the filter of the template with that order, except for the band filters, which write outside the storage of the digital layout.",
  "all 21 classes, template orders, orders, parameters and histories; any arithmetic", "undefined behaviour; all orders", ["iir/Butterworth.h:LowPassBase", "iir/Butterworth.cpp:LowPassBase::setup", "iir/ChebyshevI.cpp", "iir/ChebyshevII.cpp", "iir/Layout.h:LayoutBase::addPoleZeroConjugatePairs"])
p("C75", "CascadeStages::setup on a pole filter",
  "After the inherited CascadeStages::setup(sosCoefficients) a pole filter returns the same samples as an SOSCascade with the same delay lines that got the same call; the number of stages, the poles and the delay lines it reports stay as they were. With as many finite rows as sections, fourth entries not 0 and poles inside the unit circle, sinusoids settle to the product of the transfer functions of all rows, but response() is the product of the first getNumStages() of them only: on a new object it is 1 whatever the rows are.",
  "all rows, all classes, template orders and histories of the object, any arithmetic for the first part", "all coefficients and inputs", ["iir/Cascade.h:CascadeStages::setup", "iir/Cascade.cpp:Cascade::response", "iir/PoleFilter.h:PoleFilter"])
p("C76", "IEEE double: an RBJ filter designed and run in floating point stays close to the ideal filter",
  "With design and filtering computed in double arithmetic and a mathematical library with errors of at most 256 ulp: an RBJ low pass, high pass, band pass (both), band stop, notch or all pass with q >= 1/2 and sharpness s = (2q+1)/sin(2 pi fc/fs) (notch: 2/(1-exp(-pi fc/(fs q)))) up to 1024 is set up without an exception, and after reset() returns for every input of magnitude at most X (2^-1000 <= X <= 2^900) finite samples that are at all times within s^4 2^-34 X of the output of the ideal filter with the exact quotient fc/fs. A low pass at 6 kHz with q = 1 and 48 kHz has s < 5: the error is below X/27000000 for ever.",
  "seven RBJ filters, all parameters within the limits, all past states of the object, all inputs of unlimited length, all libraries of that accuracy", "all parameters and inputs; errors accumulate over unlimited time", ["iir/RBJ.cpp", "iir/RBJ.h", "iir/Biquad.cpp:Biquad::setCoefficients", "iir/State.h:DirectFormI"])
p("C77", "IEEE double: a Butterworth low or high pass designed and run in floating point stays close to the ideal filter",
  "With design and filtering computed in double arithmetic and a mathematical library with errors of at most 256 ulp: a Butterworth low or high pass of order 1 to 16 with a cutoff frequency between fs/512 and fs/2 - fs/512 is set up without an exception, whatever was done with the object before, and after reset() returns for every input of magnitude at most X (2^-400 <= X <= 2^400) finite samples that are at all times within A (Q + n) 2^-30 X of the output of the same filter without any rounding, where n is the template order, A = prod |1-q|/(1-|q|) and Q = sum 1/(1-|q|)^2 over the poles q of the ideal digital filter (mirrored for high passes). A low pass of order 2 at 12 kHz with 48 kHz stays within 27 2^-30 X for ever.",
  "orders 1 to 16, every template order below 2^30, all cutoff frequencies within the limits, all histories of the object, all delay lines, all inputs of unlimited length, all libraries of that accuracy", "all parameters, histories and inputs; errors of prototype, bilinear transform, section coefficients, normalisation and filtering accumulate over unlimited time", ["iir/Butterworth.cpp", "iir/PoleFilter.cpp:LowPassTransform", "iir/PoleFilter.cpp:HighPassTransform", "iir/Cascade.cpp:Cascade::setLayout", "iir/Biquad.cpp:Biquad::setTwoPole", "iir/Cascade.h:filter"])
p("C78", "The inherited members of a pole filter leave no trace in the next setup",
  "After any sequence of calls of public members of a pole filter object - setup, setupN, filter, reset, applyScale, the inherited setLayout (with any layout, also one that it rejects), CascadeStages::setup and the setup of the base class with an order up to FilterOrder - what the next setup does depends on the earlier setups alone: there is an object on which nothing else was called, and on both the next setup has the same outcome and, if it succeeds, leaves the same sections, poles, zeros, stage count and response. A setup that a new object accepts is accepted, and has the effect it has on a new object. No setup accesses an array out of range, and filter() walks arrays of the same length.",
  "all classes, template orders, sequences of calls with any arguments, any arithmetic", "all sequences of calls", ["iir/Cascade.cpp:Cascade::setLayout", "iir/Cascade.h:CascadeStages::setup", "iir/PoleFilter.h:PoleFilterBase", "iir/Butterworth.cpp:LowPassBase::setup"])
p("C79", "IEEE double: fused multiply-adds chosen by the compiler keep the error bounds",
  "filter() is template code that the user's compiler may contract: any product that is added to or subtracted from something may be fused with it into one fma, differently in every place and for every sample. Whatever it chooses, the samples stay within the bounds of C54 and C64 (chains of stable sections: pole filters, SOS cascades, RBJ filters), of C76 (RBJ filters designed and run in double arithmetic) and of C77 (Butterworth low and high passes). Without an fma instruction the only possible result is the one of C01. The choice can be seen: a*a - c is 0 if the product is rounded and 1 if it is fused, for some doubles a and c.",
  "all choices of the compiler at each operation of each sample, all coefficients, inputs and parameters within the limits of C54, C76, C77", "all inputs and all compilers", ["iir/State.h:68-79", "iir/State.h:110-120", "iir/State.h:143-153", "iir/Cascade.h:156-164"])
p("C80", "IEEE double: the response that is reported is close to the ideal response",
  "With design and evaluation computed in double arithmetic and a mathematical library with errors of at most 256 ulp: after the setup of C77 (Butterworth low or high pass, order 1 to 16, any history) response(f) returns for every finite f with 0 <= f <= 1/2 a finite number within A Q 2^-28 of the response of the same filter without any rounding, A and Q as in C77. For low passes the magnitude is 1/sqrt(1+(tan pi f/tan pi fc)^(2 order)) up to that error, for every f < 1/2. After the setup of C76 (RBJ low, high, band pass, band stop, all pass and notch, sharpness sigma) response(f) of the section is within sigma^4 2^-29 of that of the ideal section.",
  "orders 1 to 16, all cutoff frequencies and qualities within the limits of C76 and C77, all histories of the object, all frequencies, all libraries of that accuracy", "all parameters and frequencies; the errors of the design, of exp(i w), of the powers, products and the complex quotient accumulate over the sections", ["iir/Cascade.cpp:Cascade::response", "iir/Biquad.cpp:Biquad::response", "iir/MathSupplement.h:addmul", "iir/Butterworth.cpp", "iir/RBJ.cpp"])
p("C81", "Float and integer samples: close to the ideal output from the parameters to the sample, and when they overflow",
  "With the design in double arithmetic and samples of type float or of an integer type of up to 53 bits: every filter of C76, C77 or (given coefficients) C64 returns for every input signal samples made of numbers within the bound D of these properties of the output of the ideal filter. For integers: if the ideal output stays D inside lo-1..hi+1, no conversion is undefined and the samples are within 1+D of it; for float: if its magnitude plus D is at most the largest float, they are within D + 2^-24 (|y|+D) + 2^-150. As soon as the ideal output is out of range by more than D, the behaviour is undefined. In particular a low pass (gain 1 at 0) and three 16 bit samples of full scale: undefined.",
  "all sample types of that kind, all signals of unlimited length, all parameters of C76/C77/C64, all histories", "all signals; whether the conversion overflows depends on the overshoot of the filter", ["iir/Cascade.h:CascadeStages::filter", "iir/RBJ.h:RBJbase::filter", "iir/RBJ.cpp", "iir/Butterworth.cpp"])
p("C82", "RBJ shelves designed and run in double arithmetic stay close to the ideal shelves",
  "RBJ::LowShelf, HighShelf and BandShelf with at most 24 dB of gain or cut, set up in an arithmetic with rounding errors (libm functions with relative error 2^-45) and fed any signal of magnitude at most X: all outputs are finite and at all times within gamma^5 sigma^4 2^-33 X of the output of the ideal shelf with the exact quotient of frequency and sampling rate (doubles), where gamma = 10^(|g|/40) and sigma measures how close the poles are to the unit circle; with or without fused multiply-adds in filter; with float and integer samples with one more conversion; and what response returns is within gamma^5 sigma^4 2^-32 of the response of the ideal shelf.",
  "all finite parameters with |g| <= 24 dB that are not resonant (slope at most 1 and large enough for the gain; band shelves with h <= A), sharpness up to 2^10, all signals of unlimited length, all histories of the filter, all frequencies for response", "all signals and parameters; errors accumulate over unlimited time in a recursive filter", ["iir/RBJ.cpp:LowShelf::setupN", "iir/RBJ.cpp:HighShelf::setupN", "iir/RBJ.cpp:BandShelf::setupN", "iir/RBJ.h:RBJbase::filter", "iir/Biquad.cpp:BiquadBase::response"])
p("C83", "Programs with many objects and attached cascades: who can change whom",
  "In a program with any number of pole filters, SOS cascades, RBJ filters and bare Cascade objects of any orders and delay line types, constructed, copied, assigned, destroyed, and attached to each other's sections with setCascadeStorage(getCascadeStorage()): a member function called on one object changes only that object and the objects it points to. An object that points to no other object and to which no other object points (every object that has just been constructed, at any point of any program) gives on every call the outcome, and ends in the state, that it would have in a program with its own calls alone, as long as it is not assigned to, destroyed, attached to something else, attached to by something else, or (pole filters) copied.",
  "all programs: any number of objects, any mixture of classes and delay line types, any sequence of statements, any arithmetic", "all programs; aliasing through raw pointers", ["iir/Cascade.cpp:Cascade::setCascadeStorage", "iir/Cascade.h:CascadeStages::getCascadeStorage", "iir/PoleFilter.h:PoleFilter", "iir/RBJ.h:RBJbase"])
p("C84", "setCascadeStorage: a cascade attached to the sections of another object",
  "After f.setCascadeStorage(g.getCascadeStorage()) of a pole filter f to an object g with as many sections, setup of f has the outcome it would have had; if it succeeds, the sections of g are those f would have got, f itself goes on filtering with its old sections, while response and getPoleZeros of f describe the new ones. So a pole filter designs the sections of a SOSCascade with any delay lines, which then returns for every input what a pole filter with these delay lines returns after that setup. A Cascade attached to g realises with setLayout any poles and zeros of the client in g (stable iff all poles are inside the unit circle, response as requested, sinusoids settle to it). But right after attaching, whatever sections g has, it reports 0 stages, no poles and the response 1, and applyScale changes nothing; setLayout of a Cascade that was never attached throws; and after g is destroyed neither setup nor setLayout ever succeeds.",
  "all 21 classes, template orders, histories of f, three delay line types, all parameters, all inputs; any arithmetic (realised layouts: exact)", "all programs, parameters and inputs; dangling pointers", ["iir/Cascade.cpp:Cascade::setCascadeStorage", "iir/Cascade.cpp:Cascade::setLayout", "iir/Cascade.h:CascadeStages::getCascadeStorage", "iir/Cascade.h:CascadeStages::filter", "iir/PoleFilter.h:PoleFilter"])
p("C85", "A copy of a pole filter that is attached to its own sections is independent of the original",
  "After copying a pole filter and calling copy.setCascadeStorage(copy.getCascadeStorage()), original and copy are independent: every call on one of them has the outcome it would have if the other did not exist.",
  "all classes, orders, delay lines and programs before and after; any arithmetic", "all programs; aliasing through raw pointers", ["iir/Cascade.cpp:Cascade::setCascadeStorage", "iir/PoleFilter.h:PoleFilter", "iir/Layout.h:LayoutBase"])
p("C86", "Loud passages are forgotten, together with their rounding errors",
  "If the input of a stable filter calms down to the level X1, then the output calms down to a multiple of X1 and its distance from the exact response to a multiple of the rounding errors at level X1, however loud the input was before; the factors depend on the coefficients only.",
  "all pole filters, SOS cascades and RBJ filters with stable stored coefficients for which the arithmetic is precise enough, all delay lines, all inputs and all choices of fused operations; any arithmetic with small relative and absolute errors", "statement about all times after any past; bounds for unlimited running time", ["iir/State.h:DirectFormI", "iir/State.h:DirectFormII", "iir/State.h:TransposedDirectFormII", "iir/Cascade.h:CascadeStages::filter", "iir/RBJ.h:RBJbase::filter"])
p("C87", "A stable filter falls silent when its input does",
  "Fed with zeros from some time on, a stable filter returns zeros from some later time on, in double arithmetic.",
  "all stable filters whose coefficients doubles are precise enough for, all delay lines, all inputs", "infinite running time; needs the rounding of subnormal numbers", ["iir/State.h:DirectFormI", "iir/State.h:DirectFormII", "iir/State.h:TransposedDirectFormII", "iir/Custom.h:SOSCascade"])
p("C88", "Filters in several threads do not notice each other",
  "Threads that use objects of their own, and on shared objects only the member functions that read (response, getPoleZeros, getNumStages, operator[]), get in every schedule of their calls the outcomes and end up with the objects that each of them gets when it runs alone. No call of one thread changes an object of another, or depends on one.",
  "all programs over pole filters, attached cascades and RBJ filters, any number of threads, all schedules of whole calls, memory in which no object points into an object of another owner (all objects that were constructed and not copied); any arithmetic", "all schedules of all programs; tests see a few", ["iir/Cascade.h:Cascade", "iir/PoleFilter.h:PoleFilter", "iir/RBJ.h:RBJbase", "iir/Biquad.h:Biquad"])
p("C89", "Custom::OnePole and Custom::TwoPole in doubles stay close to the filters they describe",
  "setup with a pole of magnitude at most 1 - 2^-38 (a pair of poles of radius at most 1 - 2^-19) succeeds whatever the object held before, and the samples returned afterwards, with any delay line and any use of fused operations, stay for ever within |s|(1+|z|)/(1-|p|)^2 2^-37 X (for pairs |s|(1+sigma)^2/(1-rho)^4 2^-37 X) of the filter with exactly these poles, zeros and scale.",
  "all practical scales, poles and zeros (|z| <= 3, sigma <= 3/2), all delay lines, all bounded inputs of unlimited length; any arithmetic with the precision of doubles and any library with 256 ulp, in particular IEEE doubles", "all reals of a domain and unlimited running time", ["iir/Custom.cpp:OnePole::setup", "iir/Custom.cpp:TwoPole::setup", "iir/Biquad.cpp:Biquad::setOnePole", "iir/Biquad.cpp:Biquad::setTwoPole", "iir/Biquad.h:Biquad::filter"])
p("C90", "IEEE double: Custom filters with poles inside the unit circle are stable",
  "OnePole::setup(scale, pole, zero) gives a stable filter if and only if |pole| < 1; TwoPole::setup gives a stable filter if the radius of the poles is below 1.",
  "all finite poles, all scales and zeros, IEEE doubles", "all doubles of a domain; the failure is at a single double", ["iir/Custom.cpp:OnePole::setup", "iir/Custom.cpp:TwoPole::setup", "iir/Biquad.cpp:Biquad::setTwoPole"])
p("C91", "IEEE double: the getters of Biquad return the coefficients that were set",
  "After setCoefficients(a0, a1, a2, b0, b1, b2) the getters getA0 to getB2 return exactly these doubles.",
  "all doubles that are not NaN", "all doubles; rounding of quotient and product", ["iir/Biquad.cpp:Biquad::setCoefficients", "iir/Biquad.h:Biquad::getA1", "iir/Biquad.h:Biquad::getB0"])
p("C92", "IEEE double: SOSCascade runs the sections of scipy exactly as they are given",
  "SOSCascade(sos) with rows whose fourth entry is 1 holds exactly the given coefficients (bit by bit) and empty delay lines; if the sections are stable, the samples it returns stay for ever within rounding errors of the output of exactly these sections.",
  "all lists of rows, all delay lines, all inputs of unlimited length, IEEE doubles", "all coefficients, all inputs and unlimited running time", ["iir/Custom.h:SOSCascade", "iir/Cascade.h:CascadeStages::setup", "iir/Biquad.cpp:Biquad::setCoefficients"])
p("C93", "Retuning an RBJ filter while it runs keeps its output bounded",
  "If an RBJ filter is set up again while it runs, as often as one likes, with parameters each of which gives a stable filter, then its output stays bounded for every bounded input.",
  "all schedules of valid parameters, all bounded inputs of unlimited length; exact arithmetic", "all schedules and inputs, unlimited running time", ["iir/RBJ.h:RBJbase::filter", "iir/RBJ.cpp:LowPass::setupN", "iir/State.h:DirectFormI"])
p("C94", "Where the gain rises and where it falls",
  "Between frequency 0 and half the sampling frequency the gain of Butterworth filters is monotonic (low and high pass; band filters on each side of the centre), RBJ low and high passes are monotonic if Q <= 1/sqrt 2 and otherwise have exactly one peak, at the frequency where tan(pi f) / tan(pi f0) (for the high pass its inverse) is sqrt(1 - 1/(2 Q^2)), RBJ band passes have one peak at the centre, band stop and notch one dip, the all pass is level, and Butterworth and RBJ shelves go from one level to the other without overshoot.",
  "all Butterworth and RBJ filters, orders, valid parameters and pairs of frequencies; exact arithmetic", "all real frequencies and parameters", ["iir/Butterworth.cpp:AnalogLowPass::design", "iir/Butterworth.cpp:AnalogLowShelf::design", "iir/RBJ.cpp:LowPass::setupN", "iir/RBJ.cpp:LowShelf::setupN", "iir/RBJ.cpp:IIRNotch::setupN"])
p("C95", "The ripple of the Chebyshev filters uses its whole tolerance",
  "In the pass band of a Chebyshev I low or high pass of order n the gain is -rippleDb and 0 dB in turn at n+1 frequencies, the last of them the cutoff, which are given by tan(pi f) = tan(pi fc) sin(k pi / 2n) (high pass: tan(pi fc) / cos(k pi / 2n)), and between neighbouring ones it is strictly monotonic; a band pass has 2n+1 such frequencies between its edges, a band stop n+1 in each pass band. In the stop band of the Chebyshev II filters the gain is in the same way -stopBandDb and exactly 0 in turn; in the band of the Chebyshev shelves it is the gain of the edge and gainDb in turn.",
  "all Chebyshev I and II filters, orders, cutoffs, widths, ripples, gains; exact arithmetic", "all real frequencies and parameters; tests sample the ripple", ["iir/ChebyshevI.cpp:AnalogLowPass::design", "iir/ChebyshevII.cpp:AnalogLowPass::design", "iir/ChebyshevI.cpp:AnalogLowShelf::design", "iir/ChebyshevII.cpp:AnalogLowShelf::design"])
p("C96", "Retuning a pole filter while it runs keeps its output bounded",
  "If a Butterworth or Chebyshev filter is set up again while it runs, as often as one likes, with parameters each of which gives a stable filter, then no call fails, the samples returned are determined numbers, and the output stays bounded for every bounded input.",
  "all classes, orders, delay line types, schedules of valid parameters, bounded inputs of unlimited length; exact arithmetic", "all schedules and inputs, unlimited running time", ["iir/Cascade.h:CascadeStages::filter", "iir/PoleFilter.h:PoleFilter", "iir/State.h:DirectFormII", "iir/State.h:TransposedDirectFormII"])
p("C97", "Each parameter moves the gain in one direction",
  "Of two filters set up by two calls that differ in one parameter, one has the greater gain at every frequency of a stated range. Butterworth: a higher cutoff gives a low pass more gain and a high pass less, at every frequency strictly between 0 and half the sampling rate; a higher order gives more gain in the pass band and less in the stop band (low, high, band pass, band stop); more decibels give a shelf more gain. Chebyshev I: a higher order gives less gain in the stop band, more ripple gives no more gain anywhere and less in the stop band, a higher cutoff gives the low pass more gain in the stop band and the high pass less. Chebyshev II: a higher order gives more gain in the pass band, more stop band attenuation gives no more gain anywhere and less in the pass band, a higher cutoff gives the low pass more gain in the pass band and the high pass less. RBJ: more Q gives low pass, high pass and band pass of constant skirt gain more gain, makes the band pass of peak gain 1 and the band stop narrower; more decibels give each shelf more gain; without resonance (Q <= 1/sqrt 2) a higher cutoff gives the low pass more and the high pass less gain.",
  "all pairs of parameters, orders, template orders, ways of calling setup, earlier histories of the two objects, frequencies of the range; exact arithmetic", "relation between two filters for all pairs of real parameters and all frequencies; tests compare samples of a few", ["iir/Butterworth.cpp:AnalogLowPass::design", "iir/Butterworth.cpp:AnalogLowShelf::design", "iir/ChebyshevI.cpp:AnalogLowPass::design", "iir/ChebyshevII.cpp:AnalogLowPass::design", "iir/RBJ.cpp:LowPass::setupN", "iir/RBJ.cpp:BandStop::setupN", "iir/RBJ.cpp:LowShelf::setupN"])
p("C98", "How loud the output can get: the peak gain, and which filters overshoot",
  "For every stable pole filter, every valid design (also RBJ) and every stable cascade of given sections the absolute values of the samples returned for an impulse sum to a number P: an input within [-M, M] is answered within [-P M, P M], and for every M > 0 inputs of samples M and -M come as near to P M as one likes. No gain that response() reports exceeds P. For every Butterworth low, high, band pass and band stop and every Chebyshev II low, high, band pass and band stop of order 2 or more P is greater than 1: for every M > 0 some input of samples M and -M is answered by a sample beyond M although no frequency is amplified. For Butterworth shelves of order 2 or more P is greater than the greatest gain. The Butterworth low pass of order 1 has P = 1 up to a quarter of the sampling rate and P = 2 tan(pi fc)/(1 + tan(pi fc)) beyond; up to a quarter its output never leaves the range of its input (and 0); the high pass of order 1 has max(1, 2/(1 + tan(pi fc))).",
  "all stable reachable pole filters, all valid designs, orders, parameters, histories, delay lines and inputs of unlimited length; exact arithmetic", "supremum over all inputs of unlimited length; tests try a few signals, and the usual ones (sinusoids) never show the overshoot", ["iir/Cascade.h:CascadeStages::filter", "iir/Butterworth.cpp:AnalogLowPass::design", "iir/Butterworth.cpp:AnalogLowShelf::design", "iir/ChebyshevII.cpp:AnalogLowPass::design", "iir/RBJ.h:RBJbase::filter"])
p("C99", "Integer samples: how loud they may be before the conversion of the output is undefined",
  "With the design in double arithmetic, samples of an integer type with range lo..hi (up to 53 bits), P the peak gain (C98) of the ideal filter and d the relative error of C76, C77 or C82: if all samples are at most M and (P + d) M is less than hi + 1 and than 1 - lo, then every conversion is defined and no output exceeds (P + d) M; if (P - d) M exceeds hi + 1 and 1 - lo, then some samples M and -M lead to undefined behaviour. In particular the Butterworth low pass of order 1 with a cutoff from 1/512 to 1/4 of the sampling rate is safe for all samples of up to 16 bits, and with 16 bits and a cutoff from 1/3 to 1/2 - 1/512 some samples 32767 and -32767 lead to undefined behaviour, although it amplifies no frequency.",
  "all Butterworth low and high passes of order 1 to 16 and RBJ filters with the parameters of C77, C76 and C82, all histories, integer types, signals of unlimited length; IEEE doubles", "worst case over all signals of unlimited length; the signals that overflow are not those one tries", ["iir/Cascade.h:CascadeStages::filter", "iir/RBJ.h:RBJbase::filter", "iir/Butterworth.cpp:AnalogLowPass::design"])
p("C100", "Filters in series",
  "For any number of filters with valid parameters (pole filters, RBJ filters, SOSCascade with stable sections, mixed), each fed with the output of the one before, from reset and in exact arithmetic: the order of the filters does not matter; a sinusoid comes out scaled and shifted by the product of the responses, and two such series give the same output for all inputs exactly if these products are the same; the largest possible output is at most the product of the peak gains.",
  "all lists of filters of all classes, orders, state types and parameters; all inputs", "all lists, designs and signals",
  ["iir/PoleFilter.h", "iir/RBJ.h", "iir/Custom.h:SOSCascade", "iir/Biquad.h:filter"])
p("C101", "Periodic input makes the output repeat itself exactly",
  "In double arithmetic, whatever the coefficients (stable or not) and the contents of the delay lines: if the input is periodic (for example constant, or zero after the end of a signal), then from some sample on filter() returns the same values again and again, bit by bit, with a multiple of the period of the input as period; there is no endless drift.",
  "all pole filters, RBJ filters and SOSCascade objects, state types, sample types, coefficients, states and periodic inputs", "infinite running time; all states and coefficients",
  ["iir/State.h", "iir/Cascade.h:filter", "iir/RBJ.h:filter"])
p("C102", "Filters connected in series and in parallel",
  "Take any network without feedback made of filters with valid parameters, delays by one sample, series connections and mixers with any gains, from reset and in exact arithmetic. Every input has exactly one output; a sinusoid comes out scaled and shifted by the response computed from the responses of the filters (products for series, weighted sums for mixers); two networks give the same output for all inputs exactly if these responses agree between 0 and half the sampling rate; the largest possible output for samples within +-M is M times the sum of the absolute values of the answer to an impulse.",
  "all such networks of filters of all classes, orders, state types and parameters; all inputs", "all networks and signals",
  ["iir/PoleFilter.h", "iir/RBJ.h", "iir/Custom.h:SOSCascade", "iir/Cascade.cpp:Cascade::response"])
p("C103", "Filters in series in double arithmetic",
  "Set up any number of filters in double arithmetic, Butterworth low and high passes of order up to 16 with normalised cutoff frequencies between 2^-9 and 1/2 - 2^-9 and RBJ filters whose sharpness is at most 2^10, reset them, and feed the output of each to the next. If the input samples are finite and of magnitude at most X, and X times the gains along the way stays between 2^-400 and 2^400, then no sample is ever infinite or NaN, and the output of the last filter differs from that of the same series of ideal filters by at most X times the product of (P_i + e_i) minus the product of P_i, where P_i is the peak gain of the i-th filter and e_i the error bound for it alone.",
  "all such series of any length, all earlier histories of the objects, all inputs, all times", "all series, parameters and signals",
  ["iir/PoleFilter.h", "iir/RBJ.h", "iir/Cascade.h:Cascade::filter", "iir/Butterworth.h", "iir/RBJ.cpp"])
p("C104", "Group delay: what becomes of envelopes and ramps",
  "A filter whose sections are stable, fed a sinusoid whose envelope grows linearly, (A + B n) cos(2 pi f n + phi), answers after a while with what response() and its derivative by the frequency say at f, whatever is in its delay lines: where response() is M(f) exp(i theta(f)), the envelope comes out scaled by M and late by -theta'(f)/(2 pi) samples, with a part in quadrature B M'(f)/(2 pi). In particular a Butterworth low pass of order o passes a ramp unchanged, 1/(2 tan(pi fc) sin(pi/(2 o))) samples late, each RBJ filter but the notch turns the ramp A + B n into g (A + B n) - B d / (2 tan(pi f0)) with g and d given by a table (for an all pass of quality q: g = 1, d = 2/q), and the notch passes it scaled by 2 (1 - cos w)/W and (1 - r^2)/W samples late, where W = 1 - 2 r cos w + r^2 and r, w are the radius and angle of its poles.",
  "all stable filters, all finite contents of the delay lines, all frequencies, envelopes and phases; for ramps all orders and cutoff frequencies and all RBJ parameters", "all filters, signals and times; a limit",
  ["iir/PoleFilter.h", "iir/Cascade.h:Cascade::filter", "iir/Cascade.cpp:Cascade::response", "iir/RBJ.h", "iir/RBJ.cpp", "iir/Butterworth.h"])
for x in P: print(json.dumps(x))
