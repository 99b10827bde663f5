{"id": "C01", "title": "Every topology realises the documented difference equation", "statement": "Starting from a reset delay line, feeding x[0],x[1],... through a second order section with any of the three StateTypes (DirectFormI, DirectFormII, TransposedDirectFormII) returns y[n] = (b0 x[n] + b1 x[n-1] + b2 x[n-2] - a1 y[n-1] - a2 y[n-2]) / a0 with samples before time 0 taken as 0 (exact arithmetic).", "quantifier": "all coefficients, all input sequences of every length, all three topologies", "why_tests_cant": "infinitely many signals and coefficient sets; a test compares a handful of samples for two coefficient sets and never runs TransposedDirectFormII", "anchors": ["iir/State.h:DirectFormI::filter", "iir/State.h:DirectFormII::filter", "iir/State.h:TransposedDirectFormII::filter", "iir/Biquad.cpp:Biquad::setCoefficients"]}
{"id": "C02", "title": "The StateType template argument does not change the output", "statement": "Two filters with the same coefficients but different StateType produce, from reset, exactly the same output sequence for the same input (exact arithmetic), for a cascade of any number of sections.", "quantifier": "all cascades of every length, all inputs, every pair of topologies", "why_tests_cant": "the claim relates all pairs of runs; tests sample a few", "anchors": ["iir/State.h", "iir/Cascade.h:CascadeStages::filter"]}
{"id": "C03", "title": "Sample-by-sample processing is causal and block independent", "statement": "The outputs for xs followed by ys are the outputs for xs followed by what the same object, left in the state reached, returns for ys; hence output n depends on inputs 0..n only. Holds for any arithmetic, including IEEE doubles with any rounding.", "quantifier": "all filters, all states, all input sequences and all ways of cutting them into blocks", "why_tests_cant": "quantifies over all splits of all signals", "anchors": ["iir/Cascade.h:CascadeStages::filter", "iir/RBJ.h:RBJbase::filter"]}
{"id": "C04", "title": "reset() makes a filter indistinguishable from a fresh one with the same coefficients", "statement": "After any history, reset() followed by any inputs returns bit for bit the outputs a freshly constructed filter with the same coefficients returns; a second reset() changes nothing.", "quantifier": "all histories, all later inputs, all arithmetic interpretations, all topologies", "why_tests_cant": "histories are unbounded", "anchors": ["iir/State.h:reset", "iir/Cascade.h:CascadeStages::reset", "iir/RBJ.h:RBJbase::reset"]}
{"id": "C05", "title": "Filtering and resetting never change the configuration", "statement": "No sequence of filter() and reset() calls changes any coefficient, the reported poles/zeros, the number of stages or response().", "quantifier": "all call sequences and all samples", "why_tests_cant": "histories are unbounded", "anchors": ["iir/Cascade.h:CascadeStages", "iir/Cascade.h:Cascade", "iir/RBJ.h:RBJbase"]}
{"id": "C06", "title": "setup() never touches the delay lines", "statement": "setup()/setupN() with any arguments, whether it succeeds or throws, leaves the delay lines as they were, so parameters can be changed while the filter is running; setup() followed by reset() equals setup() on a filter that never processed a sample.", "quantifier": "all filter types, arguments, histories", "why_tests_cant": "all histories and all outcomes including exceptions", "anchors": ["iir/Cascade.cpp:Cascade::setLayout", "iir/PoleFilter.h", "iir/RBJ.cpp"]}
{"id": "C07", "title": "Linear and time invariant", "statement": "From reset the filter is linear (response to a*x+b*y is a times the response to x plus b times the response to y) and time invariant (delaying the input by k zero samples delays the output by k), exact arithmetic.", "quantifier": "all cascades, inputs, scalars, delays", "why_tests_cant": "universally quantified over signals", "anchors": ["iir/State.h", "iir/Cascade.h:CascadeStages::filter"]}
{"id": "C08", "title": "An unconfigured filter passes samples through unchanged", "statement": "A default constructed pole filter or SOSCascade returns every finite sample unchanged for every topology and its response is 1 at every frequency in 0..1/2.", "quantifier": "all template sizes, all finite sample sequences", "why_tests_cant": "all signals and sizes", "anchors": ["iir/Biquad.h:Biquad (default members)", "iir/PoleFilter.h:PoleFilter::PoleFilter", "iir/Custom.h:SOSCascade"]}
{"id": "C09", "title": "A NaN sample poisons the filter until reset()", "statement": "Once a NaN sample has entered a section, every later output is NaN, whatever the later inputs, until reset(); reset() restores normal operation.", "quantifier": "all coefficients, states, later inputs; any arithmetic in which NaN propagates through +,-,*", "why_tests_cant": "the later signal is unbounded", "anchors": ["iir/State.h", "iir/Cascade.h:CascadeStages::filter"]}
{"id": "C10", "title": "A cascade is the serial composition of its sections, in any order", "statement": "The output of an N section cascade is the output of section N fed by ... fed by section 1; splitting a cascade in two cascades changes nothing (any arithmetic), and permuting the sections (from reset, exact arithmetic) changes nothing.", "quantifier": "all section lists, all permutations, all inputs", "why_tests_cant": "all permutations of all cascades on all signals", "anchors": ["iir/Cascade.h:CascadeStages::filter"]}
{"id": "C11", "title": "Sample type only affects the final cast", "statement": "filter<Sample>() computes on the double value of the sample and converts only the returned value: the delay lines evolve as they would for double samples; an int result is the double result truncated toward zero, undefined only if that does not fit.", "quantifier": "all samples and states", "why_tests_cant": "all inputs", "anchors": ["iir/Cascade.h:CascadeStages::filter", "iir/RBJ.h:RBJbase::filter"]}
{"id": "C12", "title": "setup() depends on its arguments only, not on the history of the object", "statement": "Whatever setup/filter/reset calls preceded it (including ones that threw), a successful setup() gives the same coefficients, response and reported poles as the same call on a newly constructed filter.", "quantifier": "all call histories, all arguments, all 21 pole filter classes", "why_tests_cant": "the analog prototype is cached across calls; only induction over histories covers all cache states", "anchors": ["iir/Butterworth.cpp:AnalogLowPass::design", "iir/ChebyshevI.cpp:design", "iir/ChebyshevII.cpp:design", "iir/PoleFilter.cpp"]}
{"id": "C13", "title": "An invalid cutoff or centre frequency is rejected and leaves the running filter untouched", "statement": "If the normalised cutoff/centre frequency is not in [0,1/2) (too high, negative, NaN, or infinite because of a zero sampling rate), setup() throws and all coefficients, delay lines, reported poles and response() are what they were.", "quantifier": "all pole filter classes, all orders, all invalid frequencies, all prior states, any arithmetic", "why_tests_cant": "infinitely many invalid values and prior states", "anchors": ["iir/PoleFilter.cpp:LowPassTransform", "iir/PoleFilter.cpp:HighPassTransform", "iir/PoleFilter.cpp:BandPassTransform", "iir/PoleFilter.cpp:BandStopTransform"]}
{"id": "C14", "title": "A requested order above the template order is rejected without any effect", "statement": "setup/setupN with reqOrder > FilterOrder throws and the object is bit for bit unchanged.", "quantifier": "all classes, orders, arguments, states", "why_tests_cant": "all orders and states", "anchors": ["iir/Butterworth.h", "iir/ChebyshevI.h", "iir/ChebyshevII.h"]}
{"id": "C15", "title": "A rejected setup() is rejected again when retried", "statement": "If setup(args) throws, calling setup(args) again throws again. (Found false: ChebyshevI with negative ripple, see DESIGN.md.)", "quantifier": "all argument tuples and histories", "why_tests_cant": "needs every pair of consecutive calls; the failing case is an interaction of the prototype cache with the exception", "anchors": ["iir/ChebyshevI.cpp:AnalogLowPass::design", "iir/ChebyshevII.cpp:AnalogLowPass::design", "iir/Layout.h:addPoleZeroConjugatePairs"]}
{"id": "C16", "title": "setup() never writes or reads outside the statically allocated arrays", "statement": "For every template order >= 1, every requested order and every argument, every history of setup calls (successful or throwing) only accesses array elements in range, never uses a null pointer, and does not overflow int unless the requested order is below -2^30.", "quantifier": "all template orders, all int requested orders, all arguments, all histories, any arithmetic", "why_tests_cant": "memory safety over unbounded sizes and histories", "anchors": ["iir/Layout.h:LayoutBase", "iir/Cascade.cpp:Cascade::setLayout", "iir/PoleFilter.h:PoleFilter"]}
{"id": "C17", "title": "All setup overloads agree", "statement": "setup(sampleRate, F, ...) equals setupN(F/sampleRate, ...), and the overloads without reqOrder equal the ones with reqOrder = FilterOrder; in exact arithmetic scaling sampleRate and all frequencies by the same nonzero factor changes nothing; in double arithmetic the same holds bit by bit for every positive factor by which these numbers can be multiplied without rounding.", "quantifier": "all classes, arguments, states", "why_tests_cant": "all arguments", "anchors": ["iir/Butterworth.h", "iir/ChebyshevI.h", "iir/ChebyshevII.h", "iir/RBJ.h"]}
{"id": "C18", "title": "A lower order in a larger template behaves like the exact template", "statement": "A filter with template order M set up with reqOrder n < M gives, from reset, the same output and the same response as one with a smaller sufficient template order set up with the same reqOrder; the unused sections are pass-through.", "quantifier": "all n <= N <= M, all arguments, all inputs, all classes", "why_tests_cant": "all sizes and signals", "anchors": ["iir/Cascade.cpp:Cascade::setLayout", "iir/Cascade.h:CascadeStages"]}
{"id": "C19", "title": "Number of stages and poles reported after setup", "statement": "After a successful setup of order n >= 0, getNumStages() and the length of getPoleZeros() are (n+1)/2 for low/high pass and shelves and n for band filters; indexing a stage outside the range throws.", "quantifier": "all orders and template sizes", "why_tests_cant": "all sizes", "anchors": ["iir/Cascade.h:getNumStages", "iir/Cascade.h:operator[]", "iir/PoleFilter.h:getPoleZeros"]}
{"id": "C20", "title": "setCoefficients is checked, atomic and faithful", "statement": "setCoefficients throws iff one of its arguments is NaN, and then nothing is changed; otherwise the getters return the values that were set whenever a0 is finite and nonzero (exact arithmetic).", "quantifier": "all coefficient tuples, all prior states", "why_tests_cant": "all tuples", "anchors": ["iir/Biquad.cpp:Biquad::setCoefficients", "iir/Biquad.h:getA0..getB2"]}
{"id": "C21", "title": "Successful setup never leaves NaN coefficients", "statement": "README: parameters which result in coefficients being NaN throw. (Found false: the NaN test precedes the division by a0; partial theorem and witnesses.)", "quantifier": "all filters and arguments", "why_tests_cant": "all arguments", "anchors": ["iir/Biquad.cpp:Biquad::setCoefficients", "iir/Biquad.cpp:Biquad::applyScale", "iir/RBJ.cpp", "README.md"]}
{"id": "C22", "title": "One-pole section has the requested pole, zero and gain", "statement": "setOnePole/OnePole::setup gives H(z) = scale (1 - zero/z)/(1 - pole/z); a pole or zero with an imaginary part is rejected with the section unchanged.", "quantifier": "all poles, zeros, scales", "why_tests_cant": "all arguments", "anchors": ["iir/Biquad.cpp:setOnePole", "iir/Custom.cpp:OnePole::setup"]}
{"id": "C23", "title": "Two-pole section has the requested poles, zeros and gain", "statement": "setTwoPole/TwoPole::setup gives H(z) = scale (1-z1/z)(1-z2/z)/((1-p1/z)(1-p2/z)) for conjugate or real pairs, and anything else is rejected with the section unchanged.", "quantifier": "all pole/zero pairs, scales", "why_tests_cant": "all arguments", "anchors": ["iir/Biquad.cpp:setTwoPole", "iir/Custom.cpp:TwoPole::setup"]}
{"id": "C24", "title": "Pole/zero form of a section can be recovered and reconstructs it", "statement": "getPoleZeros()/BiquadPoleState of a section returns its poles and zeros, and setPoleZeroForm of it restores the normalised coefficients. (Found false for first order sections: the zero is inverted.)", "quantifier": "all sections", "why_tests_cant": "all coefficients", "anchors": ["iir/Biquad.cpp:BiquadPoleState::BiquadPoleState", "iir/Biquad.cpp:setPoleZeroForm", "iir/Biquad.cpp:getPoleZeros"]}
{"id": "C25", "title": "Biquad::response is the transfer function on the unit circle", "statement": "response(f) = (b0+b1 e^-iw+b2 e^-2iw)/(a0+a1 e^-iw+a2 e^-2iw), w = 2 pi f, whenever the denominator is nonzero.", "quantifier": "all coefficients and frequencies", "why_tests_cant": "all reals", "anchors": ["iir/Biquad.cpp:Biquad::response"]}
{"id": "C26", "title": "Cascade::response is the product of the section responses and is range checked", "statement": "For 0 <= f <= 1/2 the response of the cascade is the product of the section responses; outside that range it throws; applyScale multiplies it by the scale.", "quantifier": "all cascades, frequencies", "why_tests_cant": "all cascades", "anchors": ["iir/Cascade.cpp:Cascade::response", "iir/Cascade.cpp:Cascade::applyScale"]}
{"id": "C27", "title": "filter() realises response()", "statement": "If all poles are inside the unit circle, the output for the input A cos(2 pi f n + phi) converges to A |H| cos(2 pi f n + phi + arg H) with H = response(f), from any initial delay line content.", "quantifier": "all stable cascades, frequencies, amplitudes, phases, initial states", "why_tests_cant": "limit statement over an infinite run", "anchors": ["iir/Cascade.h:CascadeStages::filter", "iir/Cascade.cpp:Cascade::response", "iir/State.h"]}
{"id": "C28", "title": "Stable sections give bounded output and decay to rest", "statement": "If all poles are inside the unit circle, bounded input gives bounded output and after the input stops the output converges to 0, from any state, for every topology.", "quantifier": "all stable cascades, all bounded inputs, all states", "why_tests_cant": "infinite runs", "anchors": ["iir/State.h", "iir/Cascade.h:CascadeStages::filter"]}
{"id": "C29", "title": "Every design is stable", "statement": "Every low/high/band pass, band stop and shelf setup with cutoff in (0,1/2), band edges in order, positive ripple or rejection (for Chebyshev shelves less than |gainDb|) succeeds and gives poles strictly inside the unit circle, for Butterworth, Chebyshev I and Chebyshev II at every order, whatever was done with the object before. (Excepted in exact arithmetic: odd order and the band width for which the transformed real pole or zero lies at z=0; there setup throws, see C51.)", "quantifier": "all orders, cutoffs, widths, ripples, gains", "why_tests_cant": "all orders and real parameters; tests only watch one impulse response decay", "anchors": ["iir/PoleFilter.cpp", "iir/Butterworth.cpp", "iir/ChebyshevI.cpp", "iir/ChebyshevII.cpp"]}
{"id": "C30", "title": "Butterworth low pass has the Butterworth magnitude response", "statement": "After LowPass setup with order n and cutoff fc in (0,1/2): |response(f)|^2 = 1/(1+(tan(pi f)/tan(pi fc))^(2n)) for 0<=f<1/2 and 0 at 1/2; so gain 1 at DC, -3 dB at fc, strictly decreasing.", "quantifier": "all orders, cutoffs, frequencies", "why_tests_cant": "closed form over all orders and reals", "anchors": ["iir/Butterworth.cpp:LowPassBase::setup", "iir/PoleFilter.cpp:LowPassTransform", "iir/Cascade.cpp:setLayout"]}
{"id": "C31", "title": "Butterworth high pass has the Butterworth magnitude response", "statement": "|response(f)|^2 = 1/(1+(tan(pi fc)/tan(pi f))^(2n)) for 0<f<1/2, 0 at DC, 1 at Nyquist, monotone.", "quantifier": "all orders, cutoffs, frequencies", "why_tests_cant": "as C30", "anchors": ["iir/Butterworth.cpp:HighPassBase::setup", "iir/PoleFilter.cpp:HighPassTransform"]}
{"id": "C32", "title": "Butterworth band pass has the Butterworth magnitude response", "statement": "With band edges f1=fc-fw/2, f2=fc+fw/2 inside (0,1/2): |response(f)|^2 = 1/(1+L(f)^(2n)), L = (cos w0 - cos w)/(tan(pi(f2-f1)) sin w); unit gain at the warped centre, -3 dB at both edges, zero at DC and Nyquist, strictly monotone on either side of the centre (except the case of C51, where setup throws).", "quantifier": "all orders, centre frequencies, widths, frequencies", "why_tests_cant": "as C30", "anchors": ["iir/Butterworth.cpp:BandPassBase::setup", "iir/PoleFilter.cpp:BandPassTransform"]}
{"id": "C33", "title": "Butterworth band stop has the Butterworth magnitude response", "statement": "|response(f)|^2 = 1/(1+L(f)^(-2n)); zero at the warped centre, -3 dB at both edges, unit gain at DC and Nyquist, strictly monotone on either side of the centre (except the case of C51, where setup throws).", "quantifier": "all orders, centre frequencies, widths, frequencies", "why_tests_cant": "as C30", "anchors": ["iir/Butterworth.cpp:BandStopBase::setup", "iir/PoleFilter.cpp:BandStopTransform"]}
{"id": "C34", "title": "Butterworth shelves have the requested gain", "statement": "Low shelf: gain 10^(gainDb/20) at DC and 1 at Nyquist, |response|^2 = (G+x^(2n))/(1/G+x^(2n)); high shelf mirrored; band shelf: gain G at the warped centre and 1 at DC and Nyquist.", "quantifier": "all orders, cutoffs, gains, frequencies", "why_tests_cant": "as C30", "anchors": ["iir/Butterworth.cpp:AnalogLowShelf::design", "iir/Butterworth.cpp:LowShelfBase::setup", "iir/Butterworth.cpp:HighShelfBase::setup", "iir/Butterworth.cpp:BandShelfBase::setup"]}
{"id": "C35", "title": "Chebyshev I filters keep the ripple specification", "statement": "|response|^2 = 1/(1+eps^2 T_n(x)^2) with eps^2 = 10^(ripple/10)-1 and x the prewarped normalised frequency (low, high, band pass, band stop): in the pass band the gain stays between -rippleDb and 0 dB, equals -rippleDb at the edge and falls monotonically beyond it.", "quantifier": "all orders, cutoffs, positive ripples, frequencies", "why_tests_cant": "as C30", "anchors": ["iir/ChebyshevI.cpp:AnalogLowPass::design", "iir/ChebyshevI.cpp:LowPassBase::setup"]}
{"id": "C36", "title": "Chebyshev II filters guarantee the stop band rejection", "statement": "|response|^2 = 1/(1+1/(eps^2 T_n(1/x)^2)) with eps^2 = 1/(10^(stopBandDb/10)-1): everywhere in the stop band the rejection is at least stopBandDb, as ChebyshevII.h promises, exactly that at the edge, and the gain in the pass band is monotone.", "quantifier": "all orders, cutoffs, positive rejections, frequencies", "why_tests_cant": "as C30", "anchors": ["iir/ChebyshevII.cpp:AnalogLowPass::design", "iir/ChebyshevII.h"]}
{"id": "C37", "title": "Chebyshev shelves have the requested gain", "statement": "With 0 < ripple < |gainDb|, an odd order low shelf has gain gainDb at DC (even order: ripple dB nearer to 0 dB), unit gain at Nyquist, in the pass band the gain stays between gainDb and the edge gain (ripple dB nearer to 0 dB), and beyond the edge it tends strictly to 0 dB; likewise high and band shelves. (gainDb = 0 is found to throw.)", "quantifier": "all orders, cutoffs, gains, ripples", "why_tests_cant": "as C30", "anchors": ["iir/ChebyshevI.cpp:AnalogLowShelf::design", "iir/ChebyshevII.cpp:AnalogLowShelf::design"]}
{"id": "C38", "title": "RBJ low and high pass gains", "statement": "For 0<f0<1/2 and q>0: low pass has gain 1 at DC, 0 at Nyquist and q at f0; high pass has 0 at DC, 1 at Nyquist and q at f0. At every other frequency the squared gain is 1/((1-x^2)^2+(x/q)^2), x = tan(pi f)/tan(pi f0) (low pass) or its inverse (high pass).", "quantifier": "all frequencies and q", "why_tests_cant": "all reals", "anchors": ["iir/RBJ.cpp:LowPass::setupN", "iir/RBJ.cpp:HighPass::setupN"]}
{"id": "C39", "title": "RBJ band pass, band stop and notch gains", "statement": "BandPass2 peaks with gain 1 at the centre and nowhere exceeds it, BandPass1 has gain equal to the bandWidth argument at the centre, both reject DC and Nyquist; BandStop and IIRNotch have gain exactly 0 at the centre; BandStop has gain 1 at DC and Nyquist.", "quantifier": "all centre frequencies and widths", "why_tests_cant": "all reals", "anchors": ["iir/RBJ.cpp:BandPass1::setupN", "iir/RBJ.cpp:BandPass2::setupN", "iir/RBJ.cpp:BandStop::setupN", "iir/RBJ.cpp:IIRNotch::setupN"]}
{"id": "C40", "title": "RBJ shelf gains", "statement": "LowShelf: 10^(gainDb/20) at DC and 1 at Nyquist; HighShelf: 1 at DC and 10^(gainDb/20) at Nyquist; BandShelf: 10^(gainDb/20) at the centre and 1 at DC and Nyquist.", "quantifier": "all frequencies, gains, slopes, widths", "why_tests_cant": "all reals", "anchors": ["iir/RBJ.cpp:LowShelf::setupN", "iir/RBJ.cpp:HighShelf::setupN", "iir/RBJ.cpp:BandShelf::setupN"]}
{"id": "C41", "title": "RBJ all pass has gain one everywhere", "statement": "|response(f)| = 1 for every f, every phaseFrequency in (0,1/2) and q>0; for a phaseFrequency outside that range (which the library does not reject) the same holds wherever the section has a nonzero leading coefficient and no pole at that frequency.", "quantifier": "all frequencies and parameters", "why_tests_cant": "all reals", "anchors": ["iir/RBJ.cpp:AllPass::setupN"]}
{"id": "C42", "title": "RBJ filters are stable for valid parameters", "statement": "For 0<f0<1/2 and positive q / width / 0<slope<=1 all RBJ filters have their poles strictly inside the unit circle.", "quantifier": "all valid parameters", "why_tests_cant": "all reals", "anchors": ["iir/RBJ.cpp"]}
{"id": "C43", "title": "Copies of RBJ filters and SOS cascades are independent values", "statement": "Copying an RBJ filter or SOSCascade yields an object that continues identically, and operations on one never affect the other.", "quantifier": "all histories of both objects", "why_tests_cant": "interleavings of operations on two objects", "anchors": ["iir/RBJ.h", "iir/Custom.h:SOSCascade"]}
{"id": "C44", "title": "Copy construction of pole filters", "statement": "A copy constructed pole filter continues with the same outputs, and filtering/resetting one never affects the other; setting one up should only affect that one. (Found false: copies share the original's coefficient storage through pointers; setup on the copy reconfigures the original, and is undefined after the original is destroyed.)", "quantifier": "all interleavings of operations on the objects of a program", "why_tests_cant": "aliasing shows only for particular interleavings; the existing test passes in spite of it", "anchors": ["iir/PoleFilter.h:PoleFilter(const PoleFilter&)", "iir/Cascade.h:Cascade::m_stageArray", "test/assignment.cpp"]}
{"id": "C45", "title": "Assignment of pole filters resets and keeps the target's configuration", "statement": "f = g leaves f's coefficients and response as they were (nothing is copied from g), clears f's delay lines and never changes g.", "quantifier": "all f, g, histories", "why_tests_cant": "all pairs of objects", "anchors": ["iir/PoleFilter.h:PoleFilter::operator="]}
{"id": "C46", "title": "SOSCascade imports scipy second order sections", "statement": "SOSCascade(sos) realises the product of (s0+s1/z+s2/z^2)/(s3+s4/z+s5/z^2) over the rows; a NaN row throws, leaving earlier rows installed and later rows untouched.", "quantifier": "all matrices of every size, all inputs", "why_tests_cant": "all matrices and signals", "anchors": ["iir/Custom.h:SOSCascade", "iir/Cascade.h:CascadeStages::setup"]}
{"id": "C47", "title": "Reported poles and zeros are those of the sections", "statement": "After a successful setup the i-th entry of getPoleZeros() is the pole/zero pair of the i-th section: conjugate or both real, and the section's transfer function has exactly these poles and zeros.", "quantifier": "all designs", "why_tests_cant": "all designs", "anchors": ["iir/PoleFilter.h:PoleFilterBase2::getPoleZeros", "iir/Cascade.cpp:setLayout", "iir/Layout.h"]}
{"id": "C48", "title": "Layout accepts only realisable pole/zero sets", "statement": "LayoutBase::add / addPoleZeroConjugatePairs reject NaN, non real single poles, unmatched pairs and anything after an odd (first order) entry, leaving the layout unchanged; getPair rejects every index outside the pairs added.", "quantifier": "all call sequences", "why_tests_cant": "histories", "anchors": ["iir/Layout.h:LayoutBase"]}
{"id": "C49", "title": "setup with negative order", "statement": "Requested orders that are zero or negative are not rejected. Even ones configure the object like a new one (no stages, pass-through) whatever the other parameters; odd ones below -1 give for Butterworth low/high/band pass and band stop what order 1 gives, and for Butterworth shelves the first order shelf of gain gainDb/order (so of opposite sign); order -1 is silently ignored by a new Butterworth object but acts as order 1 on one set up before with another order.", "quantifier": "all negative orders, histories", "why_tests_cant": "all orders and histories", "anchors": ["iir/Butterworth.cpp:AnalogLowPass::design", "iir/Butterworth.h"]}
{"id": "C50", "title": "setup twice with the same arguments equals setup once", "statement": "Repeating a successful setup() leaves coefficients, response, reported poles and delay lines exactly as after the first one.", "quantifier": "all classes, arguments, histories", "why_tests_cant": "all arguments", "anchors": ["iir/Butterworth.cpp", "iir/ChebyshevI.cpp", "iir/ChebyshevII.cpp"]}
{"id": "C51", "title": "Odd order band filters at the critical width are refused", "statement": "For odd order and otherwise valid parameters, a band pass, band stop or band shelf whose width sends the prototype's real pole (or zero) to z=0 (Butterworth: width exactly fs/4) cannot be set up: setup throws on every object, whatever was done before. These are exactly the widths excepted in C29 and C32-C37.", "quantifier": "all odd orders, centre frequencies, ripples, gains, histories", "why_tests_cant": "a single real width per design; no test hits it", "anchors": ["iir/Types.h:ComplexPair::isMatchedPair", "iir/PoleFilter.cpp:BandPassTransform", "iir/PoleFilter.cpp:BandStopTransform", "iir/Layout.h:LayoutBase::add"]}
{"id": "C52", "title": "A setup that succeeds leaves a stable filter", "statement": "If setup()/setupN() returns without throwing, the filter is stable: bounded input gives bounded output and every transient dies out. (Found false: a negative band width is accepted silently by all nine band pass, band stop and band shelf classes and puts every pole outside the unit circle, giving an unbounded impulse response; so do odd negative orders of the Chebyshev low and high pass filters. It holds for all parameters that are valid in the sense of C29.)", "quantifier": "all classes, orders, parameters, histories, inputs", "why_tests_cant": "all real parameters; tests only try valid ones", "anchors": ["iir/PoleFilter.cpp:BandPassTransform", "iir/PoleFilter.cpp:BandStopTransform", "iir/ChebyshevI.cpp:AnalogLowPass::design", "iir/Butterworth.h"]}
{"id": "C53", "title": "A pole outside the unit circle makes the output unbounded", "statement": "If a section of a filter (pole filter, SOSCascade or RBJ) has a pole outside the unit circle that no zero of any section cancels, then filtering an impulse from the reset state gives outputs exceeding every bound; the library never detects this. If the pole is on the unit circle, some bounded input does so; when no pole is cancelled, bounded inputs give bounded outputs exactly if all poles are inside the unit circle.", "quantifier": "all coefficients, all delay line types, all numbers of sections", "why_tests_cant": "limit statement over an infinite execution", "anchors": ["iir/State.h", "iir/Cascade.h:CascadeStages::filter", "iir/Custom.h:SOSCascade", "iir/RBJ.h:RBJbase::filter"]}
{"id": "C54", "title": "Rounding errors of a stable filter do not accumulate", "statement": "For coefficients with all poles inside the unit circle there is a constant C such that, in every arithmetic whose +, -, * have relative error at most u and absolute error at most eta below its overflow threshold Omega (IEEE double: u = 2^-53), where u is small enough for each section (18 u (1 + (A+B)/((1-|p|)(1-|q|))) <= 1, which is so for all small u), for every input bounded by X with C (X + eta) <= Omega: after reset no output is ever infinite or NaN, and each output differs from the exact response of the stored coefficients to that input by at most C (u X + eta), no matter how many samples have been processed. For one section C is explicit: 9 (1+A+B) / ((1-|p|)(1-|q|)) times the bound on intermediate results.", "quantifier": "all stable coefficient sets, all three delay lines, all pole filter classes, SOS cascades and RBJ filters, all arithmetics satisfying the standard rounding model, all bounded inputs of any length", "why_tests_cant": "a claim about unboundedly long runs and all rounding patterns; a test sees one rounding of finitely many samples", "anchors": ["iir/State.h:DirectFormI", "iir/State.h:DirectFormII", "iir/State.h:TransposedDirectFormII", "iir/Cascade.h:CascadeStages"]}
{"id": "C55", "title": "A filter forgets its past at the rate of its slowest pole", "statement": "If all poles have modulus less than rho, two objects with the same coefficients but different (finite) delay line contents, fed the same samples, return outputs that differ by at most C rho^n after n samples, whatever the samples. In particular, after a setup with valid parameters on a running object (delay lines are kept) its output approaches geometrically that of the same filter after reset().", "quantifier": "all coefficient sets, all delay line contents, all inputs of any length, all pole filter classes, SOS cascades, RBJ filters, three delay line types", "why_tests_cant": "a claim about all inputs and unbounded time", "anchors": ["iir/State.h", "iir/Cascade.h:CascadeStages", "iir/RBJ.h"]}
{"id": "C56", "title": "RBJ filters of the same frequency and quality complement each other", "statement": "For the same frequency f0 and quality/width q: BandStop plus BandPass2 returns the input, LowPass plus HighPass returns what BandStop returns, AllPass returns the input minus twice BandPass2, and BandPass1 is q times BandPass2; sample for sample, from reset, in exact arithmetic.", "quantifier": "0 < f0 < 1/2, q > 0, all inputs of any length", "why_tests_cant": "all parameters and inputs", "anchors": ["iir/RBJ.cpp"]}
{"id": "C57", "title": "A shelf with gain g and the one with gain -g undo each other", "statement": "RBJ LowShelf, HighShelf, BandShelf: filtering with gain g dB and then with -g dB (same frequency, slope/width) restores the signal sample for sample, from reset, in exact arithmetic. So do Butterworth and Chebyshev I/II low, high and band shelves of the same order, and their gains multiply to 1 at every frequency.", "quantifier": "all valid parameters and orders, all inputs, whatever was done with the objects before", "why_tests_cant": "all parameters, orders, inputs", "anchors": ["iir/RBJ.cpp", "iir/Butterworth.cpp:AnalogLowShelf::design", "iir/ChebyshevI.cpp:AnalogLowShelf::design", "iir/ChebyshevII.cpp:AnalogLowShelf::design"]}
{"id": "C58", "title": "Butterworth pairs are power complementary", "statement": "A Butterworth low pass and high pass of the same order and cutoff have |H_LP|^2 + |H_HP|^2 = 1 at every frequency, and so have band pass and band stop of the same order and band.", "quantifier": "all orders, cutoffs and bands, frequencies in [0, 1/2]", "why_tests_cant": "all orders and frequencies", "anchors": ["iir/Butterworth.cpp", "iir/PoleFilter.cpp"]}
{"id": "C59", "title": "A filter never amplifies energy by more than its largest gain squared", "statement": "After reset, for every input and at every time, the energy of the output so far is at most G times the energy of the input so far, where G is the largest |response|^2. So Butterworth and Chebyshev I/II low, high, band passes and band stops with valid parameters never return more energy than they were given, shelves at most max(1, gain^2) times as much, RBJ filters at most the square of the peak gain of C62.", "quantifier": "all stable filters (21 pole filter classes, SOS cascades, RBJ), all inputs of any length, all times", "why_tests_cant": "all inputs; a test sees finitely many", "anchors": ["iir/State.h", "iir/Cascade.h:CascadeStages::filter", "iir/Cascade.cpp:Cascade::response", "iir/Butterworth.cpp", "iir/ChebyshevI.cpp", "iir/ChebyshevII.cpp", "iir/RBJ.cpp"]}
{"id": "C60", "title": "The energy of the impulse response is the mean of the squared gain", "statement": "The sum of the squares of the impulse response of a stable filter equals 2 times the integral of |response(f)|^2 for f from 0 to 1/2 (Parseval): response() and filter() agree in total energy.", "quantifier": "all stable pole filters and RBJ filters", "why_tests_cant": "infinite sum and integral", "anchors": ["iir/Cascade.cpp:Cascade::response", "iir/Biquad.cpp:Biquad::response", "iir/State.h"]}
{"id": "C61", "title": "Complementary filters split the energy and all-passes keep it", "statement": "For every input of finite energy: the outputs of a Butterworth low pass and high pass of the same order and cutoff (or band pass and band stop of the same band) have energies that add up to that of the input, and the output of an RBJ AllPass has exactly the energy of the input.", "quantifier": "all orders, cutoffs, bands, all inputs of finite energy (also without end)", "why_tests_cant": "all inputs, infinite sums", "anchors": ["iir/Butterworth.cpp", "iir/PoleFilter.cpp", "iir/RBJ.cpp:AllPass"]}
{"id": "C62", "title": "Largest and smallest gain of the RBJ filters", "statement": "At every frequency the gain of an RBJ filter with valid parameters lies between bounds that are attained: LowPass and HighPass: 0 and 1 if 2q^2 <= 1, else 0 and the resonance 2q^2/sqrt(4q^2-1); BandPass1: 0 and q; BandPass2, BandStop: 0 and 1; AllPass: 1; IIRNotch: 0 and 2(1+|c|)/(1+r^2+2r|c|) (more than 1) with c = cos(2 pi f0), r = exp(-pi f0/q); shelves: 1 and 10^(gainDb/20).", "quantifier": "all valid parameters, all frequencies", "why_tests_cant": "all parameters and frequencies", "anchors": ["iir/RBJ.cpp"]}
{"id": "C63", "title": "std::polar is only called with a nonnegative modulus", "statement": "No setup() and no response() calls std::polar with a negative or NaN modulus (undefined behaviour by the C++ standard, an abort with the assertions of libstdc++ enabled).", "quantifier": "all classes, orders, arguments, histories, any arithmetic", "why_tests_cant": "depends on the standard library: a test without assertions sees nothing", "anchors": ["iir/Butterworth.cpp:AnalogLowShelf::design", "iir/Butterworth.cpp:AnalogLowPass::design", "iir/Cascade.cpp:Cascade::response", "iir/Biquad.cpp:Biquad::response"]}
{"id": "C64", "title": "IEEE double: outputs stay within rounding errors of the exact response, whatever the delay line type", "statement": "With IEEE 754 binary64 arithmetic (round to nearest even, subnormals, signed zeros, infinities, NaN): for stable stored coefficients with 18 * 2^-53 (1 + (A+B)/((1-|p|)(1-|q|))) <= 1 for each section there is C such that after reset, for every input bounded by X with C (X + 2^-1075) at most the largest double, no output is ever infinite or NaN and each is within C (2^-53 X + 2^-1075) of the exact response. Two objects that differ in the delay line type (DirectFormI, DirectFormII, TransposedDirectFormII) only, return outputs that differ by at most twice that, for ever.", "quantifier": "all such coefficients, all pole filter classes, SOS cascades and RBJ filters, all inputs of any length", "why_tests_cant": "all inputs, unbounded time", "anchors": ["iir/State.h:DirectFormI", "iir/State.h:DirectFormII", "iir/State.h:TransposedDirectFormII", "iir/Cascade.h:CascadeStages", "iir/RBJ.h:RBJbase"]}
{"id": "C65", "title": "IEEE double: filters are odd and time invariant without any error", "statement": "With IEEE 754 binary64 arithmetic, after reset: if every input sample is negated, every output sample is negated (the doubles compare equal, or both are NaN), for any coefficients and inputs including infinities and NaN. If zeros are prepended to the input and the coefficients are finite, then the output is zeros and then the same output as before.", "quantifier": "all coefficients, all inputs of any length, all delays, all pole filter classes, SOS cascades and RBJ filters, three delay line types", "why_tests_cant": "all inputs and coefficients; a claim about exact equality of rounded results", "anchors": ["iir/State.h:DirectFormI", "iir/State.h:DirectFormII", "iir/State.h:TransposedDirectFormII", "iir/Cascade.h:CascadeStages", "iir/RBJ.h:RBJbase"]}
{"id": "C66", "title": "response() is the textbook transfer function, phase included", "statement": "After a setup with valid parameters, response(f) of each of the 21 Butterworth and Chebyshev I/II designs is the complex value of the textbook transfer function (product over the poles and zeros of the analog prototype, gain 1 - or -ripple for even order Chebyshev I - at the reference point, positive sign) at s = i tan(pi f)/tan(pi fc), its inverse, or the prewarped frequency of the band. The ten RBJ filters have the transfer functions of the Audio EQ Cookbook at s = i tan(pi f)/tan(pi f0) (IIRNotch: zeros at exp(+-i w0), poles at r exp(+-i w0)). So a Butterworth low pass of order o shifts its cutoff frequency by exactly -45 degrees times o.", "quantifier": "all orders, valid parameters, frequencies in [0, 1/2], whatever was done with the object before", "why_tests_cant": "all orders, parameters and frequencies", "anchors": ["iir/Butterworth.cpp", "iir/ChebyshevI.cpp", "iir/ChebyshevII.cpp", "iir/PoleFilter.cpp", "iir/Cascade.cpp:Cascade::setLayout", "iir/Cascade.cpp:Cascade::response", "iir/RBJ.cpp"]}
{"id": "C67", "title": "The frequency response determines the output", "statement": "Two stable pole filters (of whatever class, size and delay line type; also a pole filter and an RBJ filter) return the same samples for every input after reset() if and only if response() returns the same complex value at every frequency in (0, 1/2); agreeing on the unit impulse is enough too. If two responses multiply to a third, the two filters in series return what the third returns; if they multiply to 1, the second restores the input of the first; if a combination of two responses is a third, the same combination of the outputs is the third output. So objects asked for the same order and design return the same samples whatever their template order, delay line type, overload of setup and past.", "quantifier": "all stable filters, all inputs, all classes, sizes and delay line types", "why_tests_cant": "all inputs; equality of two functions on an interval", "anchors": ["iir/Cascade.cpp:Cascade::response", "iir/Cascade.h:CascadeStages::filter", "iir/State.h", "iir/RBJ.h", "iir/PoleFilter.h"]}
{"id": "C68", "title": "Butterworth filters are RBJ filters in series", "statement": "Butterworth::LowPass (HighPass) of even order 2m returns the same samples as m RBJ::LowPass (HighPass) in series, with the same cutoff and q = 1/(2 sin(pi(2k+1)/(4m))), k < m; for order 2 it is the RBJ filter with q = 1/sqrt 2. Butterworth::LowShelf and HighShelf of order 2 are the RBJ shelves with slope 1. Butterworth::BandPass, BandStop and BandShelf of order 1 are RBJ::BandPass2, BandStop and BandShelf of the same band.", "quantifier": "all m, valid parameters, all inputs from reset, whatever was done with the objects before", "why_tests_cant": "all orders, parameters and inputs; links two independently written parts of the library", "anchors": ["iir/Butterworth.cpp", "iir/PoleFilter.cpp", "iir/Cascade.cpp:Cascade::setLayout", "iir/RBJ.cpp"]}
{"id": "C69", "title": "Crossovers add up", "statement": "The outputs of Butterworth LowPass and HighPass of order 1 with the same cutoff add up to the input, sample for sample. The Linkwitz-Riley crossover of order 4 (two Butterworth low passes of order 2 in series, two high passes in series) adds up to the output of RBJ::AllPass with q = 1/sqrt 2.", "quantifier": "all cutoffs in (0, 1/2), all inputs from reset, whatever was done with the objects before, also different delay line types", "why_tests_cant": "all cutoffs and inputs", "anchors": ["iir/Butterworth.cpp", "iir/RBJ.cpp:AllPass::setupN", "iir/State.h"]}
{"id": "C70", "title": "High filters are mirror images of low filters", "statement": "If every other sample of the input is negated, the filter of the same order, gain and ripple with low and high exchanged and fc replaced by 1/2 - fc returns the same output with every other sample negated: low pass and high pass, low shelf and high shelf, and band filters at fc and 1/2 - fc of the same width, for Butterworth and Chebyshev I/II; also RBJ LowPass/HighPass, LowShelf/HighShelf, BandPass1, BandPass2, BandStop, AllPass.", "quantifier": "all orders, valid parameters, all inputs from reset, whatever was done with the objects before", "why_tests_cant": "all orders, parameters and inputs", "anchors": ["iir/PoleFilter.cpp", "iir/Butterworth.cpp", "iir/ChebyshevI.cpp", "iir/ChebyshevII.cpp", "iir/RBJ.cpp"]}
{"id": "C71", "title": "IEEE double: RBJ filters designed in floating point are stable within practical limits", "statement": "With the whole of setup/setupN computed in double arithmetic and a mathematical library with errors of at most 256 ulp: for finite parameters with 2^-20 <= fc/fs <= 1/2 - 2^-20 and 2^-10 <= q <= 2^10 (shelves: |gain| <= 60 dB, slope in [1/64, 1]; band shelf: fc/fs <= 3/8, |gain| <= 60 dB, bandwidth in [2^-10, 4]) the call succeeds, leaves the delay line alone and stores finite coefficients whose poles are inside the unit circle. The limits are needed: the RBJ low pass with fc/fs = 2^-100 stores a double pole at z = 1 and zero numerator, and the four octave band shelf at fc/fs = 1/2 - 2^-20 stores NaN without an exception.", "quantifier": "all ten RBJ filters, all parameters within the limits, all past states of the object, all libraries of that accuracy", "why_tests_cant": "all parameters; accumulated rounding errors next to the unit circle", "anchors": ["iir/RBJ.cpp", "iir/Biquad.cpp:Biquad::setCoefficients", "iir/RBJ.h"]}
{"id": "C72", "title": "IEEE double: Butterworth and Chebyshev low and high passes designed in floating point are stable within practical limits", "statement": "With the whole of setup computed in double arithmetic (prototype, bilinear transform in complex numbers, section coefficients, response at the reference frequency, scaling) and a mathematical library with relative errors of at most 2^-45 (256 ulp): for a Butterworth, Chebyshev I or Chebyshev II low or high pass of any order from 1 to 16, with 2^-10 <= fc/fs <= 1/2 - 2^-10, ripple between 1/64 and 30 dB and stop band between 3 and 100 dB, every overload of setup succeeds, whatever was done to the object before, and every section it stores is finite and has its poles inside the unit circle.", "quantifier": "all six classes, orders 1 to 16, all parameters within the limits, all histories of the object, all libraries of that accuracy", "why_tests_cant": "all parameters; accumulated rounding errors next to the unit circle", "anchors": ["iir/Butterworth.cpp", "iir/ChebyshevI.cpp", "iir/ChebyshevII.cpp", "iir/PoleFilter.cpp:LowPassTransform", "iir/PoleFilter.cpp:HighPassTransform", "iir/Cascade.cpp:Cascade::setLayout", "iir/Biquad.cpp"]}
{"id": "C73", "title": "setLayout realises any poles and zeros of the client", "statement": "A client adds conjugate pairs, pairs of real roots and possibly one single real pole and zero to a LayoutBase, asks for gain g at angular frequency w, and calls the inherited setLayout of any pole filter object: every call succeeds, the delay lines stay, getNumStages() is half the number of poles (rounded up), the filter is stable if and only if all poles are inside the unit circle, response(f) is the rational function with these roots scaled to magnitude g at w, and sinusoids settle to it; getPoleZeros() goes on reporting the last setup. A layout with more pairs than sections throws: filter() goes on as before and the next successful setup() does exactly what it would have done, but until then getNumStages() is too large and response() and operator[] read outside the array.", "quantifier": "all poles and zeros, gains and frequencies, all classes, template orders and histories of the object", "why_tests_cant": "all roots; undefined behaviour", "anchors": ["iir/Cascade.cpp:Cascade::setLayout", "iir/Cascade.h:Cascade", "iir/Layout.h:LayoutBase", "iir/Biquad.cpp:Biquad::setPoleZeroPair"]}
{"id": "C74", "title": "The inherited setup(order, ...) of the base classes does not check the order", "statement": "With an order up to FilterOrder the setup(order, ...) of the *Base class, which the user classes hide but do not remove, is setupN(order, ...). With an order that needs more pairs of poles than the template has room for, it never succeeds, and if the same parameters are accepted by a filter with a larger FilterOrder (always for valid parameters in exact arithmetic), it writes outside the storage of the prototype, whatever was called before. An order that is one more than an odd FilterOrder needs no more room for the prototype: it gives the filter of the template with that order, except for the band filters, which write outside the storage of the digital layout.", "quantifier": "all 21 classes, template orders, orders, parameters and histories; any arithmetic", "why_tests_cant": "undefined behaviour; all orders", "anchors": ["iir/Butterworth.h:LowPassBase", "iir/Butterworth.cpp:LowPassBase::setup", "iir/ChebyshevI.cpp", "iir/ChebyshevII.cpp", "iir/Layout.h:LayoutBase::addPoleZeroConjugatePairs"]}
{"id": "C75", "title": "CascadeStages::setup on a pole filter", "statement": "After the inherited CascadeStages::setup(sosCoefficients) a pole filter returns the same samples as an SOSCascade with the same delay lines that got the same call; the number of stages, the poles and the delay lines it reports stay as they were. With as many finite rows as sections, fourth entries not 0 and poles inside the unit circle, sinusoids settle to the product of the transfer functions of all rows, but response() is the product of the first getNumStages() of them only: on a new object it is 1 whatever the rows are.", "quantifier": "all rows, all classes, template orders and histories of the object, any arithmetic for the first part", "why_tests_cant": "all coefficients and inputs", "anchors": ["iir/Cascade.h:CascadeStages::setup", "iir/Cascade.cpp:Cascade::response", "iir/PoleFilter.h:PoleFilter"]}
{"id": "C76", "title": "IEEE double: an RBJ filter designed and run in floating point stays close to the ideal filter", "statement": "With design and filtering computed in double arithmetic and a mathematical library with errors of at most 256 ulp: an RBJ low pass, high pass, band pass (both), band stop, notch or all pass with q >= 1/2 and sharpness s = (2q+1)/sin(2 pi fc/fs) (notch: 2/(1-exp(-pi fc/(fs q)))) up to 1024 is set up without an exception, and after reset() returns for every input of magnitude at most X (2^-1000 <= X <= 2^900) finite samples that are at all times within s^4 2^-34 X of the output of the ideal filter with the exact quotient fc/fs. A low pass at 6 kHz with q = 1 and 48 kHz has s < 5: the error is below X/27000000 for ever.", "quantifier": "seven RBJ filters, all parameters within the limits, all past states of the object, all inputs of unlimited length, all libraries of that accuracy", "why_tests_cant": "all parameters and inputs; errors accumulate over unlimited time", "anchors": ["iir/RBJ.cpp", "iir/RBJ.h", "iir/Biquad.cpp:Biquad::setCoefficients", "iir/State.h:DirectFormI"]}
{"id": "C77", "title": "IEEE double: a Butterworth low or high pass designed and run in floating point stays close to the ideal filter", "statement": "With design and filtering computed in double arithmetic and a mathematical library with errors of at most 256 ulp: a Butterworth low or high pass of order 1 to 16 with a cutoff frequency between fs/512 and fs/2 - fs/512 is set up without an exception, whatever was done with the object before, and after reset() returns for every input of magnitude at most X (2^-400 <= X <= 2^400) finite samples that are at all times within A (Q + n) 2^-30 X of the output of the same filter without any rounding, where n is the template order, A = prod |1-q|/(1-|q|) and Q = sum 1/(1-|q|)^2 over the poles q of the ideal digital filter (mirrored for high passes). A low pass of order 2 at 12 kHz with 48 kHz stays within 27 2^-30 X for ever.", "quantifier": "orders 1 to 16, every template order below 2^30, all cutoff frequencies within the limits, all histories of the object, all delay lines, all inputs of unlimited length, all libraries of that accuracy", "why_tests_cant": "all parameters, histories and inputs; errors of prototype, bilinear transform, section coefficients, normalisation and filtering accumulate over unlimited time", "anchors": ["iir/Butterworth.cpp", "iir/PoleFilter.cpp:LowPassTransform", "iir/PoleFilter.cpp:HighPassTransform", "iir/Cascade.cpp:Cascade::setLayout", "iir/Biquad.cpp:Biquad::setTwoPole", "iir/Cascade.h:filter"]}
{"id": "C78", "title": "The inherited members of a pole filter leave no trace in the next setup", "statement": "After any sequence of calls of public members of a pole filter object - setup, setupN, filter, reset, applyScale, the inherited setLayout (with any layout, also one that it rejects), CascadeStages::setup and the setup of the base class with an order up to FilterOrder - what the next setup does depends on the earlier setups alone: there is an object on which nothing else was called, and on both the next setup has the same outcome and, if it succeeds, leaves the same sections, poles, zeros, stage count and response. A setup that a new object accepts is accepted, and has the effect it has on a new object. No setup accesses an array out of range, and filter() walks arrays of the same length.", "quantifier": "all classes, template orders, sequences of calls with any arguments, any arithmetic", "why_tests_cant": "all sequences of calls", "anchors": ["iir/Cascade.cpp:Cascade::setLayout", "iir/Cascade.h:CascadeStages::setup", "iir/PoleFilter.h:PoleFilterBase", "iir/Butterworth.cpp:LowPassBase::setup"]}
{"id": "C79", "title": "IEEE double: fused multiply-adds chosen by the compiler keep the error bounds", "statement": "filter() is template code that the user's compiler may contract: any product that is added to or subtracted from something may be fused with it into one fma, differently in every place and for every sample. Whatever it chooses, the samples stay within the bounds of C54 and C64 (chains of stable sections: pole filters, SOS cascades, RBJ filters), of C76 (RBJ filters designed and run in double arithmetic) and of C77 (Butterworth low and high passes). Without an fma instruction the only possible result is the one of C01. The choice can be seen: a*a - c is 0 if the product is rounded and 1 if it is fused, for some doubles a and c.", "quantifier": "all choices of the compiler at each operation of each sample, all coefficients, inputs and parameters within the limits of C54, C76, C77", "why_tests_cant": "all inputs and all compilers", "anchors": ["iir/State.h:68-79", "iir/State.h:110-120", "iir/State.h:143-153", "iir/Cascade.h:156-164"]}
{"id": "C80", "title": "IEEE double: the response that is reported is close to the ideal response", "statement": "With design and evaluation computed in double arithmetic and a mathematical library with errors of at most 256 ulp: after the setup of C77 (Butterworth low or high pass, order 1 to 16, any history) response(f) returns for every finite f with 0 <= f <= 1/2 a finite number within A Q 2^-28 of the response of the same filter without any rounding, A and Q as in C77. For low passes the magnitude is 1/sqrt(1+(tan pi f/tan pi fc)^(2 order)) up to that error, for every f < 1/2. After the setup of C76 (RBJ low, high, band pass, band stop, all pass and notch, sharpness sigma) response(f) of the section is within sigma^4 2^-29 of that of the ideal section.", "quantifier": "orders 1 to 16, all cutoff frequencies and qualities within the limits of C76 and C77, all histories of the object, all frequencies, all libraries of that accuracy", "why_tests_cant": "all parameters and frequencies; the errors of the design, of exp(i w), of the powers, products and the complex quotient accumulate over the sections", "anchors": ["iir/Cascade.cpp:Cascade::response", "iir/Biquad.cpp:Biquad::response", "iir/MathSupplement.h:addmul", "iir/Butterworth.cpp", "iir/RBJ.cpp"]}
{"id": "C81", "title": "Float and integer samples: close to the ideal output from the parameters to the sample, and when they overflow", "statement": "With the design in double arithmetic and samples of type float or of an integer type of up to 53 bits: every filter of C76, C77 or (given coefficients) C64 returns for every input signal samples made of numbers within the bound D of these properties of the output of the ideal filter. For integers: if the ideal output stays D inside lo-1..hi+1, no conversion is undefined and the samples are within 1+D of it; for float: if its magnitude plus D is at most the largest float, they are within D + 2^-24 (|y|+D) + 2^-150. As soon as the ideal output is out of range by more than D, the behaviour is undefined. In particular a low pass (gain 1 at 0) and three 16 bit samples of full scale: undefined.", "quantifier": "all sample types of that kind, all signals of unlimited length, all parameters of C76/C77/C64, all histories", "why_tests_cant": "all signals; whether the conversion overflows depends on the overshoot of the filter", "anchors": ["iir/Cascade.h:CascadeStages::filter", "iir/RBJ.h:RBJbase::filter", "iir/RBJ.cpp", "iir/Butterworth.cpp"]}
{"id": "C82", "title": "RBJ shelves designed and run in double arithmetic stay close to the ideal shelves", "statement": "RBJ::LowShelf, HighShelf and BandShelf with at most 24 dB of gain or cut, set up in an arithmetic with rounding errors (libm functions with relative error 2^-45) and fed any signal of magnitude at most X: all outputs are finite and at all times within gamma^5 sigma^4 2^-33 X of the output of the ideal shelf with the exact quotient of frequency and sampling rate (doubles), where gamma = 10^(|g|/40) and sigma measures how close the poles are to the unit circle; with or without fused multiply-adds in filter; with float and integer samples with one more conversion; and what response returns is within gamma^5 sigma^4 2^-32 of the response of the ideal shelf.", "quantifier": "all finite parameters with |g| <= 24 dB that are not resonant (slope at most 1 and large enough for the gain; band shelves with h <= A), sharpness up to 2^10, all signals of unlimited length, all histories of the filter, all frequencies for response", "why_tests_cant": "all signals and parameters; errors accumulate over unlimited time in a recursive filter", "anchors": ["iir/RBJ.cpp:LowShelf::setupN", "iir/RBJ.cpp:HighShelf::setupN", "iir/RBJ.cpp:BandShelf::setupN", "iir/RBJ.h:RBJbase::filter", "iir/Biquad.cpp:BiquadBase::response"]}
{"id": "C83", "title": "Programs with many objects and attached cascades: who can change whom", "statement": "In a program with any number of pole filters, SOS cascades, RBJ filters and bare Cascade objects of any orders and delay line types, constructed, copied, assigned, destroyed, and attached to each other's sections with setCascadeStorage(getCascadeStorage()): a member function called on one object changes only that object and the objects it points to. An object that points to no other object and to which no other object points (every object that has just been constructed, at any point of any program) gives on every call the outcome, and ends in the state, that it would have in a program with its own calls alone, as long as it is not assigned to, destroyed, attached to something else, attached to by something else, or (pole filters) copied.", "quantifier": "all programs: any number of objects, any mixture of classes and delay line types, any sequence of statements, any arithmetic", "why_tests_cant": "all programs; aliasing through raw pointers", "anchors": ["iir/Cascade.cpp:Cascade::setCascadeStorage", "iir/Cascade.h:CascadeStages::getCascadeStorage", "iir/PoleFilter.h:PoleFilter", "iir/RBJ.h:RBJbase"]}
{"id": "C84", "title": "setCascadeStorage: a cascade attached to the sections of another object", "statement": "After f.setCascadeStorage(g.getCascadeStorage()) of a pole filter f to an object g with as many sections, setup of f has the outcome it would have had; if it succeeds, the sections of g are those f would have got, f itself goes on filtering with its old sections, while response and getPoleZeros of f describe the new ones. So a pole filter designs the sections of a SOSCascade with any delay lines, which then returns for every input what a pole filter with these delay lines returns after that setup. A Cascade attached to g realises with setLayout any poles and zeros of the client in g (stable iff all poles are inside the unit circle, response as requested, sinusoids settle to it). But right after attaching, whatever sections g has, it reports 0 stages, no poles and the response 1, and applyScale changes nothing; setLayout of a Cascade that was never attached throws; and after g is destroyed neither setup nor setLayout ever succeeds.", "quantifier": "all 21 classes, template orders, histories of f, three delay line types, all parameters, all inputs; any arithmetic (realised layouts: exact)", "why_tests_cant": "all programs, parameters and inputs; dangling pointers", "anchors": ["iir/Cascade.cpp:Cascade::setCascadeStorage", "iir/Cascade.cpp:Cascade::setLayout", "iir/Cascade.h:CascadeStages::getCascadeStorage", "iir/Cascade.h:CascadeStages::filter", "iir/PoleFilter.h:PoleFilter"]}
{"id": "C85", "title": "A copy of a pole filter that is attached to its own sections is independent of the original", "statement": "After copying a pole filter and calling copy.setCascadeStorage(copy.getCascadeStorage()), original and copy are independent: every call on one of them has the outcome it would have if the other did not exist.", "quantifier": "all classes, orders, delay lines and programs before and after; any arithmetic", "why_tests_cant": "all programs; aliasing through raw pointers", "anchors": ["iir/Cascade.cpp:Cascade::setCascadeStorage", "iir/PoleFilter.h:PoleFilter", "iir/Layout.h:LayoutBase"]}
{"id": "C86", "title": "Loud passages are forgotten, together with their rounding errors", "statement": "If the input of a stable filter calms down to the level X1, then the output calms down to a multiple of X1 and its distance from the exact response to a multiple of the rounding errors at level X1, however loud the input was before; the factors depend on the coefficients only.", "quantifier": "all pole filters, SOS cascades and RBJ filters with stable stored coefficients for which the arithmetic is precise enough, all delay lines, all inputs and all choices of fused operations; any arithmetic with small relative and absolute errors", "why_tests_cant": "statement about all times after any past; bounds for unlimited running time", "anchors": ["iir/State.h:DirectFormI", "iir/State.h:DirectFormII", "iir/State.h:TransposedDirectFormII", "iir/Cascade.h:CascadeStages::filter", "iir/RBJ.h:RBJbase::filter"]}
{"id": "C87", "title": "A stable filter falls silent when its input does", "statement": "Fed with zeros from some time on, a stable filter returns zeros from some later time on, in double arithmetic.", "quantifier": "all stable filters whose coefficients doubles are precise enough for, all delay lines, all inputs", "why_tests_cant": "infinite running time; needs the rounding of subnormal numbers", "anchors": ["iir/State.h:DirectFormI", "iir/State.h:DirectFormII", "iir/State.h:TransposedDirectFormII", "iir/Custom.h:SOSCascade"]}
{"id": "C88", "title": "Filters in several threads do not notice each other", "statement": "Threads that use objects of their own, and on shared objects only the member functions that read (response, getPoleZeros, getNumStages, operator[]), get in every schedule of their calls the outcomes and end up with the objects that each of them gets when it runs alone. No call of one thread changes an object of another, or depends on one.", "quantifier": "all programs over pole filters, attached cascades and RBJ filters, any number of threads, all schedules of whole calls, memory in which no object points into an object of another owner (all objects that were constructed and not copied); any arithmetic", "why_tests_cant": "all schedules of all programs; tests see a few", "anchors": ["iir/Cascade.h:Cascade", "iir/PoleFilter.h:PoleFilter", "iir/RBJ.h:RBJbase", "iir/Biquad.h:Biquad"]}
{"id": "C89", "title": "Custom::OnePole and Custom::TwoPole in doubles stay close to the filters they describe", "statement": "setup with a pole of magnitude at most 1 - 2^-38 (a pair of poles of radius at most 1 - 2^-19) succeeds whatever the object held before, and the samples returned afterwards, with any delay line and any use of fused operations, stay for ever within |s|(1+|z|)/(1-|p|)^2 2^-37 X (for pairs |s|(1+sigma)^2/(1-rho)^4 2^-37 X) of the filter with exactly these poles, zeros and scale.", "quantifier": "all practical scales, poles and zeros (|z| <= 3, sigma <= 3/2), all delay lines, all bounded inputs of unlimited length; any arithmetic with the precision of doubles and any library with 256 ulp, in particular IEEE doubles", "why_tests_cant": "all reals of a domain and unlimited running time", "anchors": ["iir/Custom.cpp:OnePole::setup", "iir/Custom.cpp:TwoPole::setup", "iir/Biquad.cpp:Biquad::setOnePole", "iir/Biquad.cpp:Biquad::setTwoPole", "iir/Biquad.h:Biquad::filter"]}
{"id": "C90", "title": "IEEE double: Custom filters with poles inside the unit circle are stable", "statement": "OnePole::setup(scale, pole, zero) gives a stable filter if and only if |pole| < 1; TwoPole::setup gives a stable filter if the radius of the poles is below 1.", "quantifier": "all finite poles, all scales and zeros, IEEE doubles", "why_tests_cant": "all doubles of a domain; the failure is at a single double", "anchors": ["iir/Custom.cpp:OnePole::setup", "iir/Custom.cpp:TwoPole::setup", "iir/Biquad.cpp:Biquad::setTwoPole"]}
{"id": "C91", "title": "IEEE double: the getters of Biquad return the coefficients that were set", "statement": "After setCoefficients(a0, a1, a2, b0, b1, b2) the getters getA0 to getB2 return exactly these doubles.", "quantifier": "all doubles that are not NaN", "why_tests_cant": "all doubles; rounding of quotient and product", "anchors": ["iir/Biquad.cpp:Biquad::setCoefficients", "iir/Biquad.h:Biquad::getA1", "iir/Biquad.h:Biquad::getB0"]}
{"id": "C92", "title": "IEEE double: SOSCascade runs the sections of scipy exactly as they are given", "statement": "SOSCascade(sos) with rows whose fourth entry is 1 holds exactly the given coefficients (bit by bit) and empty delay lines; if the sections are stable, the samples it returns stay for ever within rounding errors of the output of exactly these sections.", "quantifier": "all lists of rows, all delay lines, all inputs of unlimited length, IEEE doubles", "why_tests_cant": "all coefficients, all inputs and unlimited running time", "anchors": ["iir/Custom.h:SOSCascade", "iir/Cascade.h:CascadeStages::setup", "iir/Biquad.cpp:Biquad::setCoefficients"]}
{"id": "C93", "title": "Retuning an RBJ filter while it runs keeps its output bounded", "statement": "If an RBJ filter is set up again while it runs, as often as one likes, with parameters each of which gives a stable filter, then its output stays bounded for every bounded input.", "quantifier": "all schedules of valid parameters, all bounded inputs of unlimited length; exact arithmetic", "why_tests_cant": "all schedules and inputs, unlimited running time", "anchors": ["iir/RBJ.h:RBJbase::filter", "iir/RBJ.cpp:LowPass::setupN", "iir/State.h:DirectFormI"]}
{"id": "C94", "title": "Where the gain rises and where it falls", "statement": "Between frequency 0 and half the sampling frequency the gain of Butterworth filters is monotonic (low and high pass; band filters on each side of the centre), RBJ low and high passes are monotonic if Q <= 1/sqrt 2 and otherwise have exactly one peak, at the frequency where tan(pi f) / tan(pi f0) (for the high pass its inverse) is sqrt(1 - 1/(2 Q^2)), RBJ band passes have one peak at the centre, band stop and notch one dip, the all pass is level, and Butterworth and RBJ shelves go from one level to the other without overshoot.", "quantifier": "all Butterworth and RBJ filters, orders, valid parameters and pairs of frequencies; exact arithmetic", "why_tests_cant": "all real frequencies and parameters", "anchors": ["iir/Butterworth.cpp:AnalogLowPass::design", "iir/Butterworth.cpp:AnalogLowShelf::design", "iir/RBJ.cpp:LowPass::setupN", "iir/RBJ.cpp:LowShelf::setupN", "iir/RBJ.cpp:IIRNotch::setupN"]}
{"id": "C95", "title": "The ripple of the Chebyshev filters uses its whole tolerance", "statement": "In the pass band of a Chebyshev I low or high pass of order n the gain is -rippleDb and 0 dB in turn at n+1 frequencies, the last of them the cutoff, which are given by tan(pi f) = tan(pi fc) sin(k pi / 2n) (high pass: tan(pi fc) / cos(k pi / 2n)), and between neighbouring ones it is strictly monotonic; a band pass has 2n+1 such frequencies between its edges, a band stop n+1 in each pass band. In the stop band of the Chebyshev II filters the gain is in the same way -stopBandDb and exactly 0 in turn; in the band of the Chebyshev shelves it is the gain of the edge and gainDb in turn.", "quantifier": "all Chebyshev I and II filters, orders, cutoffs, widths, ripples, gains; exact arithmetic", "why_tests_cant": "all real frequencies and parameters; tests sample the ripple", "anchors": ["iir/ChebyshevI.cpp:AnalogLowPass::design", "iir/ChebyshevII.cpp:AnalogLowPass::design", "iir/ChebyshevI.cpp:AnalogLowShelf::design", "iir/ChebyshevII.cpp:AnalogLowShelf::design"]}
{"id": "C96", "title": "Retuning a pole filter while it runs keeps its output bounded", "statement": "If a Butterworth or Chebyshev filter is set up again while it runs, as often as one likes, with parameters each of which gives a stable filter, then no call fails, the samples returned are determined numbers, and the output stays bounded for every bounded input.", "quantifier": "all classes, orders, delay line types, schedules of valid parameters, bounded inputs of unlimited length; exact arithmetic", "why_tests_cant": "all schedules and inputs, unlimited running time", "anchors": ["iir/Cascade.h:CascadeStages::filter", "iir/PoleFilter.h:PoleFilter", "iir/State.h:DirectFormII", "iir/State.h:TransposedDirectFormII"]}
{"id": "C97", "title": "Each parameter moves the gain in one direction", "statement": "Of two filters set up by two calls that differ in one parameter, one has the greater gain at every frequency of a stated range. Butterworth: a higher cutoff gives a low pass more gain and a high pass less, at every frequency strictly between 0 and half the sampling rate; a higher order gives more gain in the pass band and less in the stop band (low, high, band pass, band stop); more decibels give a shelf more gain. Chebyshev I: a higher order gives less gain in the stop band, more ripple gives no more gain anywhere and less in the stop band, a higher cutoff gives the low pass more gain in the stop band and the high pass less. Chebyshev II: a higher order gives more gain in the pass band, more stop band attenuation gives no more gain anywhere and less in the pass band, a higher cutoff gives the low pass more gain in the pass band and the high pass less. RBJ: more Q gives low pass, high pass and band pass of constant skirt gain more gain, makes the band pass of peak gain 1 and the band stop narrower; more decibels give each shelf more gain; without resonance (Q <= 1/sqrt 2) a higher cutoff gives the low pass more and the high pass less gain.", "quantifier": "all pairs of parameters, orders, template orders, ways of calling setup, earlier histories of the two objects, frequencies of the range; exact arithmetic", "why_tests_cant": "relation between two filters for all pairs of real parameters and all frequencies; tests compare samples of a few", "anchors": ["iir/Butterworth.cpp:AnalogLowPass::design", "iir/Butterworth.cpp:AnalogLowShelf::design", "iir/ChebyshevI.cpp:AnalogLowPass::design", "iir/ChebyshevII.cpp:AnalogLowPass::design", "iir/RBJ.cpp:LowPass::setupN", "iir/RBJ.cpp:BandStop::setupN", "iir/RBJ.cpp:LowShelf::setupN"]}
{"id": "C98", "title": "How loud the output can get: the peak gain, and which filters overshoot", "statement": "For every stable pole filter, every valid design (also RBJ) and every stable cascade of given sections the absolute values of the samples returned for an impulse sum to a number P: an input within [-M, M] is answered within [-P M, P M], and for every M > 0 inputs of samples M and -M come as near to P M as one likes. No gain that response() reports exceeds P. For every Butterworth low, high, band pass and band stop and every Chebyshev II low, high, band pass and band stop of order 2 or more P is greater than 1: for every M > 0 some input of samples M and -M is answered by a sample beyond M although no frequency is amplified. For Butterworth shelves of order 2 or more P is greater than the greatest gain. The Butterworth low pass of order 1 has P = 1 up to a quarter of the sampling rate and P = 2 tan(pi fc)/(1 + tan(pi fc)) beyond; up to a quarter its output never leaves the range of its input (and 0); the high pass of order 1 has max(1, 2/(1 + tan(pi fc))).", "quantifier": "all stable reachable pole filters, all valid designs, orders, parameters, histories, delay lines and inputs of unlimited length; exact arithmetic", "why_tests_cant": "supremum over all inputs of unlimited length; tests try a few signals, and the usual ones (sinusoids) never show the overshoot", "anchors": ["iir/Cascade.h:CascadeStages::filter", "iir/Butterworth.cpp:AnalogLowPass::design", "iir/Butterworth.cpp:AnalogLowShelf::design", "iir/ChebyshevII.cpp:AnalogLowPass::design", "iir/RBJ.h:RBJbase::filter"]}
{"id": "C99", "title": "Integer samples: how loud they may be before the conversion of the output is undefined", "statement": "With the design in double arithmetic, samples of an integer type with range lo..hi (up to 53 bits), P the peak gain (C98) of the ideal filter and d the relative error of C76, C77 or C82: if all samples are at most M and (P + d) M is less than hi + 1 and than 1 - lo, then every conversion is defined and no output exceeds (P + d) M; if (P - d) M exceeds hi + 1 and 1 - lo, then some samples M and -M lead to undefined behaviour. In particular the Butterworth low pass of order 1 with a cutoff from 1/512 to 1/4 of the sampling rate is safe for all samples of up to 16 bits, and with 16 bits and a cutoff from 1/3 to 1/2 - 1/512 some samples 32767 and -32767 lead to undefined behaviour, although it amplifies no frequency.", "quantifier": "all Butterworth low and high passes of order 1 to 16 and RBJ filters with the parameters of C77, C76 and C82, all histories, integer types, signals of unlimited length; IEEE doubles", "why_tests_cant": "worst case over all signals of unlimited length; the signals that overflow are not those one tries", "anchors": ["iir/Cascade.h:CascadeStages::filter", "iir/RBJ.h:RBJbase::filter", "iir/Butterworth.cpp:AnalogLowPass::design"]}
{"id": "C100", "title": "Filters in series", "statement": "For any number of filters with valid parameters (pole filters, RBJ filters, SOSCascade with stable sections, mixed), each fed with the output of the one before, from reset and in exact arithmetic: the order of the filters does not matter; a sinusoid comes out scaled and shifted by the product of the responses, and two such series give the same output for all inputs exactly if these products are the same; the largest possible output is at most the product of the peak gains.", "quantifier": "all lists of filters of all classes, orders, state types and parameters; all inputs", "why_tests_cant": "all lists, designs and signals", "anchors": ["iir/PoleFilter.h", "iir/RBJ.h", "iir/Custom.h:SOSCascade", "iir/Biquad.h:filter"]}
{"id": "C101", "title": "Periodic input makes the output repeat itself exactly", "statement": "In double arithmetic, whatever the coefficients (stable or not) and the contents of the delay lines: if the input is periodic (for example constant, or zero after the end of a signal), then from some sample on filter() returns the same values again and again, bit by bit, with a multiple of the period of the input as period; there is no endless drift.", "quantifier": "all pole filters, RBJ filters and SOSCascade objects, state types, sample types, coefficients, states and periodic inputs", "why_tests_cant": "infinite running time; all states and coefficients", "anchors": ["iir/State.h", "iir/Cascade.h:filter", "iir/RBJ.h:filter"]}
{"id": "C102", "title": "Filters connected in series and in parallel", "statement": "Take any network without feedback made of filters with valid parameters, delays by one sample, series connections and mixers with any gains, from reset and in exact arithmetic. Every input has exactly one output; a sinusoid comes out scaled and shifted by the response computed from the responses of the filters (products for series, weighted sums for mixers); two networks give the same output for all inputs exactly if these responses agree between 0 and half the sampling rate; the largest possible output for samples within +-M is M times the sum of the absolute values of the answer to an impulse.", "quantifier": "all such networks of filters of all classes, orders, state types and parameters; all inputs", "why_tests_cant": "all networks and signals", "anchors": ["iir/PoleFilter.h", "iir/RBJ.h", "iir/Custom.h:SOSCascade", "iir/Cascade.cpp:Cascade::response"]}
{"id": "C103", "title": "Filters in series in double arithmetic", "statement": "Set up any number of filters in double arithmetic, Butterworth low and high passes of order up to 16 with normalised cutoff frequencies between 2^-9 and 1/2 - 2^-9 and RBJ filters whose sharpness is at most 2^10, reset them, and feed the output of each to the next. If the input samples are finite and of magnitude at most X, and X times the gains along the way stays between 2^-400 and 2^400, then no sample is ever infinite or NaN, and the output of the last filter differs from that of the same series of ideal filters by at most X times the product of (P_i + e_i) minus the product of P_i, where P_i is the peak gain of the i-th filter and e_i the error bound for it alone.", "quantifier": "all such series of any length, all earlier histories of the objects, all inputs, all times", "why_tests_cant": "all series, parameters and signals", "anchors": ["iir/PoleFilter.h", "iir/RBJ.h", "iir/Cascade.h:Cascade::filter", "iir/Butterworth.h", "iir/RBJ.cpp"]}
{"id": "C104", "title": "Group delay: what becomes of envelopes and ramps", "statement": "A filter whose sections are stable, fed a sinusoid whose envelope grows linearly, (A + B n) cos(2 pi f n + phi), answers after a while with what response() and its derivative by the frequency say at f, whatever is in its delay lines: where response() is M(f) exp(i theta(f)), the envelope comes out scaled by M and late by -theta'(f)/(2 pi) samples, with a part in quadrature B M'(f)/(2 pi). In particular a Butterworth low pass of order o passes a ramp unchanged, 1/(2 tan(pi fc) sin(pi/(2 o))) samples late, each RBJ filter but the notch turns the ramp A + B n into g (A + B n) - B d / (2 tan(pi f0)) with g and d given by a table (for an all pass of quality q: g = 1, d = 2/q), and the notch passes it scaled by 2 (1 - cos w)/W and (1 - r^2)/W samples late, where W = 1 - 2 r cos w + r^2 and r, w are the radius and angle of its poles.", "quantifier": "all stable filters, all finite contents of the delay lines, all frequencies, envelopes and phases; for ramps all orders and cutoff frequencies and all RBJ parameters", "why_tests_cant": "all filters, signals and times; a limit", "anchors": ["iir/PoleFilter.h", "iir/Cascade.h:Cascade::filter", "iir/Cascade.cpp:Cascade::response", "iir/RBJ.h", "iir/RBJ.cpp", "iir/Butterworth.h"]}
