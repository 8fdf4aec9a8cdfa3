# Single source for properties.jsonl, the property table of DESIGN.md and MANIFEST.json.
# Each entry: id, title, statement, quantifier, why_tests_cant, anchors, design, status, theorems, note
P = []
def prop(id, title, statement, quantifier, why, anchors, design, status="planned", theorems=(), note=""):
    P.append(dict(id=id, title=title, statement=statement, quantifier=quantifier,
                  why_tests_cant=why, anchors=anchors, design=design,
                  status=status, theorems=list(theorems), note=note))

prop("C01", "Stack is a bounded LIFO",
 "For every SIZE and every sequence of push/pop/top/first/clear/empty/full/size calls, Stack answers exactly like an abstract list-based stack of capacity SIZE; a push on a full stack and a pop/top/first on an empty one are the only calls that fail (assertion), and no call ever touches memory outside the buffer, whatever the uninitialised buffer held.",
 "every SIZE, every call sequence, every initial buffer content",
 "tests sample a few sequences and sizes; the claim is about all histories",
 ["stack.hh: Stack"], "state machine with checked memory; refinement to a list; induction over the call list")
prop("C02", "Deque is a bounded double-ended queue",
 "For every SIZE >= 1 and every sequence of push/pop/front/back/clear/empty/full/size calls at both ends, Deque answers exactly like an abstract list of capacity SIZE; pushes on a full and pops/reads on an empty deque are the only failing calls and no access is out of bounds, across any number of wrap-arounds.",
 "every SIZE >= 1, every call sequence, every initial buffer content",
 "the random test covers ten sizes and finitely many sequences",
 ["deque.hh: Deque", "tests/deque_test.cc"], "ring-buffer state machine with checked memory; refinement to a list; induction over the call list")
prop("C03", "Delay line delays by exactly NUM samples",
 "For every NUM >= 1, initial value and input stream, the n-th output of Delay equals the (n-NUM)-th input, and the initial value for the first NUM calls; accesses stay in bounds.",
 "every NUM >= 1, init, input stream, time n", "streams are unbounded",
 ["delay.hh: Delay"], "state machine; invariant relating ring position and the last NUM inputs")
prop("C04", "BipBuffer exposes the last NUM values contiguously",
 "For every NUM >= 1 and input stream, the pointer returned by BipBuffer addresses NUM consecutive in-bounds cells that hold the last NUM inputs oldest first (zeros before the start), so buf[NUM-1] is the newest and buf[0] the oldest.",
 "every NUM >= 1, input stream, time", "wrap-around positions and streams are unbounded",
 ["bip_buffer.hh: BipBuffer", "README.md: bip_buffer example"], "state machine over a 2*NUM memory; invariant on both copies")
prop("C05", "Moving minimum/maximum is the extremum of the last NUM inputs",
 "For every NUM >= 1 and every input stream, MovMin (no input above numeric_limits::max()) returns the minimum (MovMax on integers the maximum) of the last min(n,NUM) inputs. For a general MovExt this holds whenever the initial value is extreme or never occurs as an input.",
 "every NUM >= 1, every input stream over a totally ordered type (ties and -0/+0 style equivalences included)",
 "the amortised two-stack algorithm depends on the whole history; tests sample random streams without ties",
 ["movext.hh: MovExt, MovMin, MovMax", "tests/movext_test.cc"], "composition of Delay and two Stacks; invariant: the stacks hold the suffix extrema of the two halves of the window")
prop("C06", "Moving extrema never assert and cost amortised O(1)",
 "For every NUM >= 1, reflexive ==, and input stream no stack operation inside MovExt overflows, underflows or leaves its buffer, and n calls perform at most 2n+1 pushes in total (so a bounded number of stack operations per call on average).",
 "every NUM >= 1, every input stream, every init", "needs all histories; amortised cost is a statement about every prefix",
 ["movext.hh: MovExt", "README.md: movext"], "same model instrumented with an operation counter; potential argument")
prop("C07", "Sliding window accelerator reduces exactly the window",
 "For every NUM >= 1 (power of two or not), associative commutative op with identity ident and every stream, SWA returns the op-reduction of the last NUM inputs (missing ones count as ident).",
 "every NUM >= 1, op, stream", "unbounded sizes and streams; the tree shape differs for every NUM",
 ["swa.hh: SWA"], "heap-shaped tree in checked memory; invariant node = op(children); level-by-level product identity")
prop("C08", "SWA/SMA4 has no drift under rounding",
 "For every commutative op (no associativity, e.g. rounded floating point addition) with op(ident,ident)=ident, the output of SWA after any history depends only on the last NUM inputs and the history length modulo NUM, never on older inputs.",
 "every NUM >= 1, commutative op, pair of histories", "claims independence from arbitrarily long histories",
 ["swa.hh: SWA", "sma.hh: SMA4", "README.md: sma"], "tree invariant determines all inner nodes from the leaves")
prop("C09", "All four moving averages compute the mean of the last NUM inputs",
 "In exact arithmetic, for every NUM >= 1 and stream, SMA1, SMA2, SMA3 and SMA4 all return the sum of the last NUM inputs (zeros before the start) divided by NUM (undivided for NORM=false), and SMA1::abs_dev returns the mean absolute deviation around that average.",
 "every NUM >= 1, stream over any field", "unbounded streams",
 ["sma.hh: SMA1, SMA2, SMA3, SMA4"], "state machines over a field; running-sum invariants")
prop("C10", "SMA2 is exact on machine integers",
 "With 32-bit signed inputs of magnitude at most M and NUM*M, 2*M representable, SMA2 (NORM=false) never overflows at any intermediate step and returns the exact window sum after every history.",
 "every NUM, M, stream within the bound", "overflow depends on whole histories",
 ["sma.hh: SMA2", "README.md: 'works perfect with integers'"], "checked 32-bit arithmetic with overflow as a fault")
prop("C11", "quick_sort sorts",
 "For every array length and contents over a strict weak order, quick_sort(a, n) terminates and leaves a[0..n) a sorted permutation of its input and nothing else changed.",
 "every n, every contents, duplicates included", "n! orderings at every size",
 ["quick.hh: quick_sort, QUICK::sort, insertion, partition, median"], "imperative model in checked memory; partition loop invariant; well-founded recursion on h-l")
prop("C12", "quick_select returns the k-th smallest",
 "For every n >= 1, 0 <= k < n and contents, quick_select(a,k,n) returns the element a sort would put at k, permutes the array, and leaves a[i] <= a[k] for i<k and a[k] <= a[j] for j>k; n = 0 or k >= n fail the assertion.",
 "every n, k, contents", "unbounded inputs",
 ["quick.hh: quick_select, QUICK::select"], "imperative model; loop invariant on both sides of the current range")
prop("C13", "Sorting is memory safe and terminating for any comparison",
 "For any irreflexive '<' (even one that is not an order, such as floats with NaN), quick_sort and quick_select terminate, access only a[0..n) and permute the array.",
 "every irreflexive comparison relation, every n, contents", "NaN patterns and inconsistent comparators are unbounded",
 ["quick.hh"], "same model with the comparison as a parameter")
prop("C14", "Kahan summation is exact when arithmetic is exact",
 "Over any commutative group the Kahan accumulator returns init plus the sum of all inputs, kahan_sum equals the plain sum, and same(x) reports true exactly if adding x left the state unchanged (while still performing the addition).",
 "every input sequence", "unbounded sequences", ["kahan.hh: Kahan, kahan_sum"], "fold invariants")
prop("C15", "Kahan summation error does not grow with the number of terms",
 "In binary floating point with precision p and round-to-nearest, the error of the Kahan accumulator after n additions is at most (3u + 12 n u^2) times the sum of magnitudes, u = 2^-p; if no corrected input exceeds the sum so far, no addition loses anything and the error is at most (2u + 4 n u^2) times that sum.",
 "every precision, every input sequence", "tests sum one series",
 ["kahan.hh: Kahan"], "error bound for any arithmetic with relative errors, instantiated by a concrete rounding function; the theorem of Dekker on error-free addition for the sharper bound")
prop("C16", "Schmitt trigger has hysteresis",
 "For low <= high the output after any input history is decided by the most recent decisive sample: true if it was above high, false if below low, the initial state if none; inputs inside [low, high] never change the output.",
 "every history", "unbounded histories", ["trigger.hh: SchmittTrigger"], "state machine, induction over the history")
prop("C17", "Edge triggers report exactly the edges",
 "Rising (falling) edge trigger outputs true exactly at false->true (true->false) transitions of the history including the initial level; rising minus falling edges equals final minus initial level.",
 "every boolean history", "unbounded histories", ["trigger.hh: RisingEdgeTrigger, FallingEdgeTrigger"], "state machines, induction")
prop("C18", "Integrator and Differentiator are running sum and first difference and invert each other",
 "For every stream over a commutative group the integrator outputs all prefix sums, the differentiator all first differences, and composing them in either order (matching initial values) is the identity.",
 "every stream and initial value", "unbounded streams", ["calculus.hh: Integrator, Differentiator"], "state machines, induction")
prop("C19", "A written WAV header is read back exactly",
 "For every rate, channel count and bit depth for which the header fields fit, opening a file produced by WriteWAV yields the same rate, channels and bits (8, 16, or 32 for anything else), the reader is positioned at the first sample, and frames() equals the number of frames written (-1 if none was).",
 "every rate, channels, bits and number of frames within the format limits", "parameter space is unbounded",
 ["wav.hh: WriteWAV, ReadWAV"], "byte-level writer (including the destructor's patching) and parser; symbolic evaluation of the parser on the writer's output")
prop("C20", "PCM samples survive a write/read cycle within half a quantisation step",
 "In exact arithmetic every sample of magnitude <= 1 written at 8/16 bit and read back differs by at most 1/(2*factor); out-of-range samples saturate to the extreme code; re-encoding a decoded sample reproduces the same bytes.",
 "every sample value, every code, both depths", "samples range over a continuum",
 ["wav.hh: WriteWAV::write, ReadWAV::read"], "quantiser over an ordered field with nearest rounding; little-endian byte lemmas")
prop("C21", "32-bit float samples are bit exact",
 "Every 32-bit pattern written in float mode is read back bit for bit, for any number of frames and channels.",
 "all 2^32 patterns, all lengths", "2^32 patterns times all layouts", ["wav.hh: writeLE, readLE, float2int, int2float"], "BitVec little-endian round trip")
prop("C22", "A WAV file is readable after a crash at any byte",
 "If the writer dies after the header at any byte of the sample data or at any byte of the destructor's patching (bytes reaching the file in program order), the reader still accepts the header with the right rate/channels/bits and reports either -1 (unknown) or the exact number of frames.",
 "every crash point at byte granularity, every content", "every crash point of every file",
 ["wav.hh: WriteWAV::~WriteWAV, ReadWAV"], "trace of byte writes; every prefix of the trace is parsed")
prop("C23", "WAV multi-channel layout, stride, skip and silence",
 "write/read with a stride transfer exactly the cells stride*n+c and leave the others untouched, skip(n) leaves the reader where reading n frames would, and silence(n) decodes to n all-zero frames.",
 "every stride, channel count, length", "unbounded layouts", ["wav.hh: read, write, skip, silence"], "loops over a byte list and a checked sample buffer")
prop("C24", "ReadWAV accepts only consistent headers",
 "Whenever the reader gets past all header checks, bits is 8, 16 or 32, block align and byte rate agree with rate*channels*bytes, and the data size (if positive) agrees with the RIFF size; whenever a check fails the object's format fields beyond that point are never set.",
 "every byte string", "all byte strings", ["wav.hh: ReadWAV::ReadWAV"], "parser with uninitialised fields as none; inversion of the parser")
prop("C25", "PNM headers round trip and comments are skipped",
 "For every width, height, maxval and colour mode ReadPNM recovers exactly the values WritePNM wrote and is positioned at the first pixel byte; the same holds for headers with newline-separated fields and comment lines at line starts.",
 "every width, height, maxval, every comment text", "unbounded numbers and comment texts", ["netpbm.hh: ReadPNM, WritePNM"], "byte-level printer and parser; decimal round trip by induction")
prop("C26", "PNM pixel codes survive a read/write cycle",
 "For every maxval in 1..255 and every code q <= maxval, decoding q to linear light and encoding it again yields q (exact real arithmetic), encoded values always lie in 0..maxval and the encoding is monotone.",
 "every maxval, code and real sample", "samples range over a continuum", ["netpbm.hh: linear, srgb"], "real powers; monotonicity plus a polynomial inequality at the branch joint")
prop("C27", "Theil-Sen estimator is the median of slopes",
 "For LEN <= LEN_MAX and data with at least one pair of distinct abscissae, slope() is the upper median of all pairwise slopes and (for LEN_MAX >= 3) yint() the upper median of the residuals; data on a line is recovered exactly, and so it is if more than half of the pairs and of the points lie on it; for any data, length and irreflexive comparison all accesses are in bounds and only the lack of any slope fails (an assertion).",
 "every data set and length", "unbounded data", ["theil_sen.hh: TheilSenEstimator::compute"], "imperative model on top of quick_select; order-statistics lemmas")
prop("C28", "Repeated median tolerates almost half outliers",
 "If all but at most floor(n/2)-1 of the n points lie on a line (these at distinct abscissae), both repeated median estimators return exactly that line whatever the other points are, and one outlier more can break them; results are the stated nested medians and accesses are in bounds (for x that equal themselves).",
 "every data set, every outlier choice", "adversarial outliers", ["repeated_median.hh"], "imperative model on top of quick_select; counting argument")
prop("C29", "Simple linear regression is the least squares line",
 "In exact arithmetic with non-constant x the returned line minimises the sum of squared residuals over all lines, passes through the centroid, recovers collinear data exactly, xint is its zero, and the uniform-grid constructor agrees with the general one.",
 "every data set, every competitor line", "quantifies over all lines", ["regression.hh: SimpleLinearRegression"], "ordered field algebra over finite sums")
prop("C30", "Complex is the field of complex numbers",
 "Every operator and function of DSP::Complex agrees with the mathematical complex numbers (division for non-zero divisors), including compound assignment, conj, norm, abs, polar.",
 "all operands (exact arithmetic)", "continuum of operands", ["complex.hh"], "homomorphism to Mathlib's complex numbers")
prop("C31", "The FFT computes the discrete Fourier transform",
 "For every supported BINS, both signs and every input, FastFourierTransform writes out[k] = sum_n in[n] * exp(sign*2*pi*i*n*k/BINS) for all k, given exact twiddle factors.",
 "every BINS with prime factors <= 31, both signs, every input", "unboundedly many sizes, each with its own code path",
 ["fft.hh: Dit, FastFourierTransform"], "model of all butterflies (tables copied from the code) and of the recursive template; induction over BINS")
prop("C32", "Forward and backward FFT are inverse up to BINS, and Parseval holds",
 "Backward after forward returns BINS times the input, the transform is linear and preserves energy up to BINS.",
 "every supported BINS and input", "as C31", ["fft.hh: FastFourierTransform"], "corollaries of C31")
prop("C33", "The FFT size dispatch always terminates on a real butterfly",
 "split(N) divides N for every N, a transform is instantiable exactly for N whose prime factors are all at most 31, and recursion always ends at an implemented radix.",
 "every N >= 1", "all sizes", ["fft.hh: split, pow2, pow4, pow8, Dit"], "strong induction; bit-mask lemmas")
prop("C34", "Real-to-half-complex transform",
 "For even BINS with supported BINS/2 and every real input, out[k] for 0<k<BINS/2 is the full DFT bin k, and out[0], out[BINS/2] are half the DFT bins 0 and BINS/2.",
 "every supported BINS and input", "as C31", ["fft.hh: RealToHalfComplexTransform"], "on top of C31; in-place post-processing loop invariant")
prop("C35", "Frequency-domain zero padding interpolates",
 "FDZP evaluates the trigonometric interpolant of the input at OUTPUT equidistant points, reproduces the samples when OUTPUT is a multiple of INPUT, and repeated calls do not influence each other.",
 "every INPUT, OUTPUT, input", "unbounded sizes and call histories", ["fdzp.hh: FDZP"], "on top of C31; loop semantics of the spectrum shuffling")
prop("C36", "UnitCircle approximates sine and cosine to double precision",
 "For every 1 <= N < 2^28 and |n| <= N, UnitCircle::cos/sin(n,N) do not overflow and in exact arithmetic differ from cos/sin(2*pi*n/N) by less than 2^-57; with exact kernels the octant reduction is exact. From N = 2^28 on 8*n overflows.",
 "every N, n", "tests stop at N = 5000", ["unit_circle.hh: UnitCircle"], "octant case analysis and polynomial error bound against the Taylor series")
prop("C37", "atan/atan2 approximate the true functions",
 "In exact arithmetic atan is odd, has the sign of its argument and is within 2^-52 of arctan everywhere, with an error relative to the argument up to 0.66; atan2(y,x) is within the same bound of the argument of x+iy in all quadrants and on the axes, and a negative zero for y gives -pi on the negative real axis.",
 "all real x, y", "continuum", ["atan2.hh"], "derivative bound for the rational kernel; argument reduction identities")
prop("C38", "exp10 and ldexp",
 "ldexp(x,n) = x*2^n for |n| <= 255 and reaches an undefined shift beyond; in exact arithmetic exp10(x) has a relative error of at most 2^-60 for |x| <= 76.9 and reaches the undefined shift from 77 on.",
 "all x, n", "continuum", ["exp.hh"], "shift arithmetic with faults; rational approximation bound")
prop("C39", "decibel/idecibel",
 "In exact arithmetic decibel(1)=0, decibel(1/v)=-decibel(v), decibel is strictly increasing on v >= 0, and it is within 1e-17 of 10*log10(v) up to 400 dB, 1e-13 up to 770 dB and 1/5000 over the range of double precision; decibel(0) is finite. decibel(idecibel(d)) is within 2e-13 of d for |d| <= 769.",
 "all v > 0", "continuum", ["decibel.hh"], "iterated square root and artanh series remainder")
prop("C40", "Mathematical constants are accurate to all printed digits",
 "Each constant of Const and each EMACascade factor for up to 16 stages is the mathematical value cut off after its last printed digit; from 17 stages on there is no correction.",
 "every constant", "compilers truncate them: a wrong 20th digit is invisible to tests", ["const.hh", "ema.hh: cascade_factor"], "Machin formula bounds for pi, rational powers for the roots")
prop("C41", "CORDIC atan2 is defined for all operands and accurate for long vectors",
 "For every pair of 8 bit or 16 bit operands CORDIC::atan2 neither overflows its int arithmetic nor leaves its table and returns a value of its type. The printed angles are exact to the last digit. With 8 bits the result is within 1.25 steps of the true angle for vectors of length 64 or more, 2.8 from length 16, 7.2 from length 4 and 14.5 always; with 16 bits it is within 2.2 + 185000 / length steps from length 64 on.",
 "all operands but the origin", "2^32 operand pairs for short; the test only walks the circle of largest radius", ["cordic.hh"], "integer model; growth invariant against overflow; each step is an exact rotation plus a rounding error whose effect on the angle is bounded, and all 8 bit operands are run through the kernel against a certified table of cosines")
prop("C42", "EMA stays in the convex hull of its inputs",
 "For 0 <= alpha <= 1 every output of EMA lies between the minimum and maximum of the initial value and the inputs so far; the output equals the exponentially weighted sum, has unit DC gain, and is monotone in the inputs.",
 "every alpha, history", "unbounded histories", ["ema.hh: EMA", "utils.hh: lerp"], "state machine over an ordered field")
prop("C43", "EMA cutoff is the -3 dB point",
 "With alpha from cutoff(n,N) (exact cosine) alpha lies in [0,1] and the squared magnitude response at 2*pi*n/N is exactly 1/2.",
 "every 0<n<=N/2", "continuum of frequencies", ["ema.hh: cutoff_alpha"], "real algebra")
prop("C44", "Cascaded EMA stays in the hull and has unit DC gain",
 "For every ORDER and history with alpha in [0,1] the output of EMACascade lies in the hull of zero and the inputs, a constant input is reached in the limit, and the transfer function is that of a single stage to the power ORDER.",
 "every ORDER, history", "unbounded", ["ema.hh: EMACascade"], "induction over stages and time")
prop("C45", "BlockDC removes DC and passes Nyquist",
 "The response to a constant decays geometrically to zero, the alternating signal passes with gain one in steady state, and bounded inputs give bounded outputs, for every s >= 1.",
 "every s, history", "unbounded", ["blockdc.hh"], "closed form of the recursion")
prop("C46", "Biquad realises its transfer function",
 "For every coefficient set and input stream the output z-transform times A(z) equals the input z-transform times B(z); the filter is linear and time invariant; a cascade multiplies transfer functions.",
 "every input stream", "unbounded", ["biquad.hh: Biquad::operator(), BiquadCascade"], "formal power series")
prop("C47", "Biquad designs are stable",
 "For 0<n<N/2 and positive Q every design (lowpass, highpass, notch, bandpass, allpass) has poles strictly inside the unit circle; the free response decays to zero and bounded inputs give bounded outputs.",
 "every n, N, Q", "continuum of designs, unbounded histories", ["biquad.hh"], "Jury conditions, explicit contraction")
prop("C48", "Biquad designs have the advertised response",
 "Lowpass has gain 1 at DC and 0 at Nyquist, highpass the reverse, notch is zero and bandpass one at the centre frequency, allpass has gain one at every frequency, lowpass/highpass with Q have gain Q at the corner.",
 "every n, N, Q, frequency", "continuum", ["biquad.hh"], "complex algebra on the transfer function")
prop("C49", "BiquadCascade is a Butterworth filter",
 "The cascade's squared magnitude at omega is exactly 1/(1+(tan(omega/2)/tan(omega0/2))^(4*NUM)) for lowpass, and its mirror for highpass.",
 "every NUM, corner, frequency", "continuum and unbounded order", ["biquad.hh: BiquadCascade::lowpass, highpass"], "product over the Butterworth pole angles")
prop("C50", "Phasor stays on the unit circle with the right phase",
 "After any number of calls the phasor output has magnitude one and equals delta^n for a unit delta (exact arithmetic); changing frequency keeps the phase continuous; reset returns to 1.",
 "every history of calls", "unbounded", ["phasor.hh"], "induction")
prop("C51", "The FM demodulators agree",
 "For non-zero inputs FMD1, FMD2 and FMD3 output the same principal phase increment scaled by 1/(pi*bw) (up to the +-pi tie), a constant frequency gives a constant output, FMD4/FMD5 give the sine of the increment for constant amplitude.",
 "every non-zero input stream", "unbounded", ["fmd.hh"], "argument of complex quotients")
prop("C52", "AM demodulator gain stays bounded",
 "The AGC level always lies in [lo,hi] after a call, so the division is defined; with the level settled at the carrier peak the demodulated value is the modulating signal.",
 "every input stream and agc setting", "unbounded", ["amd.hh"], "invariant")
prop("C53", "Normalisers are bounded",
 "For s >= 2 the normaliser never divides by zero and its output magnitude is at most sqrt(s/2) for every input history.",
 "every history, s", "unbounded", ["normalize.hh"], "invariant on the average")
prop("C54", "CDC equals mixing by Fs/4, half-band filtering and decimation by two",
 "For every TAPS = 4m+1 with m >= 1, Kaiser parameter and input stream the outputs of CDC are every other sample of the input mixed by a quarter of the sampling rate and filtered by the Kaiser-windowed ideal half-band low-pass (exact arithmetic). TAPS = 1 is accepted and reads out of bounds.",
 "every TAPS, stream", "unbounded", ["cdc.hh"], "state machine vs. convolution sum")
prop("C55", "Hilbert filter equals its FIR convolution",
 "For every TAPS = 4m+1 with m >= 1, Kaiser parameter and input stream Hilbert outputs the input delayed by 2m+1 in the real part and the convolution with the Kaiser-windowed ideal Hilbert transformer in the imaginary part (exact arithmetic). TAPS = 1 is accepted and reads out of bounds.",
 "every TAPS, stream", "unbounded", ["hilbert.hh"], "state machine vs. convolution sum")
prop("C56", "NLMS learns",
 "With mu=1 the a-posteriori error after every update is zero; for 0<=mu<=2 the distance of the taps to any exact solution never increases; zero-power histories leave the taps unchanged and there is no division by zero.",
 "every history, mu", "unbounded", ["lms.hh: NLMS"], "ordered field algebra")
prop("C57", "NCLMS learns (complex)",
 "The same for the complex filter, with the estimate sum filter[i]*input[i].",
 "every history, mu", "unbounded", ["lms.hh: NCLMS"], "complex algebra")
prop("C58", "Natural cubic spline",
 "For every KNOTS >= 2 and data the spline interpolates all knots, is twice continuously differentiable at inner knots, has zero curvature at both ends, reproduces straight lines, and never divides by zero or leaves its tables, for every x whose distance from the first knot is below 2^31 knot distances (beyond, the index conversion is undefined).",
 "every KNOTS, data, x", "unbounded", ["spline.hh: UniformNaturalCubicSpline"], "tridiagonal elimination invariant")
prop("C59", "Cubic Hermite spline",
 "For n >= 3 increasing knots the Hermite spline interpolates the data, is continuously differentiable, reproduces straight lines, and never reads outside its arrays, for every x (at uniform knots: below 2^31 knot distances). With two knots every evaluation reads outside.",
 "every n >= 3, data, x", "unbounded", ["spline.hh: CubicHermiteSpline"], "case analysis on the segment index")
prop("C60", "Resampler2 produces samples at the right rate",
 "For every stream of inputs and differences less than the rate, each call terminates with at most B outputs if 1 <= B*(1-diff/rate); the outputs are the input filtered around positions that advance by 1-diff/rate, using the nearest samples; for constant diff the number of outputs after n inputs is n*rate/(rate-diff) up to a constant. With diff >= rate a call never returns.",
 "every history", "unbounded", ["resampler.hh: Resampler2"], "conservation law invariant")
prop("C61", "Resampler never leaves its buffers",
 "For every rate, diff, samples, stride (positions within int) the block resampler reads and writes only inside the given buffers, sets only the elements at (i+(TAPS-1)/2)*stride, each to the input filtered around i*rate/(rate+diff), or leaves them if the samples needed are not all there.",
 "every parameter", "unbounded", ["resampler.hh: Resampler"], "index arithmetic with nearest rounding")
prop("C62", "Window functions are symmetric and bounded",
 "Every window satisfies w(n,N) = w(N-1-n,N), lies in [0,1] on 0..N-1 (exact trigonometry; Blackman(a) for |a| <= 1/4) and is 1 in the middle; the approximated cosine changes that by less than 2^-57. A window of one sample divides zero by zero.",
 "every N >= 2, n", "all sizes", ["window.hh"], "real trigonometry")
prop("C63", "Kaiser window approximates the Bessel ratio",
 "i0 is even, at least one, increasing in |x|, and within 1e-32 of the Bessel function for |x| <= 3*pi; the window is symmetric, lies in (0,1], is 1 in the middle and for |a| <= 3 within 1e-32 of the defining ratio (exact arithmetic).",
 "all a, N, n", "continuum", ["window.hh: Kaiser"], "series remainder")
prop("C64", "FIR designs",
 "LowPass, HighPass, BandPass and HilbertTransform are the inverse Fourier transforms of the ideal filters; LowPass2/HighPass2 equal LowPass/HighPass at rational cutoffs other than zero (exact trigonometry); all designs are symmetric (Hilbert antisymmetric), and low plus high pass gives the interpolation kernel.",
 "all n, N, num, den", "all sizes", ["filter.hh"], "real trigonometry, C++ remainder semantics")
prop("C65", "Coeffs tabulates and normalises",
 "Coeffs holds func(n,TAPS) (or the product of two), reads outside 0..TAPS-1 return zero, and after normalize(d) the coefficient sum has magnitude 1/d, unless the sum of the table is zero, which divides by zero.",
 "all TAPS, functions, n", "all sizes", ["coeffs.hh"], "finite sums")
prop("C66", "Utility functions",
 "lerp, clamp, signum, sinc, delta and normal_pdf satisfy their defining equations for all arguments.",
 "all arguments", "continuum", ["utils.hh"], "real analysis")

prop("C67", "FFT accuracy in floating point",
 "In any arithmetic whose sums, differences and products have a relative error of at most u (float, double), with constants accurate to t such units, every bin of the computed transform differs from the exact one by at most (1+u)^E - 1 times the sum of the input magnitudes, where E adds 2t+7 for each prime factor 2 and p+4t+10 for each odd prime factor p of the size; transforming forth and back returns size times the input to twice that many roundings. With the library's own trigonometric functions and constants in place of assumed ones, in binary floating point of 10 to 53 bits, the error is at most 64 log2(size) units.",
 "all sizes without prime factors above 31, both signs, all inputs, all precisions", "all inputs of all sizes; rounding errors of a whole transform", ["fft.hh", "complex.hh"], "error analysis in the standard model of rounded arithmetic, instantiated for binary floating point")

prop("C68", "Trigonometric functions in floating point",
 "UnitCircle<TYPE>::cos(n, N) and sin(n, N), computed in binary floating point of 10 to 53 bits with every operation and every constant rounded (float, double), differ from the true values by at most 9 units of rounding; in any arithmetic with relative errors of at most u the error is at most 8.6 u + 2^-57.",
 "all n in [-N, N], all N up to 268435455, all precisions", "about 2^57 argument pairs for each precision", ["unit_circle.hh", "const.hh"], "error analysis of the argument and of the Horner schemes in the standard model of rounded arithmetic, concrete double rounding of the constants")

prop("C69", "PCM samples in floating point",
 "In binary floating point of at least 20 bits (float, double), with every operation rounded: each 8 and 16 bit code is encoded to itself after decoding, so files can be read and written any number of times without loss; samples in range come back within half a quantisation step plus six units of rounding; samples beyond the range saturate, at exactly one above.",
 "all codes, all samples, all layouts, all precisions from 20 bits on", "all pairs of 2^32 floats or 2^64 doubles and two formats", ["wav.hh: WriteWAV::write, ReadWAV::read"], "rounding error analysis over the concrete model of binary floating point")

prop("C70", "Oscillator in floating point",
 "In binary floating point of 10 to 53 bits, with every operation and the square root rounded, the oscillator tuned with omega(n, N) never fails, its outputs stay within 4/2^p of magnitude one however often it is called, and output k is within (35k+4)/2^p of e^(2 pi i k n/N): the magnitude error does not accumulate and the phase error grows at most linearly.",
 "all frequencies n/N with N < 2^28, all numbers of calls, all precisions from 10 to 53 bits", "unbounded running time; rounding errors depend on every frequency", ["phasor.hh: Phasor::omega, Phasor::operator()", "complex.hh: norm, abs, operator *=, operator /="], "error analysis of direction and magnitude in the standard model of rounded arithmetic, induction over the calls; correctly rounded square root as a concrete definition")

prop("C71", "Moving averages in floating point: bounds and drift",
 "In binary floating point of p bits SMA1 and SMA4 are off by at most ((1+2^-p)^NUM - 1) and ((1+2^-p)^(ceil(log2 NUM)+1) - 1) times the mean magnitude within the window, after every history, so they do not drift. SMA2 and SMA3 have bounds in terms of all inputs so far only, of order (NUM+3)*2^-p and 8*2^-p times the sum of their magnitudes; and they do drift: for every window of two or more there are inputs after which the window holds only zeros and the sum is -K, for all K up to a half (SMA2) or a sixth (SMA3) of the largest input.",
 "all window lengths, all streams of any length, all precisions", "drift needs millions of adversarial inputs to become visible; bounds quantify over all streams", ["sma.hh: SMA1, SMA2, SMA3, SMA4", "kahan.hh: Kahan::operator()", "README.md: section sma.hh"],
 "error analysis in the standard model of rounded arithmetic with a potential for the window of SMA2, pairwise summation for SMA4; explicit drifting input blocks by residue classes of the accumulated error", )

prop("C72", "EMACascade cutoff is the half power point of the cascade",
 "After EMACascade::cutoff(n, N) with 1 to 16 stages the power passed falls strictly with the frequency and halves between F*m*(1-(pi*m/N)^2/6) and F*m bins, where F = sqrt(2^(1/ORDER)-1), m = nearbyint(n/cascade_factor) is at most N/2 and F*m is within F/2 (plus the last digit of the constant) of n; the steady state response to a complex exponential is that of one stage to the power ORDER. Beyond 16 stages the power at bin n is 1/2^ORDER; when m reaches N the cascade is stuck at zero.",
 "all frequencies n/N and orders", "continuum of frequencies; the half power point is not observable by sampling a few", ["ema.hh: EMACascade::cutoff, cascade_factor, cutoff_alpha"], "closed form of the power in terms of sines, concavity and cubic bound of the sine, exact digits of the constants from C40")

prop("C73", "Sizes for which FDZP keeps its promise",
 "For 0 < INPUT < OUTPUT whose prime factors are at most 31, FDZP evaluates the trigonometric interpolant at OUTPUT equidistant points for all inputs and call sequences exactly when INPUT = 1, or INPUT is even and 2*OUTPUT >= 3*INPUT; for every other pair of sizes there is an input with a wrong output on the very first call.",
 "every INPUT, OUTPUT with supported prime factors", "infinitely many pairs of sizes; that a pair is right cannot be seen from examples", ["fdzp.hh: FDZP"], "C35 for the even sizes, a separate loop analysis for a single sample; for every other pair a single spectral line is computed through the shuffling and compared with the interpolant")

prop("C74", "Recursive filters in floating point",
 "EMA, EMACascade, BlockDC, Biquad and BiquadCascade in rounded arithmetic: for inputs bounded by M the outputs differ from those of the exact filter with the same coefficients by at most a constant times M at all times (about 3u/alpha for EMA, 12u/(1-a) for BlockDC, an explicit function of the poles for Biquad, products of these for cascades), so rounding errors never accumulate. BlockDC removes a constant completely. The error is real: an EMA over 2^k samples does not follow an input that is up to 2/3 u/alpha away from its value, and in float an EMA over three samples leaves a constant input.",
 "all inputs, coefficients with poles inside the unit circle, unbounded time, every precision", "unbounded time; worst case inputs are not found by sampling", ["ema.hh: EMA, EMACascade", "blockdc.hh: BlockDC", "biquad.hh: Biquad, BiquadCascade"], "standard model of rounding for one step; contraction with the modulus of the pole, for second order factored into two complex poles; explicit fixed points in the binary format")

prop("C75", "Filter designs in floating point",
 "With the rounded sine and cosine of UnitCircle: the weight of EMA::cutoff(n, N) is within 80u/sqrt(1-cos) of the exact one; all five coefficients of every Biquad design, and of every section of the lowpass and highpass cascades, are within 85u of the cookbook (quality at least 1/4, n up to N/2); if bandwidth and frequency exceed the errors (sin/(2Q) > 130u and 1-|cos| > 260u) the poles of the rounded filter are inside the unit circle. Below that the designs degenerate: if 43 n^2 2^p <= N^2 the rounded cosine is one, EMA keeps its first value for ever and the lowpass is silent; in float the filters for 1 Hz at 192 kHz with quality one have a pole outside the unit circle.",
 "all frequencies up to N/2, all qualities from 1/4 on, any number of sections, every precision from 10 to 53 bits", "infinitely many parameters; worst cases of the errors are not found by sampling", ["ema.hh: cutoff", "biquad.hh: lowpass, highpass, notch, bandpass, allpass", "unit_circle.hh: UnitCircle"], "error calculus for sums, products, quotients and roots on top of C68; Jury's conditions with margin; for low frequencies one minus less than half a unit rounds to one; the unstable case is computed by the kernel")

prop("C76", "Robust line fits in floating point",
 "In rounded arithmetic with a relative error of u per operation, for any data: the slope of TheilSenEstimator and of both repeated median estimators is within the relative error 3.01u of the exact (nested) median of slopes, whatever the number of points; the intercept of TheilSenEstimator and RepeatedMedianEstimator2 is within u|c| + 1.001u max|slope x| of the exact median of the residuals; the intercept of RepeatedMedianEstimator suffers from cancellation, its error is up to 2.01u max|x_j y_i/(x_j - x_i)|. With outliers (less than half of the pairs and points, or at most n/2-1 points) and the other points within eps of a line, slope and intercept are near that line: the slope within 2eps/d + 3.01u(|m| + 2eps/d) for gaps of at least d. Far from the origin the first repeated median estimator does fail: in float the intercept of three points on y = 517 around x = 1048582 is 576.",
 "all data, all numbers of points, all outliers, every precision of ten or more bits", "infinitely many data sets; the worst roundings are not found by sampling", ["theil_sen.hh: TheilSenEstimator::compute", "repeated_median.hh: RepeatedMedianEstimator::compute, RepeatedMedianEstimator2::compute"], "counting arguments: order statistics follow pointwise monotone bounds, and an interval with more than half of a list contains its median; three roundings per slope; the failure is computed by the kernel")

prop("C77", "Decibels in floating point",
 "In binary floating point of p >= 10 bits decibel(v) is within (9080 + 8.1|dB|)/2^p + 10^-17 of 10*log10(v) for every level up to 400 dB: about half a millidecibel in float and 10^-12 dB in double. The bound is nearly reached for every precision, because the ten square roots wipe out what is near one: the 1023 numbers above one all have the level zero although the last of them has more than 8500/2^p dB, and no result is between -4400/2^p and 8800/2^p except zero.",
 "every precision from ten bits on, every number up to 400 dB", "all precisions at once; the worst roundings of twenty operations are not found by sampling", ["decibel.hh: decibel"], "relative error of iterated roots as a fixed point; error of the quotient near one; Lipschitz bound of the series; representable numbers next to one; roots of 1 + k ulp by induction")

prop("C78", "Powers of ten in floating point",
 "In binary floating point of 20 to 53 bits exp10(x) is within (7.4/2^p + 1.001/2^60) of 10^x relatively for |x| <= 76.9, ldexp(x, n) is exact for |n| <= 255, exp10(0) is one, idecibel(d) is within (7.41 + 0.231|d|)/2^p + 1.002/2^60 relatively for |d| <= 768, and decibel(idecibel(d)) is within (9120 + 9.2|d|)/2^p + 2*10^-17 of d for |d| <= 399.",
 "every precision from 20 to 53 bits, every argument in the range", "all precisions at once; the worst roundings of thirty operations are not found by sampling", ["exp.hh: ldexp, exp10", "decibel.hh: decibel, idecibel"], "the first part of the reduction is exact because its constant is short; error calculus for the rational function; the integer may be one off the nearest without harm, C38 covers a wider interval than needed")

prop("C79", "Angles in floating point",
 "In binary floating point of 20 to 53 bits atan(x) is within 8.6/2^p + 1.86*10^-16 of the angle for every x, within (4.4/2^p + 10^-15)|x| of it for |x| <= 0.6599, exactly odd, and of the right sign; atan2(y, x) is within 19/2^p + 1.9*10^-16 of the argument of x + iy for all numbers that are not both zero, and within 9.2/2^p + 1.9*10^-16 if x is positive; a negative zero for y gives -pi on the left.",
 "every precision from 20 to 53 bits, every number or pair of numbers", "all precisions and all pairs at once; the worst roundings of twenty operations are not found by sampling", ["atan2.hh: atan_kernel, atan_approx, atan, atan2", "const.hh"], "error calculus for the two polynomials; the fraction takes away at most 0.117 of the argument, so its relative error counts little; the angle feels only half of the relative error of its tangent; the interval of C37 is widened because the threshold is rounded too")

prop("C80", "Depth and work of sorting and selecting",
 "Over a strict weak order quick_sort on n elements never has more than (n-30)/3 partitions inside of each other, and quick_select never makes more than (n-30)/3 of them; all partitions of a sort together look at no more than n(n+13)/6 elements, those of a selection at no more than n(n+3)/6. With d different values there are no more than d partitions inside of each other, which look at no more than d*n elements. These depths are needed: any n different values can be arranged such that quick_sort and quick_select(a, 0, n) need exactly depth (n-30)/3 and look at n^2/6 - 171 elements at least.",
 "every strict weak order, every length and contents; for the lower bound every set of values of a linear order", "the bad orders are n! to one and do not occur at random", ["quick.hh: quick_sort, quick_select, QUICK::sort, select, partition, median"], "the median of five leaves two cells on either side that are not beyond the pivot, an injection follows them through the swaps; the bad order is built from the one for n-3 elements by list surgery; the instrumented model returns what the plain one does")

prop("C81", "Where the resamplers take their samples in floating point",
 "With p bits, a constant diff of at most half of the rate and any number of calls of Resampler2, every call gives at most two outputs, the output o is at the place o*(1 - diff/rate) of the input and n outputs belong to n*(1 - diff/rate) inputs, up to an error of (1 + 5|diff/rate|)/2 units 2^-p for each output; adding and subtracting one from the position is exact. The error does accumulate: with |diff/rate| <= 2^-(p+2) every call gives exactly one output for ever, so with diff/rate = 2^-(p+2) the output o is off by o/2^(p+2). In Resampler the place of the output i has a relative error of about two units of TYPE and one of double, and a diff of less than rate/2^(p+1) is ignored.",
 "every precision, rate, difference and number of calls", "the drift shows after millions of samples", ["resampler.hh: Resampler2::operator(), Resampler::operator()"], "a model of the positions alone, shown to be that of the whole function in exact arithmetic; rounding to nearest near powers of two; induction over the calls")

prop("C82", "Rounding errors of the real transform and of zero padding",
 "With p bits (10 <= p <= 53), the bins 0 < k < N of RealToHalfComplexTransform of 2 N real inputs are those of the discrete Fourier transform up to (128 log2(N) + 96)/2^p times the sum of the magnitudes of the inputs, and the bins 0 and N half of those up to (64 log2(N) + 4)/2^p times it, with the trigonometric functions of the code and for every N without prime factors above 31; nothing behind the N + 1 bins is written. For an even INPUT and OUTPUT >= 3/2 INPUT, every output of every call of FDZP is the trigonometric interpolant of the input of that call up to (64 log2(INPUT OUTPUT) + 10)/2^p times the sum of the magnitudes of that input, whatever the calls before it got. Both follow from bounds that hold in any rounded arithmetic.",
 "every precision, size, input and number of calls", "a test covers some sizes with tolerances that are guessed", ["fft.hh: RealToHalfComplexTransform", "fdzp.hh: FDZP"], "the error calculus of C67 for the combining loop and the ends; a bound on the sum of the errors of the padded spectrum; the exact identities of C34 and C35")

prop("C83", "Rounding errors of the window functions",
 "With p bits (16 <= p <= 53), for |a| <= 3 and every length 2 <= N <= 2^30 and 0 <= n < N, the Kaiser window never takes the root of a negative number nor divides by zero, and its weight is that of the exact ratio of Bessel functions with a relative error of at most (60 + 85 a^2)/2^p; the weight in the middle of an odd length is exactly one. The Bessel function itself has a relative error of at most 27 units for arguments up to 9.6 in every rounded arithmetic, wherever the loop stops. With p >= 10: Hann is off by at most 7/2^p, Hamming by 8/2^p, Blackman by (3|a0| + 13|a1| + 12|a2|)/2^p, and Lanczos has a relative error of at most 24/2^p; Gauss is off by at most 8/2^p for N <= 2^p and any parameter but zero, if exp and pow(., 2) of the C library have errors below one unit in the last place. Rounding can make a weight negative.",
 "every precision, length, index and parameter", "a test compares some lengths with a guessed tolerance, and does not see every point at which the series stops", ["window.hh: Kaiser, Hann, Hamming, Lanczos, Blackman, Gauss"], "the loop stops when the compensated sum no longer changes, so the last term is below three squared units; a mean index bounds the errors of all terms; monotonicity of rounding keeps the radicand in [0, 1]; Lipschitz bound of the Bessel function in the square of its argument")

prop("C84", "Relative errors of the sine and cosine of the unit circle",
 "With p bits (10 <= p <= 53), for all 1 <= N <= 268435455 and -N <= n <= N, UnitCircle::cos(n, N) and UnitCircle::sin(n, N) have a relative error of at most 13/2^p, however close to zero the values are; zeros are exact, and no result has the wrong sign.",
 "every precision and every pair of arguments", "the values near zero are rarely looked at with a relative tolerance", ["unit_circle.hh: cos, sin"], "the reduction to an eighth of a turn is exact in integers; relative versions of the bounds of C68 for the polynomial of the sine")

prop("C85", "Symmetries of the unit circle in floating point",
 "In floating point of any precision, for 1 <= N <= 268435455: UnitCircle::sin(-n, N) == -sin(n, N) and cos(-n, N) == cos(n, N) bit for bit, unless 8n is an odd multiple of N; sin(n-N, N) == sin(n, N) and cos(n-N, N) == cos(n, N) for 0 <= n <= N; cos(n, 4m) == sin(n+m, 4m) for -4m <= n <= 3m. At odd eighths of a turn the first claim is false: sin(-1, 8) != -sin(1, 8) in float and in double, by one unit in the last place.",
 "every precision, every set of constants, every pair of arguments", "exact equality of two results for all arguments", ["unit_circle.hh: cos, sin"], "the nine pieces of both functions are matched with each other; changes of sign and doublings are exact; the witnesses are evaluated by the kernel")

prop("C86", "Rounding errors and symmetry of the filter designs",
 "With p bits (10 <= p <= 53): the coefficients of LowPass2 have a relative error of at most 31/2^p, those of HilbertTransform of at most 9/2^p; those of HighPass2 are off by at most 35/2^p divided by the distance from the centre in half taps. With a sine of the library that is wrong by less than one unit in the last place, the coefficients of LowPass are off by at most 15/2^p times the largest one, those of BandPass by 16/2^p times the sum of both largest ones, those of HighPass by (15+16f)/2^p. Beside the centre of an odd number of taps LowPass2 and HighPass2 add up to exactly zero. LowPass2 and HighPass2 are exactly symmetric unless the angle at the tap is an odd multiple of an eighth of a turn, HilbertTransform is exactly antisymmetric; a half band filter of even length is not symmetric.",
 "every precision, length, tap and cutoff frequency for which the integers do not overflow", "relative errors near the zeros of the response, all lengths and cutoffs", ["filter.hh: LowPass, LowPass2, HighPass, HighPass2, BandPass, HilbertTransform", "utils.hh: sinc"], "errors counted in roundings (relative), with C84 for the sine; the ideal responses are the integrals of C64; symmetry from C85")

prop("C87", "The Hilbert transformer and the down-converter in floating point",
 "With p bits (16 <= p <= 53), 4m+1 taps, a Kaiser parameter a with |a| <= 3 and A >= 60+85a^2: the real part of the output of Hilbert is exactly the input 2m+1 samples ago, and that of CDC is exactly half of the mixed signal m calls ago. The imaginary part of Hilbert differs from the exact answer of the ideal transformer shortened by the exact Kaiser window by at most 1.1(A+m+10)/2^p, that of CDC from the exact answer of the shortened ideal half band filter by at most 1.1(A+m+33)/2^p, times the sum of the absolute values of all products of taps and samples. If the samples in the delay line are the same on both sides of its centre (as for a constant input), the imaginary part of Hilbert is exactly zero.",
 "every precision, number of taps, Kaiser parameter up to three, initial contents of the arrays, and input", "all precisions, lengths and signals; a test compares few outputs with few references", ["hilbert.hh: Hilbert", "cdc.hh: CDC"], "the coefficients have relative errors (C83, C86), the sum adds one rounding per term; the middle weight is exactly one by C83; the line is a shift register with known contents as in C54 and C55")

prop("C88", "Tables of coefficients in floating point",
 "With p >= 10 bits: let N weights have the sum W, and let the sum of their absolute values be at most kappa times |W|, with 10 N kappa <= 2^p. Coeffs then multiplies every weight by the same positive factor k up to one rounding each; k times d|W| is within (1.3 N kappa + 1.1)/2^p of one, and the new sum within (2N+2) kappa/2^p/d of 1/d with the sign of W. Weights that are equal or opposite before are exactly so afterwards. The table holds the values of the function, or the rounded products of both functions. Without the condition the division can fail: the weights 1, 2^-60, -1 have the sum 2^-60, but the program divides by zero.",
 "every precision, number of weights, weights, divisor and functions", "all tables and lengths; a test normalises a few tables and cannot bound the worst case", ["coeffs.hh: Coeffs, normalize"], "the left to right sum has a relative error of N-1 units with respect to the sum of absolute values; division and multiplication add one each; symmetry of rounding; the counterexample by evaluating the model")

prop("C89", "Integrator and differentiator in floating point",
 "Integrator: after n+1 inputs the output differs from the exact sum by at most 1.1(n+1)/2^p times the sum of absolute values (start included); it is exact as long as all values are multiples of one power of two and the sums fit in p bits; but a sum that has reached 2^p never moves again however many ones are added. Differentiator: the output is the difference of the last two inputs with one rounding, it is exact if both are positive and within a factor of two of each other, and it is zero only if they are equal.",
 "every precision, start and input sequence", "all signals and lengths; loss of small increments needs 2^p samples to show", ["calculus.hh: Integrator, Differentiator"], "induction on the inputs; representability of sums and of close differences; rounding of 2^p+1 to even")

prop("C90", "Splines in floating point",
 "With p >= 10 bits and data of at most B: the natural spline (two or more knots, at most 2^p) and the Hermite splines (three or more) are evaluated without a fault. The position has two roundings, and none for the default origin and distance. At the position so found the natural spline is within 340 B/2^p of the exact natural spline through the data however many knots there are (when extrapolating, times the third power of one plus the distance to the data), the Hermite spline for equal distances within 27 B/2^p, that for arbitrary increasing knots within 18/2^p (B + w L/4), w being the length of the segment and L a bound of the slopes of the chords, with a position that stays in the segment and is off by at most 4.4/2^p of the distance to its start. Both Hermite splines hit every datum exactly; the natural spline hits all but the last exactly, and the last not always: in float the one through 1 and 2^-30 is zero at the second knot.",
 "every precision, number of knots, data, stride, origin, distance, and argument", "all data, all numbers of knots; the error of a recursion could grow with its length and only a proof shows that it does not", ["spline.hh: UniformNaturalCubicSpline, CubicHermiteSpline"], "the elimination contracts errors by a factor below 0.27, so the errors of U, Z and C stay below fixed multiples of a unit by induction; Horner's scheme adds to them; Hermite weights have relative errors and add up to one; at the ends of a segment they are exactly zero and one")

prop("C91", "The natural spline is the smoothest interpolant",
 "Among all twice continuously differentiable functions through the data, the function that UniformNaturalCubicSpline evaluates has the least integral of the squared second derivative from the first to the last knot, and every function that differs from it anywhere between those knots has a strictly greater one. In particular there is only one natural spline through given data, extrapolation included, and it is what the code computes.",
 "every number of knots from two on, data, stride, origin, distance, and every competing function", "the competitors are an infinite-dimensional family", ["spline.hh: UniformNaturalCubicSpline"], "integrating by parts on each segment shows that the second derivative of the spline is orthogonal to that of every function that is zero at the knots; the rest is Pythagoras; that the code computes the natural spline is C58")

prop("C92", "AM demodulator and normaliser in floating point",
 "In floating point with at least ten bits: AMD with attack and decay of at least α, positive lower limit and a non-zero modulation index never fails, its level stays within 5.1·B/α units of rounding of the exact one for ever and every output within 27(B/lo)²(1+|idx|)/(α|idx|) units, B bounding the amplitudes; the level never leaves its limits at all, and as a peak detector (attack one, decay zero) it is exactly the limited running maximum. NormalizeSine with samples(s), s ≥ 2, never divides by zero, no output exceeds √(s/2) by more than five units of rounding, and every output is the quotient of what its two filters give up to 2.1 units.",
 "every precision from ten bits on, settings, and every finite sequence of inputs", "errors could accumulate over unboundedly long inputs, and the worst sequences are not known", ["amd.hh: AMD", "normalize.hh: NormalizeSine"], "the level recursion contracts by 1-α also through the rounding and through the limits, which are monotone and exact; the mean square of the normaliser is at least the rounded share of the last square because rounding is monotone, and it stays positive")

prop("C93", "FM demodulators in floating point",
 "In floating point of 10 to 53 bits and for every sequence of non-zero samples: given an arc tangent with error at most ε, FMD1 outputs the phase increment from the previous sample over π times the bandwidth up to (2.02ε + 42u)/(π|bw|), and FMD2 and FMD3 up to (1.01ε + 22u)/(π|bw|), where u is the unit of rounding; the increment is the principal one, except within 2ε + 46u (FMD1) or 5u (FMD2, FMD3) of half a turn, where its sign may be the other one. FMD4 outputs the sine of the increment weighted with |previous|/|sample| up to 15u of that weight, FMD5 the mean of the two weighted sines up to 7.5u·|sample − the one before the previous|/|previous|. Errors do not accumulate.",
 "every precision from 10 to 53 bits, bandwidth, arc tangent of given accuracy and sequence of samples", "the errors depend on all bits of two complex numbers, and near half a turn the results jump", ["fmd.hh: FMD1", "fmd.hh: FMD2", "fmd.hh: FMD3", "fmd.hh: FMD4", "fmd.hh: FMD5"], "a relative error of a complex number turns it by at most that much (arc tangent of the quotient); two angles of the same turn whose sizes sum to less than a whole turn are equal; the roundings of the product, the quotient (both parts divided by the same rounded norm), the constants and the scale are counted; the atan2 of atan2.hh meets the hypothesis with ε = 21u by C79")

prop("C94", "Linear regression in floating point",
 "In floating point of at least 10 bits, u the unit of rounding: on a uniform grid of l samples bounded by Y, 20(l + 2)u ≤ 1, the slope is within 68u·Y/|dx| of the least squares slope, whatever l is, and the value of the line at x is within (3l + 100(|x0| + |dx|(l - 1)/2 + |x|)/|dx|)u·Y of the exact line. For arbitrary places bounded by X the condition is κ = l·X²/Σ(x - mean)²: if 70(3l + 5)κu ≤ 1, the slope is within 16(l + 2)κu·(Y/X + |slope|) of the least squares slope.",
 "every precision, number of samples, grid or places, and samples", "the errors of nested sums depend on all inputs and on the geometry of the places", ["regression.hh: SimpleLinearRegression"], "the offsets from the middle of the grid are exact; every sum is counted in units of rounding of its absolute sum; Σ|i - mid| ≤ (4.04/l)Σ(i - mid)² makes the bound of the slope independent of the length; the exact line is the model over the reals, which C29 proves to be the least squares line")

prop("C95", "Recursive filters never recover from a value that is not finite",
 "In IEEE arithmetic with infinities and NaN: after one input that is infinite or NaN, or after one output that is (an overflow), all later outputs of the exponential moving averages, their cascades, the DC blocker, the second order filters, their cascades, the integrator and the compensated sum are infinite or NaN, whatever the coefficients and the later inputs are. The same holds for the moving averages SMA2 and SMA3 and their inputs, although the input left their window long ago.",
 "every format, state, coefficients, real or complex samples, and endless input", "a test feeds finite samples and stops; that no later input helps concerns all futures", ["ema.hh: EMA, EMACascade", "blockdc.hh: BlockDC", "biquad.hh: Biquad, BiquadCascade", "calculus.hh: Integrator", "kahan.hh: Kahan", "sma.hh: SMA2, SMA3"], "the IEEE operations are modelled with all special values; sums, differences and products with a value that is not finite are not finite, so the feedback keeps it; the two averages only ever add to and subtract from their sum")

prop("C96", "Filters with a window recover from any input",
 "In whatever arithmetic, also with infinities and NaN: the output of the moving averages SMA1 and SMA4 depends on the last NUM inputs only, of the Hilbert transformer with TAPS taps on the last TAPS inputs, of the digital down converter on the last (TAPS - 1)/2 pairs, of the differentiator on the last two inputs (and on how many inputs there were). Two inputs that agree there get exactly the same output, bit by bit, whatever came before. For SMA4 the addition has to be commutative with 0 + 0 = 0, which IEEE arithmetic is.",
 "every type of numbers with total operations, size, coefficients, and pair of endless inputs", "two histories have to be compared for all pasts, in an arithmetic that is neither associative nor free of special values", ["sma.hh: SMA1, SMA4", "hilbert.hh: Hilbert", "cdc.hh: CDC", "calculus.hh: Differentiator"], "the state is a function of the window and of the number of inputs; the outputs are written as functions of that state")

prop("C97", "Silence and gradual underflow",
 "In IEEE arithmetic with gradual underflow: behind the end of a signal (inputs that are zeros of either sign) the output of the DC blocker and of the exponential moving average never grows, overflows or changes its sign. If the feedback factor is at most one half it becomes zero after finitely many samples. If the factor is above one half, as it is with samples(s) for every s from 3 to a quarter of 2^p, the output never becomes zero: it ends at a constant number that is less than s times the smallest positive number and stays there for ever.",
 "every format with at least four bits and the range for reciprocals, state, factor between 0 and 1, number of samples", "the statement is about all times; a test stops after finitely many samples and has no cause to look at values of 1e-43", ["blockdc.hh: BlockDC", "ema.hh: EMA"], "rounding with gradual underflow is monotone and takes the nearest multiple of the smallest number; a nonincreasing sequence of such multiples is finally constant; at a fixed point the product is within half of the smallest number of the factor; ties decide the factor one half")

prop("C98", "Averages stay within the range of their inputs",
 "In IEEE arithmetic with gradual underflow and overflow: if the samples (and the start value) have magnitudes of at most 2^k, the outputs of the exponential moving average, of its cascade, of the moving average that sums its window anew and of the one with the tree of sums are finite and have magnitudes of at most 2^k, no rounding and no length of the signal leads outside. The moving averages need the window times 2^k to be below the overflow threshold; without that they return infinity for two equal samples.",
 "every format with at least four bits and the range for reciprocals, k (not negative for the exponential averages), factor between 0 and 1, order of the cascade, window below 2^p, signal", "a test sees finitely many values; that roundings at the limit never add up to a step across it is a statement about all of them", ["ema.hh: EMA, EMACascade", "sma.hh: SMA1, SMA4"], "the rounded factors add up to at most 1 + 2^-p, half a unit in the last place above one, and that excess is lost when the sum of the products is rounded; the sums of m samples are at most m 2^k, which is representable, hence so are the rounded ones; division by the exact NUM")

prop("C99", "Finite results are those of unbounded arithmetic",
 "In IEEE arithmetic with overflow and gradual underflow, every finite output of the integrator, the differentiator, the compensated sum and the sums of the four moving averages is exactly the one that the same code gives in arithmetic of the same precision without limits of the exponent; so the bounds of rounding errors hold for them: a finite compensated sum has the error bound of C15, a finite output of the moving average with a tree the one of C71 plus half of the smallest number. The exponential average, the DC blocker and the second order filter agree as long as their products are zero or not below the normal numbers.",
 "every format, states, inputs, windows; usual formats for the ones with constants", "the error bounds are about an idealised arithmetic; only a proof transfers them to all finite results of the real one", ["calculus.hh: Integrator, Differentiator", "kahan.hh: Kahan, kahan_sum", "sma.hh: SMA1, SMA2, SMA3, SMA4", "ema.hh: EMA", "blockdc.hh: BlockDC", "biquad.hh: Biquad"], "sums of multiples of the smallest number never underflow, products and quotients that are normal neither; a result is only finite if both operands are; both machines are run side by side with the relation 'equal or not finite'")

prop("C100", "One call can ruin an adaptive filter",
 "In IEEE arithmetic, for the real and the complex adaptive filter of every size: an input that is infinite or NaN spoils its own output, a coefficient and all later outputs; so does every coefficient that is not finite; and an output that is not finite spoils the coefficients unless the power of the stored inputs is zero. The test for zero power does not prevent this: in single precision a call of a new filter with the input 2^-70, desired output one and mu one returns the right error, but leaves coefficients that are infinite or NaN, and all outputs of all later calls are not finite.",
 "every size, format (single for the witness), earlier and later calls", "all later calls, after any history; the witness is for every size and every continuation", ["lms.hh: NLMS::operator()", "lms.hh: NCLMS::operator()"], "the filters with their buffers are shown to be machines on lists of stored inputs and coefficients; every operation hands on non-finite operands; the witness is computed by the kernel for the first call")

prop("C101", "Rounding in the adaptive filter",
 "In rounded arithmetic, after every history, a call of the real adaptive filter with n taps returns an error whose distance from the exact one (for the taps it has) is at most (1+u)^(n+2)-1 times the sum of the sizes of desired output and products. With mu = 1 the new taps reproduce the desired output up to (1+u)^(2n+9)-1 times the same sum, unless all stored inputs are zero, in which case they stay. With 0 <= mu <= 2 their distance to any taps H that reproduce the desired output grows by at most 3((1+u)^(2n+8)-1) times the lengths of both sets of taps; so if all desired outputs are made by H, after k calls the distance is below (3(1+3((1+u)^(2n+8)-1))^k-2) times the length of H, however long the filter runs.",
 "every arithmetic with unit roundoff u and 8(n+1)^2 u <= 1, size, calls, taps H", "all histories and all roundings; the bound over time is for any number of calls", ["lms.hh: NLMS::operator()"], "the loops are folds; relative error counting for the sums, the quotient and the update; the exact theory of C56 gives the rest with the triangle inequality; induction over the calls")

prop("C102", "Stability of natural splines",
 "With exact arithmetic: between its knots a natural spline never exceeds 5/2 of the largest datum in size, and at a distance of T-1 knots outside of them 8 T^3 times it. If no datum changes by more than D, the values change by at most 5/2 D between the knots and 8 T^3 D outside. If neighbouring data differ by at most d, values at two positions differ by at most 5 d times their distance in knots, (6 T^2 - 1) d times outside. But it may leave the range of the data: through 0, 1, 1, 0 it is 23/20 in the middle.",
 "every number of knots, data, stride, offset and step of the abscissae, position", "all data and all numbers of knots; bounds that do not grow with the number of knots cannot be found by trying", ["spline.hh: UniformNaturalCubicSpline"], "the largest coefficient satisfies an equation of the tridiagonal system, which bounds it by the second differences; each piece is written with the coefficients at both ends; the mean value theorem; linearity of the recursions")

prop("C103", "The streaming resampler in floating point",
 "In floating point with p bits, 16 <= p <= 53, and unbounded exponent, with at least 2 points per tap, at most 2^p/64 coefficients, a cutoff of at most half the rate, |alpha| <= 3 and a library sine with an error of at most two units: no call of Resampler2 faults if the difference is at most half of the rate and the output array has room for two samples. Each call gives as many outputs and at the same offsets as the positions of C81. Each output is the sum of the last TAPS inputs, weighted by the natural spline through the windowed low-pass filter at the offset, with an error of at most 1030 + 990 alpha^2 + 90 TAPS units of rounding times 2 cutoff/rate times the sum of the absolute values of these inputs, where the oldest one counts (OVER/2 + 1.1)^3 times. Output elements after these are not changed.",
 "every precision in this range, number of taps and points, rate, cutoff, alpha, stream of inputs, sequence of differences, number of calls, previous contents of the arrays", "all streams of any length and all parameters; the bound covers the whole chain from the window over the spline to the sum", ["resampler.hh: Resampler2"], "coefficients by C83 and C86; the spline by C90 and C102: the rounded one is near the natural spline through the prototype also at a rounded offset; the sum of products with one rounding each; the positions are those of the clock model; the buffer is a shift register; induction on the calls")

prop("C104", "The block resampler in floating point",
 "In floating point with p bits for TYPE, 16 <= p <= 53, and q >= max(p, 31) bits for double, and under the assumptions on the filter of C103: a call of Resampler reads and writes inside of the arrays and sets only the elements (i + (TAPS-1)/2) * stride. Such an element becomes the sum of the TAPS inputs from the one nearest to the position x, weighted by the natural spline through the windowed low-pass filter, where x is i * rate/(rate + diff) up to 3.1 units of rounding; the error is at most 1030 + 990 alpha^2 + 90 TAPS units of rounding times 2 cutoff/rate times the sum of the absolute values of these inputs, where the first one counts (OVER/2 + 1.1)^3 times. It stays as it is if there are not enough inputs.",
 "every pair of precisions in this range, number of taps and points, rate, cutoff, alpha, difference, number of samples, stride, input and previous output", "all blocks and parameters at once", ["resampler.hh: Resampler"], "as C103, with the positions and offsets of C81; each element is written by one round of the loop")

prop("C105", "How well the splines approximate a function",
 "If the points given to a spline are values of a function, the spline is near to it between the first and the last point. With the second derivative at most M: UniformNaturalCubicSpline differs by at most M dx^2 / 2, CubicHermiteSpline::eval(X, Y, x, n) by at most M H^2 / 4, where H is the largest distance of abscissas. With the fourth derivative at most M, UniformNaturalCubicSpline differs in interval k by at most 7/64 M dx^4 + (|f''(first)| 0.27^k + |f''(last)| 0.27^(KNOTS-2-k)) dx^2 / 8: of fourth order away from ends where f'' does not vanish. At such ends it is only of second order: through the squares at three knots it is off by dx^2 / 16 whatever dx.",
 "every number of points, position and distance of them (any increasing abscissas for the Hermite spline), function with the derivatives named and argument between the first and the last point", "a statement about all smooth functions and the limit of small distances", ["spline.hh: UniformNaturalCubicSpline", "spline.hh: CubicHermiteSpline::eval(X, Y, x, n)"], "second differences and the tridiagonal system's diagonal dominance bound the second derivatives of the natural spline; those of the Hermite spline come from the chords' slopes; the mean value theorem compares function and chord")

prop("C106", "The resamplers' filter is the windowed ideal low-pass filter",
 "For OVER >= 2 and |alpha| <= 3: between its first and its last point the filter of Resampler and Resampler2 differs from the ideal low-pass filter with this cutoff, weighted by the Kaiser window with Bessel functions, taken at the very offset and not at the nearest point, by at most 2|g| ((2 pi g)^2/3 + 2 pi |g| (pi alpha)^2/L + (2 (pi alpha)^2 + (pi alpha)^4/2)/L^2)/(2 OVER^2) + 2|g| 10^-32, where g = cutoff/rate and L = TAPS - 1/OVER. An output of Resampler2 therefore differs from what that filter makes of the last TAPS inputs around the output's position by at most this bound times the sum of their absolute values, unless the position is behind the nearest input and the oldest input used is not zero; and so does an element set by Resampler. That exception is needed: with five taps, cutoff = rate/4 and alpha = 0 the weight of the oldest input at the offset -d, 0 <= d <= 1/2, is below 1/4 - 0.03 OVER d^3 from OVER = 256 on, and with OVER = 1024 a single input of one gives an output below -3/2.",
 "every number of taps and points, rate, cutoff, alpha up to three, stream of inputs, sequence of differences, number of calls, offset", "an error bound for all offsets and parameters, of second order in 1/OVER; a test tries some offsets and tunes a tolerance", ["resampler.hh: Resampler", "resampler.hh: Resampler2"], "C105 for the natural spline; the second derivative of the windowed filter is bounded by those of its factors: the ideal filter is an integral of cosines, the window of the code is a polynomial in the square of the offset whose coefficients are positive; the polynomial is within 10^-32 of the Bessel function by C63; the positions and sums are those of C60 and C61")

prop("C107", "What the Hilbert transformer and the down-converter make of a sinusoid",
 "Once its TAPS = 4m+1 samples are filled with a sinusoid of any amplitude, frequency w and phase, Hilbert answers with the sinusoid itself as real part, 2m+1 samples late, and with the one that lags it by exactly a quarter of a period as imaginary part, with a gain A(w) that depends on the frequency only. CDC answers with half of the same, with alternating sign. For 0 < w < pi the gain is positive, so no frequency turns in the wrong direction, at most two, and differs from one by at most 4/pi (1 + 3 (pi a/2)^2)/(m sin w); A(pi - w) = A(w) and A(0) = 0.",
 "every number of taps, window parameter, amplitude, frequency, phase, number of calls", "phase and sign at every frequency and a bound on the gain for every number of taps; a test measures some frequencies of one size", ["hilbert.hh: Hilbert", "cdc.hh: CDC"], "the filters of C54 and C55 with the differences of cosines; the gain is a windowed Fourier series of the square wave. Positive by summation by parts, as the sums of sines of odd multiples are squares over the sine and the window falls; near to one by summation by parts with the partial sums of the series, which are compared with that of Leibniz by their derivative, and a bound on the slope of the window")

prop("C108", "Convolutions, shifts and tones with the Fourier transform",
 "The backward transform of the product, bin by bin, of two forward transforms is the circular convolution of the two inputs times BINS; if the inputs are padded with zeros and have at most BINS+1 values together, it is BINS times the product of the two polynomials, as if one list was filtered by the other. A circular shift of the input by j multiplies bin k by the j*k-th power of the root of unity. A tone of amplitude c at the frequency of bin j gives BINS*c in bin j and exactly zero in every other.",
 "every number of bins without prime factors above 31, both directions, every input, every shift and bin", "these are the uses the transform is made for, for every composite size at once; a test tries some sizes and inputs", ["fft.hh: FastFourierTransform"], "from C31 and C32: reindexing of the sums modulo BINS; the tone is the transform of an impulse. In exact arithmetic; C67 bounds what rounding does")

prop("C109", "Infinities, NaN and silence in the AM demodulator, the normaliser and the trigger",
 "In IEEE arithmetic: AMD1 with limits 0 < low <= high, weights and index in [0,1] and a positive attack survives every input without NaN: the level stays within its limits and no output is NaN; a sample whose size is infinite (also by overflow of its square) gives an infinite output, sets the level to the upper limit and is forgotten then. One NaN, or an infinite size while the attack is zero, makes all outputs NaN from there on. NormalizeSine with samples(s), 3 <= s <= 2^(p-2), gives no NaN and exactly zero for silence as long as its DC blocker is finite; with a weight of one half or more, as before samples() is called, silence ends in NaN; a sample that is not finite leaves no later output finite; a sample whose square overflows mutes it for ever. NaN never switches a SchmittTrigger.",
 "every format like float and double, every input, every state within the limits, every number of calls", "states after any history of special values and what they lead to for ever; a test checks some values for some time", ["amd.hh: AMD1", "normalize.hh: NormalizeSine", "trigger.hh: SchmittTrigger"], "model of the operators with IEEE values, the square root and std::min/std::max; invariants: the level is a number between the limits, the mean square is positive or infinite (rounding the product with a factor above one half does not reach zero)")

prop("C110", "What the moving averages, the DC blocker and calculus make of a sinusoid",
 "Once the window is full all four moving averages answer a sinusoid with the same one, late by (NUM-1)/2 samples, times sin(NUM w/2)/(NUM sin(w/2)): at most one, one for a constant, and exactly zero for the frequencies k/NUM that are no multiples of the rate. BlockDC with samples(s) answers e^(iwn) with H(w) e^(iwn) and a transient that decays like ((s-1)/s)^n, where |H|^2 = t^2/(1+t^2) with t = (2s-1) tan(w/2), which grows from zero to one and is one half where tan(w/2) = 1/(2s-1). The differentiator has the gain 2 sin(w/2) and leads by a quarter of a period less half a sample, the integrator has the inverse gain, lags as much and keeps a constant due to the phase at the start.",
 "every window length, amplitude, frequency, phase, number of calls, s >= 1", "exact nulls, delay and gain at every frequency and length; a test measures a few", ["sma.hh: SMA1, SMA2, SMA3, SMA4", "blockdc.hh: BlockDC", "calculus.hh: Differentiator, Integrator"], "C09 with telescoping sums of cosines and symmetry of the window; the deviation of the DC blocker from its response obeys the homogeneous recursion; power by half-angle identities")

prop("C111", "Complex numbers in floating point",
 "With rounding errors of at most u per operation: conjugates and negatives are exact; sums, differences, multiples and quotients by a real number have an error of at most u times the result's modulus; products at most (1+u)^3-1, quotients (1+u)^7-1, a real number divided by a complex one (1+u)^5-1, norm (1+u)^2-1 and abs (1+u)^3-1. In binary floating point products commute, the product of conjugates is the conjugate of the product, and z conj(z) is real and equal to norm(z). A single component may be lost completely. Because norm is formed first, from the square root of the range on (2^64 in single precision) abs is infinite and every component of a quotient zero or NaN, and below the square root of the smallest number (2^-75) abs is zero and every component of a quotient infinite or NaN.",
 "all operands, all arithmetics with relative error u, all precisions, all IEEE formats", "worst cases of rounding and the exact limits of the range; a test with ordinary numbers sees neither", ["complex.hh: Complex, operators, conj, norm, abs"], "Two rounded products and their sum; errors of the components combined with Cauchy's inequality; the reciprocal of the norm has a relative error; witness for cancellation by evaluation; squares that overflow or underflow in IEEE arithmetic")

prop("C112", "Rounding in the complex adaptive filter",
 "In arithmetic with a relative error u per operation, after every history of calls of NCLMS: the error returned differs from desired - sum filter[i]*window[i] by at most ((1+u)^(SIZE+4)-1)(|desired| + sum |filter[i]||window[i]|); with mu = 1 the new taps reproduce the desired output up to ((1+u)^(2 SIZE+14)-1) times the same; with 0 <= mu <= 2 their distance from any taps that reproduce it grows by at most 3((1+u)^(2 SIZE+13)-1) times the lengths of both; with a window of zeros the taps stay. If all desired outputs are made by taps H, after n calls the distance from H is at most (3(1+c)^n - 2)|H| with c = 3((1+u)^(2 SIZE+13)-1).",
 "every SIZE with 8(SIZE+2)^2 u <= 1 (1446 taps in single precision), history, input, desired output, mu", "bounds the accumulated rounding for every history; a test observes one sequence in one precision", ["lms.hh: NCLMS", "complex.hh: operators, conj, norm"], "C111 for each operation, norms of complex vectors, the exact step of C57 and the triangle inequality")

prop("C113", "NaN in sorting, selecting and the robust estimators",
 "With IEEE values: quick_sort and quick_select order arrays of numbers (signed zeros, infinities) of any length as they should. With NaN and up to 32 elements every NaN stays where it is and the runs between them are sorted separately, so quick_select returns an order statistic of a run or NaN. From 33 elements on, a NaN in the middle leaves everything in place but the elements at index (n-1)/4, (n-1)/2+(n-1)/4 and n-1. For seven points on a line one NaN sample makes the repeated median or Theil-Sen slope NaN, and one NaN with one outlier makes the repeated median slope 1000 instead of 1.",
 "all arrays and all cells behind the range, all k; witnesses for the estimators", "the answer depends on the place of the NaN, which tests with one place do not show; all lengths and places are covered", ["quick.hh: quick_sort, quick_select, insertion, partition, median", "repeated_median.hh: compute", "theil_sen.hh: compute"], "Sorting commutes with every function on the elements and does not depend on cells behind the range, which transfers C11 and C12 to the values without NaN; insertion sort as a function on lists; the partition with a NaN as pivot; evaluation of the witnesses")

prop("C114", "The fast Fourier transform at the limits of floating point",
 "With IEEE values: one infinite or NaN part among the inputs of FastFourierTransform leaves no bin finite, whatever the size. If six times the sum of the magnitudes of the inputs (each plus the smallest normal number) is within half the range, all bins are finite and off by at most 72 log2(N)/2^p times that sum, so neither overflow nor underflow matters. Close to the limit the radix 8 butterfly overflows where its exact result would not.",
 "all sizes without prime factors above 31 (up to 2^28 for the constants of the code), both directions, all inputs", "a cancellation or a factor of zero could hide a NaN in some bin of some size; the range and the error are for all inputs", ["fft.hh: FastFourierTransform, Dit", "unit_circle.hh: cos, sin", "complex.hh: operators"], "Induction over the factors of the transform (`dit_ind`) with the butterflies of all radices: every output depends on every input through operations that keep infinities and NaN; a relation between machine and exact numbers that carries size, error and a budget for the range")

prop("C115", "Special values, silence and the limits of the range in the frequency demodulators",
 "With IEEE values and an atan2 that gives NaN only for NaN: an output of FMD1 is NaN exactly if its sample or the one before has a NaN part, and otherwise, whatever comes in, it is finite and at most 1.02/|bw|. FMD2 and FMD3 give NaN for NaN, are never infinite and have the same bound; FMD2 gives NaN after a zero sample. FMD4 gives NaN for an infinite, NaN or zero sample and nothing finite after an infinite or NaN one; FMD5 gives NaN one sample after these and nothing finite at and two samples after an infinite or NaN one. For samples whose parts are within the square root of the range (and, except for FMD3, not too small) all outputs are finite. After a disturbance the outputs are exactly those without it from the second good sample on (FMD5: the third). A signal below the square root of the smallest number gives NaN from FMD2, FMD4 and FMD5 and no frequency from FMD3; a quarter turn tone above the square root of the range gives NaN from all but FMD1.",
 "all precisions from 10 to 53 bits, bandwidths inside of the range, arc tangents with the special cases of the C standard, all sequences of samples with all special values", "special values can hide behind each other (infinity over infinity, zero times infinity), and which sizes overflow or underflow depends on products of all parts", ["fmd.hh: FMD1", "fmd.hh: FMD2", "fmd.hh: FMD3", "fmd.hh: FMD4", "fmd.hh: FMD5", "complex.hh: operators"], "Case analysis of the IEEE operations (NaN, infinite, zero), bounds of all intermediate values where the sizes are within the range, and the state of the machines as a function of the last one or two samples")

prop("C116", "What the demodulators and the normaliser make of the signals they are meant for",
 "FMD1, FMD2 and FMD3 give back the modulating signal of a frequency modulated carrier exactly, for every modulating signal that stays within the band and every positive amplitude; FMD4 gives the sine of the turn, weighted with the quotient of the amplitudes, which at constant amplitude is off by at most (pi bw)^2 |m|^3 / 6; FMD5 gives the mean of the last two sines. On a carrier of constant amplitude within the limits the output of the amplitude demodulator goes to one geometrically with the slower of attack and decay; a carrier modulated with no more than the index never gives less than minus one; the scale of the signal does not matter if the limits scale along. The normaliser turns A cos(w n + phi) + c, for every offset c and amplitude A > 0, into a sinusoid of amplitude one but for a ripple r at twice the frequency, r = 1/sqrt(1 + 4 s (s - 1) sin^2 w), with phases that depend on window and frequency only.",
 "all modulating signals, phases, amplitudes, bandwidths, rates, limits, offsets, frequencies that are no multiple of half of the rate, windows from 2 on", "the outputs approach their limits only after endless time, and signals, amplitudes and phases form a continuum", ["fmd.hh: FMD1", "fmd.hh: FMD2", "fmd.hh: FMD3", "fmd.hh: FMD4", "fmd.hh: FMD5", "amd.hh: AMD", "normalize.hh: NormalizeSine"], "Exact model. Frequency: the argument of a quotient of exponentials, with C51; amplitude: the level contracts towards the amplitude, the limits do not push it away; normaliser: the steady state solves the recursions of DC blocker and average, the difference to it contracts, and the quotient is continuous because the average stays away from zero")

prop("C117", "The real transform and zero padding at the limits of floating point",
 "One infinity or NaN among the values leaves no bin of the real to half complex transform finite, and no output of a zero padding call finite, for every size, every constants and whatever came before. Finite values whose sum of magnitudes times twelve is within half the range of the format (each value adding the smallest normal number) never overflow in the real transform; the bins in between are off by at most (144 log2(N) + 116) / 2^p times that sum, the halved first and last one by at most (72 log2(N) + 4) / 2^p times it, and gradual underflow changes nothing beyond that.",
 "all sizes with prime factors up to 31 (range: up to 268435455 values), all formats from 10 to 53 bits incl. single and double, all inputs, all histories of calls", "NaN, infinities and the limits of the range are values that tests with random inputs do not have, and sizes and positions of the bad value cannot be enumerated", ["fft.hh: RealToHalfComplexTransform::operator()", "fdzp.hh: FDZP::operator()"], "IEEE model with infinities, NaN, overflow and gradual underflow. Spread: induction over the factors that a finite bin has finite inputs only, then through the combination of the halves; in the zero padding bin 0 is not touched between the transforms. Range: the relation `Near` of C114 carried through the constants A and B, the conjugate and the outer bins.")

prop("C118", "Transforms and zero padding depend on nothing but their input",
 "In any arithmetic, with infinities and NaN or without: the complex transform, the real to half complex transform and zero padding give bins that are functions of the N inputs alone. They do not depend on what is in the memory they write to, on what follows the inputs or, for zero padding with its buffer, on earlier calls, whatever these were, also for the sizes where the result is not the interpolant; what follows the outputs is left alone.",
 "all types of values with whatever operations, all sizes with prime factors up to 31, all histories of calls, all contents of memory", "stale contents of buffers show only for particular sequences of calls and contents of memory, and a NaN left behind only after an input with one", ["fft.hh: FastFourierTransform::operator()", "fft.hh: RealToHalfComplexTransform::operator()", "fdzp.hh: FDZP::operator()"], "The bins are shown to be those of a recursive function of the inputs by induction over the factors; for the zero padding two runs from different states are followed side by side through the shuffling of the bins, with the positions on which they agree growing until it is all of them.")

prop("C119", "What the code does with machine numbers is what it does in exact arithmetic, but for the rounding",
 "Given real numbers instead of machine numbers, with the functions and constants of mathematics, each of these does what the other properties describe for exact arithmetic, output by output and fault by fault: the windows and filters, the coefficients, the elementary functions, both splines, the transforms and the zero padding for every size, the Hilbert transform, the down converter, the adaptive filters, the demodulators, the normaliser and the oscillator. So the bounds on the rounding errors and the properties of exact arithmetic are about the same programs.",
 "all arguments, sizes, settings, states, contents of memory and sequences of calls", "exact arithmetic cannot be run, and tests only see the results with the rounding", ["filter.hh", "window.hh", "coeffs.hh", "atan2.hh", "exp.hh", "decibel.hh", "spline.hh", "fft.hh", "fdzp.hh", "hilbert.hh", "cdc.hh", "lms.hh", "amd.hh", "fmd.hh", "normalize.hh", "phasor.hh"], "The models for numbers of any type are instantiated with the real numbers. State, memory and outputs are mapped from one model to the other, and every statement of the code commutes with the mapping; loops by induction.")

prop("C120", "Arc tangent over the whole range of floating point, with infinities, NaN and signed zeros",
 "In IEEE formats of 20 to 53 bits with the usual range of exponents: atan of any finite number, subnormal or huge, is finite, within 8.6u+2e-16 of the arc tangent, has its sign, is the number itself below u, is within 8.6u+2e-16 of ±π/2 for an infinity and NaN only for NaN. atan2 of finite numbers that are not both zero is within 19u+2e-16 of the angle (9.2u to the right), however the quotient over- or underflows, and to the right of the axis a small quotient is the angle correctly rounded. The exception is proved with it: if y and x are negative and y/x is at most half the smallest number, the result is +π instead of -π. The remaining cases are decided too: y = ±0 gives ±0 for every x that is not negative (also -0) and ±π otherwise; two infinities give NaN; an infinite y gives ±π/2; x = +∞ gives 0 and x = -∞ gives +π for every finite y that is not zero, whatever its sign; NaN is passed on unless the other argument is a zero, where the result is ±π/2 or ±π; atan(-0) is +0.",
 "all formats with 20 to 53 bits of precision, all arguments (finite, infinite, NaN), all precisions of long double", "the subnormal and overflowing quotients and the special values are a vanishing part of the arguments; tests use moderate ones", ["atan2.hh:17-71"], "One formula over a rounding: it is shown that rounding with and without limited exponents agree at every step of the kernel where it matters, and that the differences (squares that underflow) are absorbed by the additions, so that the bounds of C79 carry over. The quotient is normal, too large (then both models give π/2) or subnormal (then the arc tangent is the quotient and adding it to π has no effect).")

prop("C121", "Powers of ten and of two over the whole range of floating point",
 "In IEEE formats of 20 to 53 bits with the usual range of exponents: ldexp(x, n) with |n| <= 255 and finite x is x 2^n rounded once, also where it overflows or becomes subnormal, if |n| is less than the largest exponent; otherwise it is zero for negative n, infinite for positive n, and NaN for x = 0 and positive n. exp10 of any finite x with |x| <= 76.9 is finite and within (7.4u + 1.001/2^60) of 10^x, relatively, plus half the smallest number where the result is subnormal; or it is infinite because x log2(10) is more than emax-0.51, or zero because it is less than -(emax-0.51). It is infinite from emax-0.49 on and zero below -(emax-0.49), so in float exp10(38.5) is infinite though 10^38.5 is a number of the type, and exp10(-40) is zero though 10^-40 is 65536 times the smallest one. exp10 of an infinity or NaN converts a value to int that has none.",
 "all formats with 20 to 53 bits of precision, all finite arguments within the domain of the function and all special values", "the ends of the range are a small part of the arguments and depend on the rounding of the reduced argument", ["exp.hh:14-50"], "The powers of two built by ldexp are exact or infinite, by the number of binary places. The reduction of the argument and the rational function are shown to be the same as without limits for the exponent (products agree unless tiny, differences always), so that the bound of C78 holds before the scaling, and the scaling is one rounding. The integer is within 0.505 of x log2(10).")

prop("C122", "Levels over the whole range of floating point",
 "In IEEE formats of at least 20 bits with the usual range of exponents: decibel of every positive finite number, subnormal ones included, is finite and equal to what the same operations give without limits for the exponent, so between -400 and 400 dB it is within (9080+8.1|L|)u+1e-17 of the level L. The level of zero of either sign is finite, below -8890 dB (in float between -17390 and -17389). NaN, negative numbers and infinities, the positive one as well, give NaN. idecibel of any finite level with |dB| <= 768 whose ratio is within the range of the type is within ((7.5+0.2305|dB|)u + 2.2/2^60) of 10^(dB/10), relatively, plus half the smallest number.",
 "all formats with 20 to 53 bits of precision and exponents up to 1024, all arguments (finite, infinite, NaN), all precisions of long double", "subnormal numbers, infinities and NaN are not among the usual arguments", ["decibel.hh:13-43"], "Both models are followed step by step: the roots of all positive numbers are normal, sums and differences always agree, products and quotients agree because they are zero or large enough. The quotient is zero or at least u/4 because a number of the type that is not one differs from it by u.")

prop("C123", "Levels and ratios are inverse up to rounding",
 "In IEEE formats of 20 to 53 bits with the usual range of exponents, with L = 10 log10(v): idecibel(decibel(v)) is finite and within ((2115 + 2.2|L|)u + 1e-17)v, plus half the smallest number, of every finite v > 0 with |L| <= 400 whose binary logarithm is half a place inside of the range of the type. decibel(idecibel(d)) is within (9126 + 9.2|d|)u + 1e-16 of every finite level d with |d| <= 399 whose ratio is a normal number half a place inside of the range. In float that is a relative error of 1.3e-4 for ratios and less than a millidecibel for levels.",
 "all formats with 20 to 53 bits of precision and exponents up to 1024, all levels and ratios within the range, all precisions of long double", "the worst case over all numbers of a type is not among a few tested values", ["decibel.hh:13-43", "exp.hh:14-50"], "C122 twice; an error of the level is turned into one of the ratio by the exponential function and back by the logarithm.")

prop("C124", "Normaliser for complex samples in floating point",
 "NormalizeIQ in floating point of at least 10 bits, after samples(s) with s >= 2: no call divides by zero, each component of an output is the quotient of the DC blocked component of the input and of the root of twice its mean square up to 2.1 units of rounding, and the absolute value of an output is at most sqrt(s)(1 + 5u). With infinities and NaN: no component of an output depends on the other component of the input; a component that is infinite or NaN once is never finite again while the other one still is no NaN. Without rounding this is the normaliser of C53.",
 "all precisions from 10 bits on, all finite sequences of complex samples, all s >= 2 (s >= 3 with special values); all IEEE formats and all values for the separation of the components", "that the two halves never meet, over all sequences with special values, is not to be seen from examples", ["normalize.hh:36-50", "normalize.hh:13-34"], "The model is two normalisers of C92. Runs are shown to be pairs of runs, so that C92 and C109 hold for both components.")

prop("C125", "Zero crossing of the regression line in floating point",
 "xint() of a regression over l samples of at most Y on the grid x0 + i dx, in floating point with unit of rounding u: if the exact slope is not zero, S its size, and 520 Y u <= |dx| S, then xint() is within u(4(|x0| + |dx|(l-1)/2) + Y/S (3l + 75 Y/(|dx| S))) of the exact crossing. At any places of at most X, with k = l X^2 / sum (x_j - mean)^2 and r = Y/(X S): if 70(3l+5)k u <= 1 and 70(3l+5)k r u <= 1, it is within (l+2)u(1.2 X + 23 k(1+r) Y/S).",
 "all precisions from 10 bits on, all numbers of samples (up to 2^p/20 on a grid), all samples, places and steps", "bounds for all data; tests see a few data sets", ["regression.hh:31", "regression.hh:48", "regression.hh:52-55"], "Relative errors of the means, the variance and the covariance from C94, put through the three operations of the crossing.")

prop("C126", "Regression with infinities and NaN",
 "In IEEE arithmetic: one sample that is infinite or NaN, or a sum of samples that overflows, makes slope, both intercepts and all values of a regression on a grid of at least two places NaN, whatever the grid is. One place that is infinite or NaN does the same to a regression at any places; one value that is infinite or NaN there makes the crossing NaN and everything else infinite or NaN. So bad data never gives a finite line. In single precision two samples of one give an infinite crossing, two of zero a crossing of NaN, and with steps of 2^-80 the slope is infinite or NaN as the variance underflows.",
 "all IEEE formats with at least four bits, all data with a value that is not finite, all lengths from two on (below 2^p) on a grid, from one on else", "needs all positions of the bad value and all other data", ["regression.hh:17-34", "regression.hh:35-51", "regression.hh:64-67"], "Sums keep infinities and NaN. On a grid the first and the last place lie on different sides of the middle, so that an infinite mean gives infinities of both signs in the covariance. The limits are computed in the model.")

prop("C127", "Polar coordinates in floating point",
 "For complex.hh in floating point with unit of rounding u, with cosine and sine within t, the square root within u (relative) and atan2 within e of the exact functions, and s = 1.5(t + u(1 + t)): polar(a, b) is within s|a| of the number of radius a and angle b; abs(polar(a, b)) is |a| up to a relative error of s + ((1+u)^3 - 1)(1 + s); arg(polar(a, b)) for a > 0 is b up to whole turns and e + 1.1s; polar(abs(z), arg(z)) is z up to a relative error of s(1+u)^3 + (1+u)^3 - 1 + e for every z other than zero.",
 "all rounded arithmetics, all functions of the stated accuracy, all radii and angles, all complex numbers other than zero", "angles near the cut of atan2 and large angles are missed by examples; the claim is about all numbers", ["complex.hh:136-152"], "Errors of the products and functions, and that a number near another one has nearly its direction; angles are compared as directions, so that the cut does no harm.")

prop("C128", "Splines with infinities and NaN and at the limits of the range",
 "In IEEE arithmetic: one datum that is infinite or NaN makes every value of a natural cubic spline infinite or NaN, however far from it. A Hermite spline is local: a value on a piece depends on the data at its two knots and their two neighbours only, and is infinite or NaN if one of these is. Evaluating a spline for data at equal distances at an infinite or NaN position is undefined (a conversion to int); with given places the value is then infinite or NaN. Data at most 2^k with k five below the largest exponent never overflow: natural splines stay within 30 times, Hermite splines within 10 times 2^k between the first and the last knot. With the data 0, 2^127, 0 in single precision the natural spline is NaN everywhere.",
 "all IEEE formats with at least four bits (five for the range), all numbers of knots, all data, strides, origins, steps and arguments", "needs all positions of the bad value, all other data and all arguments", ["spline.hh:18-37", "spline.hh:38-52", "spline.hh:86-104", "spline.hh:117-137"], "The recursions of the code in any arithmetic; in both sweeps a value that is not finite stays so. The divisors are between 3.5 and 4 by monotone rounding. The bounds are multiples of 2^k, which are numbers of the format.")

prop("C129", "Mean square of the rounding errors of the Fourier transform",
 "In floating point with relative errors up to u and constants accurate to t units, the root of the sum of the squares of the errors of all bins of a transform is at most (1+u)^E - 1 times the same of the exact bins, where E adds 4t+20 for each prime factor 2 and (floor(sqrt(p))+1)(p+4t+10) for each odd prime factor p of the size. So the computed transform keeps the energy of its input times BINS to that relative error, and transforming forth and back returns BINS times the input to twice that many roundings in this measure. With the constants of the code, in binary floating point of 12 (13) to 53 bits, the relative errors are at most 188 log2(BINS) / 2^p and 376 log2(BINS) / 2^p.",
 "all sizes without prime factors above 31, both signs, all inputs, all precisions", "C67 compares each error with the sum of the magnitudes of the input, which is up to sqrt(BINS) times more than its energy; a test measures this ratio for some inputs only", ["fft.hh", "complex.hh"], "Induction over the splits of the size as in C67, but with the squares of the errors summed over the bins of a butterfly (Parseval for the small transforms, Cauchy-Schwarz for their rounding errors).")

prop("C130", "Convolution by the Fourier transform in floating point",
 "In floating point, the backward transform of the product, bin by bin, of two forward transforms is BINS times the circular convolution of the two inputs, up to errors whose root of the sum of squares is at most (1+u)^E - 1 times BINS, the sum of the magnitudes of the one input and the root of the sum of squares of the other; E is the exponent of C67 plus twice that of C129 plus 3. For lists padded with zeros that have at most BINS+1 values together the same holds for the product of polynomials. With the constants of the code, in binary floating point of 13 to 53 bits, every sample is off by at most (440 log2(BINS) + 6) / 2^p times these.",
 "every number of bins without prime factors above 31, both directions, all inputs, all precisions", "a test tries some sizes and inputs, with tolerances that are guessed", ["fft.hh: FastFourierTransform", "complex.hh"], "The error of a product of two bins is split in three, with the bound of C67 for the one factor and of C129 for the other; the backward transform by C129; the exact identity is that of C108.")

prop("C131", "Accuracy of the frequency demodulators in IEEE arithmetic",
 "In IEEE arithmetic, with its limited exponents, underflow and overflow, FMD1 to FMD5 return finite numbers with the errors of C93 (and one more unit of rounding for the first three). For FMD1 the samples may have any finite size; for the others it is enough that the parts of the samples are multiples of 2^g up to 2^h, as those of audio files are, with a range of exponents that the format has room for (in single precision and for 16 bit audio, g = -15 and h = 0, bandwidths from 2^-84 to 2^84 are fine). The samples are not zero, and for FMD1 to FMD3 the angle taken is not that of a negative number with imaginary part -0.",
 "all IEEE formats of 10 to 53 bits with the usual exponents, all bandwidths, all sequences of samples with such parts, all places in the sequence, all sufficiently accurate atan2", "the outputs of C93 are those of arithmetic without limits of the exponent and C115 only says whether the outputs are finite; a test compares some signals", ["fmd.hh:18-157", "complex.hh", "const.hh"], "Products, sums and quotients of such numbers are zero or normal, so each step gives the same number as arithmetic without limits of the exponent, for which C93 holds; only the last product may underflow, which is less than a unit of rounding of the result's scale.")

prop("C132", "Accuracy of the amplitude demodulator and the normaliser in IEEE arithmetic",
 "In IEEE arithmetic, with its limited exponents, underflow and overflow, the amplitude demodulator with its gain control returns finite numbers, and its level and outputs are within the bounds of C92 of those of the exact demodulator, after any number of samples. It is enough that the weights, limits, index and the steps and sizes of the samples are within 2^-A and 2^A with 3A + 2p <= 2 - emin and 4A + 3 <= emax, which is A = 31 in single precision. Samples may be zero. The normaliser returns the sample behind its DC blocker over the root of twice its mean square, up to 2.1 units of rounding and one smallest number, whenever these are finite and the mean square is positive.",
 "all IEEE formats of at least 20 bits with the usual exponents, all such settings, all sequences of such samples", "the outputs of C92 are those of arithmetic without limits of the exponent and C109 only says which outputs are finite; a test compares some signals", ["amd.hh:32-39", "normalize.hh:28-33", "complex.hh:129-140", "utils.hh"], "Every intermediate number is zero or within powers of two for which no product and no quotient underflows or overflows; sums never underflow. So each call gives the same numbers as arithmetic without limits of the exponent, and C92 applies.")

prop("C133", "The oscillator in IEEE arithmetic",
 "In IEEE arithmetic, with its limited exponents, underflow and overflow, the k-th output of an oscillator started at one is finite, of a size within 4 / 2^p of one, and within (9k + 4) / 2^p of the k-th power of the direction of its frequency, for every k and every frequency phasor of a size from 1/2 to 2. A frequency phasor with a NaN makes every later output NaN, whatever frequency is set afterwards, until reset() is called.",
 "all IEEE formats of at least 20 bits with the usual exponents, all such phasors, all k; all sequences of further calls", "the drift grows slowly and a test stops after some outputs; the poisoned state shows only if a bad frequency is ever set", ["phasor.hh:23-47", "complex.hh:60-140"], "Each call multiplies and divides by the absolute value. The errors of the product, the square root and the quotients are bounded with the underflow included, as the numbers are of sizes near one; the direction then moves by at most 9 units per call and the size is restored every time. For NaN both parts of the product are NaN, and stay so under all operations but the reset.")

prop("C134", "Cosine and sine on the unit circle in IEEE arithmetic",
 "In IEEE arithmetic, with its limited exponents, underflow and overflow, cos(n, N) and sin(n, N) are finite, within 9 / 2^p of the true cosine and sine of n/N of a turn and within 13 / 2^p times the true value. They are the numbers that C114 and C117 use as factors, and the transform with all factors made this way has the bound of C114. An oscillator set with omega(n, N) gives after k calls a finite number within (35k + 4) / 2^p of the phasor of kn/N turns.",
 "all IEEE formats of 20 to 53 bits with exponents at least those of single precision, all N up to 268435455, all n from -N to N, all k", "a test compares some angles; small angles have small squares and terms, and only a proof excludes that one of the 2^56 angles underflows", ["unit_circle.hh:19-80", "phasor.hh:23-47", "const.hh:36-40"], "Reduction to one octant is the same in both arithmetics. The reduced argument is zero or at least 2^-29, its square zero or at least 2^-58, and the partial sums of the polynomials stay between one half and three halves of their leading constants as consecutive constants differ by a factor of at least six; so no product underflows or overflows, and every operation gives the same number as without limits of the exponent. C68 and C84 give the errors, C133 the oscillator.")

prop("C135", "PCM samples in IEEE arithmetic, with infinities and NaN",
 "In IEEE arithmetic, with its limited exponents, underflow and overflow, a finite sample between the most negative code and full scale that WriteWAV writes with 8 or 16 bits is read back finite and within half a step and 6 / 2^p of what was written, alone and through a file. Samples beyond that range saturate, and so do infinities and samples so large that scaling them overflows: full scale is read as one exactly. Every code that is read and written again is unchanged. If one of the samples of a call of write is NaN, the call converts a NaN to int, which is undefined.",
 "all IEEE formats of 20 bits and more with exponents at least those of single precision, all samples, all sessions of a writer, all strides", "a test tries some samples; that scaling a sample near the limits of the format, where the product is infinite or the sample subnormal, never gives a wrong code, and that NaN always leaves what the language defines, is a statement about all of them", ["wav.hh:137", "wav.hh:254-268"], "A whole number times a number of the format is a multiple of the smallest subnormal number, so scaling never underflows, and neither do sums. Unless something overflows, the code is the one of C69, where the exponent has no limits. If something overflows, the sample is infinite or at least two in size, the scaled sample is an infinity of its sign, and the comparisons of std::min and std::max give the limit. With NaN all comparisons are false, so that clamping passes it on.")

prop("C136", "Pixels in IEEE arithmetic, with infinities and NaN",
 "In IEEE arithmetic, with its limited exponents, underflow and overflow, WritePNM gives every pixel value that is not NaN, infinities included, a code from zero to the greatest one. Values of one and more and positive infinity get exactly the greatest code, values of zero and less and negative infinity get exactly zero. A NaN is converted to int, which is undefined. This holds for every std::pow that is right to three digits between zero and one, does not exceed one there, gives one for powers of one and passes on NaN.",
 "all IEEE formats of 20 to 53 bits with exponents at least those of single precision, all values, all greatest codes up to 65535", "a test tries some values; rounding of the constants moves the joint of the curve and its end, and only a proof excludes that some value gets a negative code or one above the greatest", ["netpbm.hh:126-132"], "After clamping the value is finite and between zero and one. The rounded joint is between 0.003 and 0.004. Below it the result is at most 0.06. Above it the power is at least the square root, less the error of std::pow, so that the difference is positive; at the end the errors of the sum, the product and the difference are at most 1/200000 together, which the greatest code does not magnify to half a step.")

prop("C137", "The Hilbert transformer and the down-converter in IEEE arithmetic",
 "In IEEE arithmetic, with its limited exponents, underflow and overflow, the coefficients of Hilbert and CDC are numbers of the format. As long as the samples are finite and four times the number of pairs times their size is in range, all results of both are finite. The real part of Hilbert is exactly the delayed input; that of CDC is half of the mixed and delayed signal, exactly unless that is less than a normal number, and up to half of the smallest number of the format otherwise. The imaginary parts are as accurate as without limits of the exponent (C87), up to twice the smallest number of the format for every pair of taps. The imaginary part of Hilbert is zero whenever the samples in the delay line are the same on both sides of its centre.",
 "all IEEE formats of 20 to 53 bits with exponents at least those of single precision, all numbers of pairs below 2^28 (2^27 for CDC) that are small against 2^p, all window parameters up to three, all contents of the arrays before the constructors, all input sequences of finite samples in range, all times", "a test tries some signals; overflow of intermediate sums and underflow of products depend on all samples in the delay line together", ["hilbert.hh:19-42", "cdc.hh:20-52"], "The Kaiser window is between 2^-37 and one since the Bessel function is at most exp(x^2/4), so that all coefficients are normal numbers of at most one. Sums and differences never underflow. A multiple k 2^e with k up to 2^p is a number of the format, so that rounding cannot lift a partial sum of k terms of at most 2^e above k 2^e. A product differs from the one without limits by at most the smallest number of the format, and the sum does not magnify these errors by more than two.")

prop("C138", "Accuracy and round trip of pixel codes in IEEE arithmetic",
 "In IEEE arithmetic, with its limited exponents, underflow and overflow, the code WritePNM gives a finite pixel value differs from the sRGB curve, taken of the value clamped to zero and one and scaled by the greatest code, by at most half a step and one twenty-thousandth of the range. ReadPNM decodes every code to a finite number within 1/10000 of the exact result. Decoding any code with ReadPNM and encoding it with WritePNM gives exactly the same code. This holds for every std::pow that is right to five digits for bases between zero and one and exponents up to three.",
 "all IEEE formats of 20 to 53 bits with exponents at least those of single precision; all finite values and greatest codes up to 65535 for encoding; all codes and greatest codes up to 255 for decoding and the round trip", "rounding of the constants moves the joint of the two parts of the curve, and a code near it may be decoded with one part and encoded with the other; tests with one library and one format cannot show that no code changes", ["netpbm.hh:20-25", "netpbm.hh:126-132"], "The rounded exponent, offset, slope and joint are bounded. Powers depend on the exponent with a factor of at most six for bases from 0.003, the curve stretches by at most 14 there, and x^2.4 by at most 2.4. The threshold of the decoder is the exact one, as 0.04045 times a greatest code up to 255 is never near a half. Codes above it are decoded clearly above the joint. Codes below it that are encoded with the power change by at most 0.26 steps. Everything together stays below one step after rounding.")

prop("C139", "The streaming resampler with infinities and NaN",
 "In IEEE arithmetic, if the differences of the rates are at most half of the rate, Resampler2 does nothing undefined whatever samples it gets, infinities and NaN included. Each call gives at most two samples and leaves the rest of the array alone, and the offset stays between minus one and one half. While one of the last TAPS inputs is infinite or NaN, so is every output; afterwards the outputs are the same in every bit as if it had never been there, and the number of outputs never depends on the inputs. A difference whose quotient by the rate is NaN still gives one output but makes every later call undefined; a negative infinite quotient gives one output and none ever after; a positive infinite one is undefined at once.",
 "all IEEE formats with 20 to 53 bits and exponents at least those of single precision; all filters with up to 65534 taps and points no closer than (TAPS+1)/2^30, buffers, inputs, numbers of calls and output arrays; all sequences of differences up to half of the rate", "an offset is carried on through all calls, so it must be shown that rounding never moves it out of its range; what one bad sample or difference does to the unlimited future cannot be tested", ["resampler.hh:76-100", "spline.hh:38-52"], "Rounding is monotone and keeps minus one, zero and the halves, so the offset stays in its range in all three branches. The calls in a row are given in closed form, and sums with one term that is infinite or NaN are so themselves. An offset that is NaN or positive infinite cannot be converted to an index, and a negative infinite one always takes the branch without output.")

prop("C140", "The block resampler with infinities and NaN",
 "In IEEE arithmetic, with positions computed in double, Resampler does nothing undefined whatever samples it gets, infinities and NaN included, if the ratio rate / (rate + diff) is finite and no position is beyond 2^30. Each output is the sum of the filter values times the TAPS inputs around its position, in every bit, or is left alone if one of them is not in the block; all other places of the output array are left alone. An output is infinite or NaN if one of its TAPS inputs is, and depends on no other input. An infinite difference makes all outputs equal. If the difference is minus the rate or NaN, or the rate is infinite or NaN, the first output is undefined already.",
 "all pairs of IEEE formats of at least 20 bits with exponents at least those of single precision, the one for positions with at least 31 bits; all filters with up to 65534 taps and points no closer than (TAPS+1)/2^30, rates, differences, blocks, strides and arrays", "which inputs an output depends on is a statement about pairs of runs with all inputs; an undefined conversion often gives plausible results on the machine of the tester", ["resampler.hh:35-52", "spline.hh:38-52"], "The position differs by at most a half from the nearest integer, so all arguments of the filter are within TAPS after both conversions, and the spline can index its tables. An invariant of the outer loop describes the array. Sums with one term that is infinite or NaN are so themselves. A product with an infinite or NaN ratio is never finite, and its conversion to int is undefined.")

prop("C141", "Interpolation, clamping and other helpers in IEEE arithmetic",
 "In IEEE arithmetic: lerp of finite numbers with a weight from zero to one is finite and differs from the exact interpolation by at most four units of rounding of the larger magnitude plus two of the smallest positive numbers; at the weights zero and one it is exact, but NaN at weight zero if the other end is infinite. Between equal numbers it may give a smaller or a larger number. clamp gives nothing outside of its bounds and changes nothing inside, infinities included; a NaN goes through and a NaN bound does not bound. signum is the sign of the value, zero for both zeros and NaN, and that of an infinity. delta is one at both zeros only. sinc is one at both zeros, finite and at most one in magnitude wherever pi times the argument is finite, off by at most 12/2^p and half of the smallest number besides subnormal arguments, for a sine off by two units, and NaN where that overflows.",
 "all IEEE formats of at least 4 bits with emin + 2p <= 0 and p <= emax; all values; every sin function that is not larger than its argument in magnitude", "bounds over all triples of numbers; subnormal numbers, signed zeros, infinities and NaN are rarely tried", ["utils.hh:13-47"], "Rounding errors of the four operations are added up. Rounding is monotone and keeps representable numbers, so pi times a number that is not zero is not zero and a quotient not above one stays so. The numbers that lerp changes are computed by the kernel.")

prop("C142", "The window functions in IEEE arithmetic",
 "In IEEE arithmetic with overflow and gradual underflow no sine or cosine of UnitCircle exceeds one in magnitude. For 2 <= N <= 2^28 and 0 <= n < N: every weight of Hann is a finite number from zero to one, off by at most 7/2^p; every weight of Hamming is finite, off by at most 8/2^p; every weight of Blackman() is finite, off by at most 10/2^p, and with other coefficients, zero or of ordinary size, off by the sum of 3, 13 and 12 units of the three; for N <= 2^27 every weight of Lanczos is finite with a relative error of at most 24/2^p, and exactly one in the middle. Kaiser in single precision with parameter 40 gives NaN for every weight, also in the middle.",
 "IEEE formats of 20 to 53 bits with emin + p <= -98 and emax >= 64, so float and double; every long double of at least p bits; all N, n in range; all coefficients", "bounds over 2^28 lengths and all their samples; whether a weight falls below zero depends on the last bit", ["window.hh:22-67", "window.hh:81-117", "unit_circle.hh"], "The results of UnitCircle are those without limits of the exponent (C134); they are zero or at least 2^-31 in magnitude, and at most one because one plus a negative number is rounded monotonically. So no operation of the windows over- or underflows, and the bounds of C83 apply. The overflow in i0 is computed by the kernel.")

prop("C143", "The Kaiser window in IEEE arithmetic",
 "In IEEE arithmetic with overflow and gradual underflow: for every finite argument of magnitude at most 9.6 the Bessel function i0 inside Kaiser never overflows and has a relative error of at most 27/2^p. For every finite parameter a with |a| <= 3 that is zero or at least 2^-40 in magnitude, every 2 <= N <= 2^30 and every 0 <= n < N the weight is a finite positive number with a relative error of at most (60 + 85 a^2)/2^p against I0(pi a sqrt(1 - (2n/(N-1) - 1)^2)) / I0(pi a).",
 "IEEE formats of 20 to 53 bits with room for the exponents, so float and double; every long double of at least p bits; all parameters, lengths and samples in range", "all parameters and 2^30 lengths; the loop ends where the comparison of two compensated sums says so, and the factors of the series may fall below the normal numbers or to zeros of either sign", ["window.hh:81-117", "kahan.hh:37-42", "const.hh:31-35"], "The factors of the series carry a relative error and a remainder of at most 1555200 half units of the smallest number, so the terms are those of C83 up to a remainder far below the square of a unit. A crude growth bound shows that the compensated sum stays finite; it is then the sum without limits of the exponent (C99), and the loop ends where that one has no effect any more. The radicand, its root and the arguments are zero or of ordinary size, because one less a number of the format is a multiple of half a unit.")

# ---- status -------------------------------------------------------------------------------------------------------
def _set(pid, status, theorems, note):
    p = next(p for p in P if p["id"] == pid)
    p["status"], p["theorems"], p["note"] = status, ["DSP." + t for t in theorems], note
def proved(pid, theorems, note=""): _set(pid, "proved", theorems, note)
def partial(pid, theorems, note=""): _set(pid, "partial", theorems, note)

proved("C01", ["C01_stack"])
proved("C02", ["C02_deque"])
proved("C03", ["C03_delay", "C03_delay_sample"])
proved("C04", ["C04_bip_buffer", "C04_newest_last"])
proved("C05", ["C05_movext", "C05_movmin", "C05_movmax", "C05_init_collision", "C05_movmax_float_wrong"],
 "The restriction to integers for MovMax is necessary, see the finding on numeric_limits::min().")
proved("C06", ["C06_movext_safe", "C06_nan_asserts"], "Needs a reflexive ==; with NaN an assertion does fail (C06_nan_asserts).")
proved("C07", ["C07_swa"])
proved("C08", ["C08_swa_no_drift"])
proved("C09", ["C09_sma1", "C09_sma2", "C09_sma3", "C09_sma4", "C09_abs_dev"])
proved("C10", ["C10_sma2_int"])
proved("C14", ["C14_kahan_outputs", "C14_kahan_sum", "C14_kahan_same", "C14_kahan_same_any"])
proved("C16", ["C16_schmitt", "C16_schmitt_hold", "C16_schmitt_needs_order"])
proved("C17", ["C17_rising", "C17_falling", "C17_balance"])
proved("C18", ["C18_integrator", "C18_differentiator", "C18_int_diff", "C18_diff_int"])
proved("C11", ["C11_sort", "C11_sort_unique"])
proved("C12", ["C12_select", "C12_select_unique", "C12_select_assert", "C12_negative_k"])
proved("C13", ["C13_sort_safe", "C13_select_safe"])
proved("C27", ["C27_theil_sen", "C27_majority", "C27_line", "C27_safe"])
proved("C28", ["C28_nested", "C28_nested2", "C28_robust", "C28_robust2", "C28_sharp", "C28_nan_bounds"])
proved("C29", ["C29_least_squares", "C29_line", "C29_uniform"])
proved("C19", ["C19_header", "C19_opens"])
proved("C20", ["C20_within", "C20_saturates", "C20_reencode", "C20_file"])
proved("C21", ["C21_float", "C21_bits"])
proved("C22", ["C22_crash"])
proved("C23", ["C23_write", "C23_layout", "C23_silence", "C23_skip"])
proved("C24", ["C24_accepts", "C24_rejects", "C24_rejection_invisible", "C24_truncated_uninit", "C24_zero_channels", "C24_overflow",
 "C24_signed_fields"], "The constructor faults on some byte strings (see findings); the theorems speak about those where it returns.")
proved("C25", ["C25_parse", "C25_roundtrip", "C25_comment_position", "C25_rejection_invisible", "C25_overflow"])
proved("C26", ["C26_codes", "C26_range", "C26_monotone", "C26_read", "C26_write", "C26_copy", "C26_wide_truncated"])
proved("C30", ["C30_ring", "C30_div", "C30_assign", "C30_compare", "C30_functions"])
proved("C31", ["C31_dft"])
proved("C32", ["C32_inverse", "C32_parseval", "C32_linear"])
proved("C33", ["C33_radix", "C33_exists", "C33_powers"])
proved("C34", ["C34_halfComplex"])
partial("C35", ["C35_interpolates_partial", "C35_reproduces_partial", "C35_odd_input", "C35_overlap", "C35_violated"],
 "Holds for even INPUT with 2*OUTPUT >= 3*INPUT; the code violates it for all other sizes but INPUT = 1 (C35_violated, C73).")
proved("C42", ["EMA.C42_hull", "EMA.C42_between", "EMA.C42_monotone", "EMA.C42_weighted_sum", "EMA.C42_weights", "EMA.C42_constant", "EMA.C42_dc",
 "EMA.C42_samples"])
proved("C43", ["EMA.C43_alpha", "EMA.C43_half_power", "EMA.C43_response"])
proved("C44", ["EMACascade.C44_hull", "EMACascade.C44_transfer", "EMACascade.C44_dc", "EMACascade.C44_cutoff"])
proved("C45", ["BlockDC.C45_constant", "BlockDC.C45_nyquist", "BlockDC.C45_dc", "BlockDC.C45_nyquist_limit", "BlockDC.C45_bounded"])
proved("C46", ["Biquad.C46_transfer", "Biquad.C46_linear", "Biquad.C46_delay", "Biquad.C46_cascade"])
proved("C47", ["Biquad.C47_poles", "Biquad.C47_free", "Biquad.C47_bounded", "Biquad.C47_free_real", "Biquad.C47_bounded_real"])
proved("C48", ["Biquad.C48_settles", "Biquad.C48_lowpass", "Biquad.C48_highpass", "Biquad.C48_notch", "Biquad.C48_bandpass", "Biquad.C48_allpass"])
proved("C49", ["BiquadCascade.C49_lowpass", "BiquadCascade.C49_highpass", "BiquadCascade.C49_settles", "BiquadCascade.C49_corner"])
proved("C50", ["Phasor.C50_oscillator", "Phasor.C50_norm"])
proved("C51", ["FM.C51_fmd1", "FM.C51_fmd2", "FM.C51_fmd3", "FM.C51_fmd4", "FM.C51_fmd5", "FM.C51_tie", "FM.C51_constant", "FM.C51_constant5"])
proved("C52", ["AMD.C52_bounded", "AMD.C52_settled", "AMD.C52_peak_hold"])
proved("C53", ["NormalizeSine.C53_bounded", "NormalizeIQ.C53_iq", "NormalizeSine.C53_default_divides_by_zero"])
proved("C56", ["NLMS.C56_step", "NLMS.C56_learns"])
proved("C57", ["NCLMS.C57_step", "NCLMS.C57_learns"])
proved("C58", ["NaturalSpline.C58_natural", "NaturalSpline.C58_line", "NaturalSpline.C58_far"])
proved("C59", ["HermiteSpline.C59_hermite", "HermiteSpline.C59_uniform", "HermiteSpline.C59_line", "HermiteSpline.C59_line_uniform",
 "HermiteSpline.C59_two_knots"])
proved("C65", ["Coeffs.C65_table", "Coeffs.C65_normalized", "Coeffs.C65_normalize", "Coeffs.C65_zero_sum"])
proved("C66", ["C66_lerp", "C66_lerp_between", "C66_clamp", "C66_signum", "C66_signum_abs", "C66_sinc", "C66_delta", "C66_normal_pdf"])
proved("C67", ["C67_accurate", "C67_round_trip", "C67_binary", "C67_code"])
proved("C69", ["C69_reencode", "C69_within", "C69_saturates", "C69_file"])
proved("C143", ["Win.C143_i0", "Win.C143_kaiser"])
proved("C142", ["Win.C142_bounded", "Win.C142_hann", "Win.C142_hamming", "Win.C142_blackman", "Win.C142_blackman_exact", "Win.C142_lanczos", "Win.C142_kaiser_nan"])
proved("C141", ["UtilsIeee.C141_lerp", "UtilsIeee.C141_ends", "UtilsIeee.C141_far", "UtilsIeee.C141_constant", "UtilsIeee.C141_clamp", "UtilsIeee.C141_clamp_nan", "UtilsIeee.C141_signum", "UtilsIeee.C141_sinc", "UtilsIeee.C141_sinc_accurate", "UtilsIeee.C141_sinc_far"])
proved("C140", ["Resampler.Machine.C140_block", "Resampler.Machine.C140_local", "Resampler.Machine.C140_stuck", "Resampler.Machine.C140_undefined", "Resampler.Machine.C140_division"])
proved("C139", ["Resampler2.Machine.C139_values", "Resampler2.Machine.C139_stream", "Resampler2.Machine.C139_recovers", "Resampler2.Machine.C139_nan", "Resampler2.Machine.C139_never", "Resampler2.Machine.C139_infinite"])
proved("C138", ["C138_encode", "C138_decode", "C138_codes"])
proved("C137", ["Hilbert.C137_hilbert", "CDC.C137_downconvert"])
proved("C136", ["C136_range", "C136_nan"])
proved("C135", ["C135_within", "C135_saturates", "C135_reencode", "C135_file", "C135_nan"])
proved("C134", ["UnitCircle.C134_accurate", "UnitCircle.C134_factors", "UnitCircle.C134_transform", "UnitCircle.C134_oscillator"])
proved("C133", ["NCO.C133_oscillator", "NCO.C133_stuck"])
proved("C132", ["AMDRounded.C132_amd", "NormalizeRounded.C132_normalize"])
proved("C131", ["FMDRounded.C131_fmd1", "FMDRounded.C131_fmd2", "FMDRounded.C131_fmd3", "FMDRounded.C131_fmd4", "FMDRounded.C131_fmd5"])
proved("C130", ["C130_circular", "C130_filter", "C130_code"])
proved("C129", ["C129_rms", "C129_energy", "C129_round_trip", "C129_code", "C129_code_round_trip"])
proved("C128", ["NaturalSpline.C128_ruined", "NaturalSpline.C128_nowhere", "NaturalSpline.C128_range", "HermiteSpline.C128_local", "HermiteSpline.C128_places", "HermiteSpline.C128_range", "C128_limits"])
proved("C127", ["Cplx.C127_polar", "Cplx.C127_radius", "Cplx.C127_angle", "Cplx.C127_back"])
proved("C126", ["Regression.C126_uniform", "Regression.C126_places", "Regression.C126_values", "Regression.C126_limits"])
proved("C125", ["Regression.C125_uniform", "Regression.C125_general"])
proved("C124", ["NormalizeIQRounded.C124_round", "NormalizeIQRounded.C124_exact", "NormalizeIQRounded.C124_separate", "NormalizeIQRounded.C124_damage"])
proved("C123", ["C123_ratio", "C123_level"])
proved("C122", ["C122_decibel", "C122_zero", "C122_zero_single", "C122_special", "C122_idecibel"])
proved("C121", ["C121_ldexp", "C121_exp10", "C121_exp10_special", "C121_lost"])
proved("C120", ["C120_atan", "C120_atan2", "C120_lost", "C120_zero", "C120_infinite", "C120_nan", "C120_minus_zero"])
proved("C119", ["C119_fir", "C119_windows", "C119_functions", "C119_coeffs", "C119_splines", "C119_hilbert", "C119_cdc", "C119_transform", "C119_real", "C119_padding", "C119_lms", "C119_clms", "C119_amd", "C119_normalize", "C119_phasor", "C119_fmd"])
proved("C118", ["FFT.C118_transform", "FFT.C118_real", "FDZP.Rounded.C118_padding"])
proved("C117", ["FFT.C117_spread", "FFT.C117_range", "FFT.C117_code", "FDZP.Rounded.C117_padding"])
proved("C116", ["FM.C116_fm", "FM.C116_fm4", "FM.C116_fm5", "AMD.C116_am", "AMD.C116_am_floor", "AMD.C116_am_scale", "NormalizeSine.C116_ripple", "NormalizeSine.C116_normalize", "NormalizeSine.C116_normalize_amplitude"])
proved("C115", ["FMDRounded.C115_fmd1", "FMDRounded.C115_fmd2", "FMDRounded.C115_fmd3", "FMDRounded.C115_fmd4", "FMDRounded.C115_fmd5", "FMDRounded.C115_recovery", "FMDRounded.C115_weak", "FMDRounded.C115_strong"])
proved("C114", ["FFT.C114_spread", "FFT.C114_range", "FFT.C114_code", "FFT.C114_overflow"])
proved("C113", ["Quick.C113_sort", "Quick.C113_select", "Quick.C113_runs", "Quick.C113_unsorted", "Quick.C113_middle", "RepeatedMedian.C113_repeated", "TheilSen.C113_theil"])
proved("C112", ["NCLMS.Rounded.C112_call", "NCLMS.Rounded.C112_drift"])
proved("C111", ["Cplx.C111_exact", "Cplx.C111_linear", "Cplx.C111_mul", "Cplx.C111_abs", "Cplx.C111_div", "Cplx.C111_conj", "Cplx.C111_cancel", "Cplx.C111_large", "Cplx.C111_small"])
proved("C110", ["SMA.C110_sma", "SMA.C110_gain", "BlockDC.C110_blockdc", "BlockDC.C110_blockdc_power", "Calculus.C110_differentiator", "Calculus.C110_integrator"])
proved("C109", ["AMDRounded.C109_amd", "AMDRounded.C109_amd_nan", "AMDRounded.C109_amd_hold", "AMDRounded.C109_amd_large", "NormalizeRounded.C109_normalize", "NormalizeRounded.C109_normalize_short", "NormalizeRounded.C109_normalize_bad", "NormalizeRounded.C109_normalize_mute", "SchmittTrigger.C109_trigger"])
proved("C108", ["FFT.C108_circular", "FFT.C108_linear", "FFT.C108_shift", "FFT.C108_tone"])
proved("C107", ["Hilbert.C107_hilbert", "CDC.C107_cdc"])
proved("C106", ["Resampling.C106_kernel", "Resampler2.C106_stream", "Resampler.C106_block", "Resampling.C106_oldest", "Resampler2.C106_click"])
proved("C105", ["NaturalSpline.C105_second", "NaturalSpline.C105_fourth", "NaturalSpline.C105_ends", "HermiteSpline.C105_hermite"])
proved("C104", ["Resampler.Rounded.C104_block"])
proved("C103", ["Resampler2.Rounded.C103_stream"])
proved("C102", ["NaturalSpline.C102_range", "NaturalSpline.C102_stable", "NaturalSpline.C102_slope", "NaturalSpline.C102_overshoot"])
proved("C101", ["NLMS.Rounded.C101_call", "NLMS.Rounded.C101_drift"])
proved("C100", ["NLMS.Rounded.C100_coefficient", "NLMS.Rounded.C100_input", "NLMS.Rounded.C100_output", "NLMS.Rounded.C100_tiny", "NCLMS.Rounded.C100_coefficient", "NCLMS.Rounded.C100_input", "NCLMS.Rounded.C100_output", "NCLMS.Rounded.C100_tiny"])
proved("C99", ["Bridge.C99_integrator", "Bridge.C99_differentiator", "Bridge.C99_kahan", "Bridge.C99_kahan_error", "Bridge.C99_sma1", "Bridge.C99_sma2", "Bridge.C99_sma3", "Bridge.C99_sma4", "Bridge.C99_sma4_error", "Bridge.C99_ema", "Bridge.C99_blockdc", "Bridge.C99_biquad"])
proved("C98", ["Range.C98_ema", "Range.C98_ema_cascade", "Range.C98_sma1", "Range.C98_sma4", "Range.C98_overflow"])
proved("C97", ["Silence.C97_blockdc", "Silence.C97_ema", "Silence.C97_blockdc_samples", "Silence.C97_ema_samples"])
proved("C96", ["SMA1.C96_sma1", "SMA4.C96_sma4", "Ieee.C96_sma4", "Hilbert.C96_hilbert", "CDC.C96_cdc", "C96_differentiator"])
proved("C95", ["Nonfinite.C95_ema", "Nonfinite.C95_ema_cascade", "Nonfinite.C95_blockdc", "Nonfinite.C95_biquad", "Nonfinite.C95_biquad_cascade", "Nonfinite.C95_integrator", "Nonfinite.C95_kahan", "Nonfinite.C95_sma2", "Nonfinite.C95_sma3"])
proved("C94", ["Regression.C94_uniform", "Regression.C94_general"])
proved("C93", ["FMDRounded.C93_fmd1", "FMDRounded.C93_fmd2", "FMDRounded.C93_fmd3", "FMDRounded.C93_fmd4", "FMDRounded.C93_fmd5"])
proved("C92", ["AMDRounded.C92_amd", "AMDRounded.C92_limits", "AMDRounded.C92_peak", "NormalizeRounded.C92_normalize"])
proved("C91", ["NaturalSpline.C91_smoothest", "NaturalSpline.C91_unique"])
proved("C90", ["NaturalSpline.C90_natural", "NaturalSpline.C90_last_knot", "HermiteSpline.C90_hermite", "HermiteSpline.C90_uniform"])
proved("C89", ["Calculus.C89_integrator", "Calculus.C89_integrator_exact", "Calculus.C89_stuck", "Calculus.C89_differentiator"])
proved("C88", ["Coeffs.C88_normalize", "Coeffs.C88_table", "Coeffs.C88_cancels"])
proved("C87", ["Hilbert.C87_hilbert", "CDC.C87_downconvert"])
proved("C86", ["Fir.C86_lowPass2", "Fir.C86_highPass2", "Fir.C86_complement", "Fir.C86_symmetric", "Fir.C86_asymmetric", "Fir.C86_hilbert", "Fir.C86_antisymmetric", "Fir.C86_lowPass", "Fir.C86_highPass", "Fir.C86_bandPass"])
proved("C85", ["UnitCircle.C85_symmetric", "UnitCircle.C85_periodic", "UnitCircle.C85_quarter", "UnitCircle.C85_octant"])
proved("C84", ["UnitCircle.C84_relative", "UnitCircle.C84_binary", "UnitCircle.C84_signs"])
proved("C83", ["Win.C83_i0", "Win.C83_kaiser", "Win.C83_kaiser_middle", "Win.C83_hann", "Win.C83_hamming", "Win.C83_blackman", "Win.C83_lanczos", "Win.C83_gauss", "Win.C83_blackman_negative"])
proved("C82", ["C82_half", "C82_padding", "C82_code", "C82_code_padding"])
proved("C81", ["Resampler2.C81_exact", "Resampler2.Clock.C81_call", "Resampler2.Clock.C81_places", "Resampler2.Clock.C81_never", "Resampler2.Clock.C81_drift", "Resampler.C81_block", "Resampler.C81_offset", "Resampler.C81_ignored"])
proved("C80", ["C80_sort", "C80_select", "C80_values", "C80_worst", "Quick.partLoop_passes", "Quick.sortWork_fst", "Quick.selectWork_fst"])
proved("C79", ["Elementary.C79_atan", "Elementary.C79_odd", "Elementary.C79_atan2", "Elementary.C79_negative_zero"])
proved("C78", ["Elementary.C78_ldexp", "Elementary.C78_exp10", "Elementary.C78_zero", "Elementary.C78_idecibel", "Elementary.C78_round_trip"])
proved("C77", ["Elementary.C77_accurate", "Elementary.C77_binary", "Elementary.C77_resolution", "Elementary.C77_flat", "Elementary.C77_flat_level"])
proved("C76", ["EstimatorError.C76_theil_sen", "EstimatorError.C76_repeated_median", "EstimatorError.C76_repeated_median2", "EstimatorError.C76_theil_sen_robust", "EstimatorError.C76_repeated_median_robust", "EstimatorError.C76_repeated_median2_robust", "EstimatorError.C76_far"])
proved("C75", ["EMA.C75_cutoff", "Biquad.C75_designs", "Biquad.C75_stable", "BiquadCascade.C75_butterworth", "UnitCircle.C75_cos_one", "EMA.C75_stuck", "Biquad.C75_silent", "Biquad.C75_unstable"])
proved("C74", ["EMA.C74_ema", "EMACascade.C74_cascade", "BlockDC.C74_blockdc", "BlockDC.C74_blockdc_constant", "Biquad.C74_biquad", "BiquadCascade.C74_cascade", "EMA.C74_dead_band", "EMA.C74_outside"])
proved("C73", ["FDZP.C73_sizes"])
proved("C72", ["EMACascade.C72_response", "EMACascade.C72_half_power", "EMACascade.C72_uncorrected", "EMACascade.C72_stuck"], "Beyond N/2 the code misbehaves, see C72_stuck.")
proved("C71", ["SMAError.C71_sma1", "SMAError.C71_sma2", "SMAError.C71_sma3", "SMAError.C71_sma4", "SMADrift.C71_binary", "SMADrift.C71_sma2_drift", "SMADrift.C71_sma3_drift"])
proved("C70", ["NCO.C70_oscillator", "NCO.C70_binary"])
proved("C68", ["UnitCircle.C68_accurate", "UnitCircle.C68_binary"])
proved("C36", ["UnitCircle.C36_accuracy", "UnitCircle.C36_reduction", "UnitCircle.C36_overflow", "UnitCircle.C36_no_steps"])
proved("C62", ["Win.C62_rect", "Win.C62_hann", "Win.C62_hamming", "Win.C62_lanczos", "Win.C62_blackman", "Win.C62_blackman_symmetric",
 "Win.C62_blackman_negative", "Win.C62_gauss", "Win.C62_accuracy", "Win.C62_single"])
proved("C63", ["Win.C63_i0", "Win.C63_window", "Win.C63_accuracy"])
proved("C64", ["Fir.C64_ideal", "Fir.C64_symmetric", "Fir.C64_complement", "Fir.C64_hilbert", "Fir.C64_antisymmetric", "Fir.C64_rational",
 "Fir.C64_zero_cutoff"])
proved("C54", ["CDC.C54_downconvert", "CDC.C54_one_tap"])
proved("C55", ["Hilbert.C55_fir", "Hilbert.C55_one_tap"])
proved("C60", ["Resampler2.C60_positions", "Resampler2.C60_rate", "Resampler2.C60_forever", "Resampler2.C60_asymmetric"])
proved("C61", ["Resampler.C61_block", "Resampler.C61_division"])
proved("C37", ["Atan.C37_atan", "Atan.C37_atan2", "Atan.C37_negative_zero"])
proved("C38", ["Exp.C38_ldexp", "Exp.C38_ldexp_shift", "Exp.C38_exp10", "Exp.C38_exp10_shift"])
proved("C39", ["Decibel.C39_order", "Decibel.C39_finite", "Decibel.C39_accuracy", "Decibel.C39_inverse", "Decibel.C39_round_trip"])
proved("C41", ["Cordic.C41_constants", "Cordic.C41_defined", "Cordic.C41_short", "Cordic.C41_char", "Cordic.C41_short_vectors"])
proved("C40", ["Const.C40_const", "Const.C40_cascade", "Const.C40_cascade_limit"])
proved("C15", ["Kahan.C15_standard_model", "Kahan.C15_binary", "Kahan.C15_error_free", "Kahan.C15_dominant"])
