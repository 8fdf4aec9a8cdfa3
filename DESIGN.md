# A Lean 4 model of aicodix/dsp

The subject is the header-only C++ library in `/repo` (pinned commit). The model lives in `lean/Verif`.
It is a hand translation: the code was read, not run.

## Layout

- `Verif/Model/*.lean` models the headers function by function. Each definition cites file and lines.
- `Verif/Spec/*.lean` holds small specifications that do not mention the model.
- `Verif/Lemmas/*.lean` holds helper lemmas.
- `Verif/Props/*.lean` holds the property theorems, one file per header or group, with non-vacuity examples.
- `tools/props.py` is the single source of `properties.jsonl`, `MANIFEST.json` and the table below (`tools/gen.py`).
- `seeded/LOG.jsonl` records the mutation experiments.

## Modelling conventions

- **Faults.** Failing `assert`, out-of-bounds access, signed overflow, forbidden shifts and reads of
  uninitialised memory are explicit outcomes (`Except Fault`), not silently totalised. `assert` is modelled as
  active (no `NDEBUG`).
- **Memory.** Member arrays and pointer arguments are lists with checked reads and writes. Uninitialised arrays have
  arbitrary contents that theorems quantify over.
- **Numbers.** `TYPE` is a template parameter. Containers and sorting are modelled for every type. Arithmetic code is
  modelled over exact arithmetic (a ring, a field, an ordered field or the reals) unless a theorem says otherwise, so
  floating point rounding, overflow to infinity and NaN are outside those theorems. Where rounding matters for
  the claim itself (C08, C15, C67, C68, C69, C70, C71, C74, C75, C76, C77, C78, C79, C81, C82, C83, C84, C85, C86, C87, C88, C89, C90, C92, C93, C94, C101, C103, C104, C111, C112, C114, C117, C124, C125, C127, C129, C130, C131, C132) it is modelled by an abstract or concrete rounding operation. The concrete one
  (`Model/Binary.lean`) is binary floating point of `p` bits, to nearest with ties to even. Its exponent is not bounded
  (no overflow, no subnormal numbers), it has no NaN and no signed zero, and products and sums are not contracted.
  Overflow, gradual underflow, signed zeros, infinities and NaN (without payload) are modelled by `Ieee F`
  (`Model/Ieee.lean`, C95 to C100, C109) for formats `F` like `float` and `double`, assuming rounding to nearest and no fast-math options.
- **int.** C++ `int` is a mathematical integer where the surrounding code cannot overflow for representable sizes.
  It is a checked 32-bit integer where overflow is part of the claim.
- **Loops** become structural or well-founded recursion, mutation becomes state passing.

## Trusted base

Lean's kernel (4.33.0), and for each property theorem at most the axioms `propext`, `Classical.choice`, `Quot.sound`.
No axioms are added, no `sorry`, `native_decide` or `bv_decide` is used. The tie between model and code is reading.

<!-- axioms -->
Of the 621 theorems named in `MANIFEST.json`

- 580 depend on `propext`, `Classical.choice`, `Quot.sound` (all that are not listed below);
- 17 depend on `propext`, `Quot.sound`: `C12_select_assert`, `C14_kahan_outputs`, `C16_schmitt`, `C17_balance`, `C18_integrator`, `C24_rejects`, `C24_rejection_invisible`, `C24_truncated_uninit`, `C24_zero_channels`, `C24_overflow`, `C24_signed_fields`, `C33_radix`, `BlockDC.C45_constant`, `Biquad.C46_linear`, `C66_lerp`, `Quick.sortWork_fst`, `Hilbert.C96_hilbert`;
- 19 depend on `propext`: `C06_nan_asserts`, `C14_kahan_sum`, `C14_kahan_same`, `C14_kahan_same_any`, `C16_schmitt_hold`, `C16_schmitt_needs_order`, `C17_rising`, `C17_falling`, `C18_differentiator`, `C18_int_diff`, `C18_diff_int`, `C25_comment_position`, `C25_rejection_invisible`, `C25_overflow`, `C28_nan_bounds`, `C66_clamp`, `Quick.selectWork_fst`, `Nonfinite.C95_biquad_cascade`, `SchmittTrigger.C109_trigger`;
- 5 depend on no axioms: `Nonfinite.C95_blockdc`, `Nonfinite.C95_biquad`, `Nonfinite.C95_integrator`, `Nonfinite.C95_kahan`, `UtilsIeee.C141_clamp_nan`.
<!-- /axioms -->

What of the code is modelled, header by header, is listed at the end.

## Properties

<!-- props -->
- **C01 Stack is a bounded LIFO** (proved). State machine with checked memory; refinement to a list; induction over the call list.
- **C02 Deque is a bounded double-ended queue** (proved). Ring-buffer state machine with checked memory; refinement to a list; induction over the call list.
- **C03 Delay line delays by exactly NUM samples** (proved). State machine; invariant relating ring position and the last NUM inputs.
- **C04 BipBuffer exposes the last NUM values contiguously** (proved). State machine over a 2*NUM memory; invariant on both copies.
- **C05 Moving minimum/maximum is the extremum of the last NUM inputs** (proved). Composition of Delay and two Stacks; invariant: the stacks hold the suffix extrema of the two halves of the window. The restriction to integers for MovMax is necessary, see the finding on numeric_limits::min().
- **C06 Moving extrema never assert and cost amortised O(1)** (proved). Same model instrumented with an operation counter; potential argument. Needs a reflexive ==; with NaN an assertion does fail (C06_nan_asserts).
- **C07 Sliding window accelerator reduces exactly the window** (proved). Heap-shaped tree in checked memory; invariant node = op(children); level-by-level product identity.
- **C08 SWA/SMA4 has no drift under rounding** (proved). Tree invariant determines all inner nodes from the leaves.
- **C09 All four moving averages compute the mean of the last NUM inputs** (proved). State machines over a field; running-sum invariants.
- **C10 SMA2 is exact on machine integers** (proved). Checked 32-bit arithmetic with overflow as a fault.
- **C11 quick_sort sorts** (proved). Imperative model in checked memory; partition loop invariant; well-founded recursion on h-l.
- **C12 quick_select returns the k-th smallest** (proved). Imperative model; loop invariant on both sides of the current range.
- **C13 Sorting is memory safe and terminating for any comparison** (proved). Same model with the comparison as a parameter.
- **C14 Kahan summation is exact when arithmetic is exact** (proved). Fold invariants.
- **C15 Kahan summation error does not grow with the number of terms** (proved). Error bound for any arithmetic with relative errors, instantiated by a concrete rounding function; the theorem of Dekker on error-free addition for the sharper bound.
- **C16 Schmitt trigger has hysteresis** (proved). State machine, induction over the history.
- **C17 Edge triggers report exactly the edges** (proved). State machines, induction.
- **C18 Integrator and Differentiator are running sum and first difference and invert each other** (proved). State machines, induction.
- **C19 A written WAV header is read back exactly** (proved). Byte-level writer (including the destructor's patching) and parser; symbolic evaluation of the parser on the writer's output.
- **C20 PCM samples survive a write/read cycle within half a quantisation step** (proved). Quantiser over an ordered field with nearest rounding; little-endian byte lemmas.
- **C21 32-bit float samples are bit exact** (proved). BitVec little-endian round trip.
- **C22 A WAV file is readable after a crash at any byte** (proved). Trace of byte writes; every prefix of the trace is parsed.
- **C23 WAV multi-channel layout, stride, skip and silence** (proved). Loops over a byte list and a checked sample buffer.
- **C24 ReadWAV accepts only consistent headers** (proved). Parser with uninitialised fields as none; inversion of the parser. The constructor faults on some byte strings (see findings); the theorems speak about those where it returns.
- **C25 PNM headers round trip and comments are skipped** (proved). Byte-level printer and parser; decimal round trip by induction.
- **C26 PNM pixel codes survive a read/write cycle** (proved). Real powers; monotonicity plus a polynomial inequality at the branch joint.
- **C27 Theil-Sen estimator is the median of slopes** (proved). Imperative model on top of quick_select; order-statistics lemmas.
- **C28 Repeated median tolerates almost half outliers** (proved). Imperative model on top of quick_select; counting argument.
- **C29 Simple linear regression is the least squares line** (proved). Ordered field algebra over finite sums.
- **C30 Complex is the field of complex numbers** (proved). Homomorphism to Mathlib's complex numbers.
- **C31 The FFT computes the discrete Fourier transform** (proved). Model of all butterflies (tables copied from the code) and of the recursive template; induction over BINS.
- **C32 Forward and backward FFT are inverse up to BINS, and Parseval holds** (proved). Corollaries of C31.
- **C33 The FFT size dispatch always terminates on a real butterfly** (proved). Strong induction; bit-mask lemmas.
- **C34 Real-to-half-complex transform** (proved). On top of C31; in-place post-processing loop invariant.
- **C35 Frequency-domain zero padding interpolates** (partial). On top of C31; loop semantics of the spectrum shuffling. Holds for even INPUT with 2*OUTPUT >= 3*INPUT; the code violates it for all other sizes but INPUT = 1 (C35_violated, C73).
- **C36 UnitCircle approximates sine and cosine to double precision** (proved). Octant case analysis and polynomial error bound against the Taylor series.
- **C37 atan/atan2 approximate the true functions** (proved). Derivative bound for the rational kernel; argument reduction identities.
- **C38 exp10 and ldexp** (proved). Shift arithmetic with faults; rational approximation bound.
- **C39 decibel/idecibel** (proved). Iterated square root and artanh series remainder.
- **C40 Mathematical constants are accurate to all printed digits** (proved). Machin formula bounds for pi, rational powers for the roots.
- **C41 CORDIC atan2 is defined for all operands and accurate for long vectors** (proved). Integer model; growth invariant against overflow; each step is an exact rotation plus a rounding error whose effect on the angle is bounded, and all 8 bit operands are run through the kernel against a certified table of cosines.
- **C42 EMA stays in the convex hull of its inputs** (proved). State machine over an ordered field.
- **C43 EMA cutoff is the -3 dB point** (proved). Real algebra.
- **C44 Cascaded EMA stays in the hull and has unit DC gain** (proved). Induction over stages and time.
- **C45 BlockDC removes DC and passes Nyquist** (proved). Closed form of the recursion.
- **C46 Biquad realises its transfer function** (proved). Formal power series.
- **C47 Biquad designs are stable** (proved). Jury conditions, explicit contraction.
- **C48 Biquad designs have the advertised response** (proved). Complex algebra on the transfer function.
- **C49 BiquadCascade is a Butterworth filter** (proved). Product over the Butterworth pole angles.
- **C50 Phasor stays on the unit circle with the right phase** (proved). Induction.
- **C51 The FM demodulators agree** (proved). Argument of complex quotients.
- **C52 AM demodulator gain stays bounded** (proved). Invariant.
- **C53 Normalisers are bounded** (proved). Invariant on the average.
- **C54 CDC equals mixing by Fs/4, half-band filtering and decimation by two** (proved). State machine vs. convolution sum.
- **C55 Hilbert filter equals its FIR convolution** (proved). State machine vs. convolution sum.
- **C56 NLMS learns** (proved). Ordered field algebra.
- **C57 NCLMS learns (complex)** (proved). Complex algebra.
- **C58 Natural cubic spline** (proved). Tridiagonal elimination invariant.
- **C59 Cubic Hermite spline** (proved). Case analysis on the segment index.
- **C60 Resampler2 produces samples at the right rate** (proved). Conservation law invariant.
- **C61 Resampler never leaves its buffers** (proved). Index arithmetic with nearest rounding.
- **C62 Window functions are symmetric and bounded** (proved). Real trigonometry.
- **C63 Kaiser window approximates the Bessel ratio** (proved). Series remainder.
- **C64 FIR designs** (proved). Real trigonometry, C++ remainder semantics.
- **C65 Coeffs tabulates and normalises** (proved). Finite sums.
- **C66 Utility functions** (proved). Real analysis.
- **C67 FFT accuracy in floating point** (proved). Error analysis in the standard model of rounded arithmetic, instantiated for binary floating point.
- **C68 Trigonometric functions in floating point** (proved). Error analysis of the argument and of the Horner schemes in the standard model of rounded arithmetic, concrete double rounding of the constants.
- **C69 PCM samples in floating point** (proved). Rounding error analysis over the concrete model of binary floating point.
- **C70 Oscillator in floating point** (proved). Error analysis of direction and magnitude in the standard model of rounded arithmetic, induction over the calls; correctly rounded square root as a concrete definition.
- **C71 Moving averages in floating point: bounds and drift** (proved). Error analysis in the standard model of rounded arithmetic with a potential for the window of SMA2, pairwise summation for SMA4; explicit drifting input blocks by residue classes of the accumulated error.
- **C72 EMACascade cutoff is the half power point of the cascade** (proved). Closed form of the power in terms of sines, concavity and cubic bound of the sine, exact digits of the constants from C40. Beyond N/2 the code misbehaves, see C72_stuck.
- **C73 Sizes for which FDZP keeps its promise** (proved). C35 for the even sizes, a separate loop analysis for a single sample; for every other pair a single spectral line is computed through the shuffling and compared with the interpolant.
- **C74 Recursive filters in floating point** (proved). Standard model of rounding for one step; contraction with the modulus of the pole, for second order factored into two complex poles; explicit fixed points in the binary format.
- **C75 Filter designs in floating point** (proved). Error calculus for sums, products, quotients and roots on top of C68; Jury's conditions with margin; for low frequencies one minus less than half a unit rounds to one; the unstable case is computed by the kernel.
- **C76 Robust line fits in floating point** (proved). Counting arguments: order statistics follow pointwise monotone bounds, and an interval with more than half of a list contains its median; three roundings per slope; the failure is computed by the kernel.
- **C77 Decibels in floating point** (proved). Relative error of iterated roots as a fixed point; error of the quotient near one; Lipschitz bound of the series; representable numbers next to one; roots of 1 + k ulp by induction.
- **C78 Powers of ten in floating point** (proved). The first part of the reduction is exact because its constant is short; error calculus for the rational function; the integer may be one off the nearest without harm, C38 covers a wider interval than needed.
- **C79 Angles in floating point** (proved). Error calculus for the two polynomials; the fraction takes away at most 0.117 of the argument, so its relative error counts little; the angle feels only half of the relative error of its tangent; the interval of C37 is widened because the threshold is rounded too.
- **C80 Depth and work of sorting and selecting** (proved). The median of five leaves two cells on either side that are not beyond the pivot, an injection follows them through the swaps; the bad order is built from the one for n-3 elements by list surgery; the instrumented model returns what the plain one does.
- **C81 Where the resamplers take their samples in floating point** (proved). A model of the positions alone, shown to be that of the whole function in exact arithmetic; rounding to nearest near powers of two; induction over the calls.
- **C82 Rounding errors of the real transform and of zero padding** (proved). The error calculus of C67 for the combining loop and the ends; a bound on the sum of the errors of the padded spectrum; the exact identities of C34 and C35.
- **C83 Rounding errors of the window functions** (proved). The loop stops when the compensated sum no longer changes, so the last term is below three squared units; a mean index bounds the errors of all terms; monotonicity of rounding keeps the radicand in [0, 1]; Lipschitz bound of the Bessel function in the square of its argument.
- **C84 Relative errors of the sine and cosine of the unit circle** (proved). The reduction to an eighth of a turn is exact in integers; relative versions of the bounds of C68 for the polynomial of the sine.
- **C85 Symmetries of the unit circle in floating point** (proved). The nine pieces of both functions are matched with each other; changes of sign and doublings are exact; the witnesses are evaluated by the kernel.
- **C86 Rounding errors and symmetry of the filter designs** (proved). Errors counted in roundings (relative), with C84 for the sine; the ideal responses are the integrals of C64; symmetry from C85.
- **C87 The Hilbert transformer and the down-converter in floating point** (proved). The coefficients have relative errors (C83, C86), the sum adds one rounding per term; the middle weight is exactly one by C83; the line is a shift register with known contents as in C54 and C55.
- **C88 Tables of coefficients in floating point** (proved). The left to right sum has a relative error of N-1 units with respect to the sum of absolute values; division and multiplication add one each; symmetry of rounding; the counterexample by evaluating the model.
- **C89 Integrator and differentiator in floating point** (proved). Induction on the inputs; representability of sums and of close differences; rounding of 2^p+1 to even.
- **C90 Splines in floating point** (proved). The elimination contracts errors by a factor below 0.27, so the errors of U, Z and C stay below fixed multiples of a unit by induction; Horner's scheme adds to them; Hermite weights have relative errors and add up to one; at the ends of a segment they are exactly zero and one.
- **C91 The natural spline is the smoothest interpolant** (proved). Integrating by parts on each segment shows that the second derivative of the spline is orthogonal to that of every function that is zero at the knots; the rest is Pythagoras; that the code computes the natural spline is C58.
- **C92 AM demodulator and normaliser in floating point** (proved). The level recursion contracts by 1-α also through the rounding and through the limits, which are monotone and exact; the mean square of the normaliser is at least the rounded share of the last square because rounding is monotone, and it stays positive.
- **C93 FM demodulators in floating point** (proved). A relative error of a complex number turns it by at most that much (arc tangent of the quotient); two angles of the same turn whose sizes sum to less than a whole turn are equal; the roundings of the product, the quotient (both parts divided by the same rounded norm), the constants and the scale are counted; the atan2 of atan2.hh meets the hypothesis with ε = 21u by C79.
- **C94 Linear regression in floating point** (proved). The offsets from the middle of the grid are exact; every sum is counted in units of rounding of its absolute sum; Σ|i - mid| ≤ (4.04/l)Σ(i - mid)² makes the bound of the slope independent of the length; the exact line is the model over the reals, which C29 proves to be the least squares line.
- **C95 Recursive filters never recover from a value that is not finite** (proved). The IEEE operations are modelled with all special values; sums, differences and products with a value that is not finite are not finite, so the feedback keeps it; the two averages only ever add to and subtract from their sum.
- **C96 Filters with a window recover from any input** (proved). The state is a function of the window and of the number of inputs; the outputs are written as functions of that state.
- **C97 Silence and gradual underflow** (proved). Rounding with gradual underflow is monotone and takes the nearest multiple of the smallest number; a nonincreasing sequence of such multiples is finally constant; at a fixed point the product is within half of the smallest number of the factor; ties decide the factor one half.
- **C98 Averages stay within the range of their inputs** (proved). The rounded factors add up to at most 1 + 2^-p, half a unit in the last place above one, and that excess is lost when the sum of the products is rounded; the sums of m samples are at most m 2^k, which is representable, hence so are the rounded ones; division by the exact NUM.
- **C99 Finite results are those of unbounded arithmetic** (proved). Sums of multiples of the smallest number never underflow, products and quotients that are normal neither; a result is only finite if both operands are; both machines are run side by side with the relation 'equal or not finite'.
- **C100 One call can ruin an adaptive filter** (proved). The filters with their buffers are shown to be machines on lists of stored inputs and coefficients; every operation hands on non-finite operands; the witness is computed by the kernel for the first call.
- **C101 Rounding in the adaptive filter** (proved). The loops are folds; relative error counting for the sums, the quotient and the update; the exact theory of C56 gives the rest with the triangle inequality; induction over the calls.
- **C102 Stability of natural splines** (proved). The largest coefficient satisfies an equation of the tridiagonal system, which bounds it by the second differences; each piece is written with the coefficients at both ends; the mean value theorem; linearity of the recursions.
- **C103 The streaming resampler in floating point** (proved). Coefficients by C83 and C86; the spline by C90 and C102: the rounded one is near the natural spline through the prototype also at a rounded offset; the sum of products with one rounding each; the positions are those of the clock model; the buffer is a shift register; induction on the calls.
- **C104 The block resampler in floating point** (proved). As C103, with the positions and offsets of C81; each element is written by one round of the loop.
- **C105 How well the splines approximate a function** (proved). Second differences and the tridiagonal system's diagonal dominance bound the second derivatives of the natural spline; those of the Hermite spline come from the chords' slopes; the mean value theorem compares function and chord.
- **C106 The resamplers' filter is the windowed ideal low-pass filter** (proved). C105 for the natural spline; the second derivative of the windowed filter is bounded by those of its factors: the ideal filter is an integral of cosines, the window of the code is a polynomial in the square of the offset whose coefficients are positive; the polynomial is within 10^-32 of the Bessel function by C63; the positions and sums are those of C60 and C61.
- **C107 What the Hilbert transformer and the down-converter make of a sinusoid** (proved). The filters of C54 and C55 with the differences of cosines; the gain is a windowed Fourier series of the square wave. Positive by summation by parts, as the sums of sines of odd multiples are squares over the sine and the window falls; near to one by summation by parts with the partial sums of the series, which are compared with that of Leibniz by their derivative, and a bound on the slope of the window.
- **C108 Convolutions, shifts and tones with the Fourier transform** (proved). From C31 and C32: reindexing of the sums modulo BINS; the tone is the transform of an impulse. In exact arithmetic; C67 bounds what rounding does.
- **C109 Infinities, NaN and silence in the AM demodulator, the normaliser and the trigger** (proved). Model of the operators with IEEE values, the square root and std::min/std::max; invariants: the level is a number between the limits, the mean square is positive or infinite (rounding the product with a factor above one half does not reach zero).
- **C110 What the moving averages, the DC blocker and calculus make of a sinusoid** (proved). C09 with telescoping sums of cosines and symmetry of the window; the deviation of the DC blocker from its response obeys the homogeneous recursion; power by half-angle identities.
- **C111 Complex numbers in floating point** (proved). Two rounded products and their sum; errors of the components combined with Cauchy's inequality; the reciprocal of the norm has a relative error; witness for cancellation by evaluation; squares that overflow or underflow in IEEE arithmetic.
- **C112 Rounding in the complex adaptive filter** (proved). C111 for each operation, norms of complex vectors, the exact step of C57 and the triangle inequality.
- **C113 NaN in sorting, selecting and the robust estimators** (proved). Sorting commutes with every function on the elements and does not depend on cells behind the range, which transfers C11 and C12 to the values without NaN; insertion sort as a function on lists; the partition with a NaN as pivot; evaluation of the witnesses.
- **C114 The fast Fourier transform at the limits of floating point** (proved). Induction over the factors of the transform (`dit_ind`) with the butterflies of all radices: every output depends on every input through operations that keep infinities and NaN; a relation between machine and exact numbers that carries size, error and a budget for the range.
- **C115 Special values, silence and the limits of the range in the frequency demodulators** (proved). Case analysis of the IEEE operations (NaN, infinite, zero), bounds of all intermediate values where the sizes are within the range, and the state of the machines as a function of the last one or two samples.
- **C116 What the demodulators and the normaliser make of the signals they are meant for** (proved). Exact model. Frequency: the argument of a quotient of exponentials, with C51; amplitude: the level contracts towards the amplitude, the limits do not push it away; normaliser: the steady state solves the recursions of DC blocker and average, the difference to it contracts, and the quotient is continuous because the average stays away from zero.
- **C117 The real transform and zero padding at the limits of floating point** (proved). IEEE model with infinities, NaN, overflow and gradual underflow. Spread: induction over the factors that a finite bin has finite inputs only, then through the combination of the halves; in the zero padding bin 0 is not touched between the transforms. Range: the relation `Near` of C114 carried through the constants A and B, the conjugate and the outer bins..
- **C118 Transforms and zero padding depend on nothing but their input** (proved). The bins are shown to be those of a recursive function of the inputs by induction over the factors; for the zero padding two runs from different states are followed side by side through the shuffling of the bins, with the positions on which they agree growing until it is all of them..
- **C119 What the code does with machine numbers is what it does in exact arithmetic, but for the rounding** (proved). The models for numbers of any type are instantiated with the real numbers. State, memory and outputs are mapped from one model to the other, and every statement of the code commutes with the mapping; loops by induction..
- **C120 Arc tangent over the whole range of floating point, with infinities, NaN and signed zeros** (proved). One formula over a rounding: it is shown that rounding with and without limited exponents agree at every step of the kernel where it matters, and that the differences (squares that underflow) are absorbed by the additions, so that the bounds of C79 carry over. The quotient is normal, too large (then both models give π/2) or subnormal (then the arc tangent is the quotient and adding it to π has no effect)..
- **C121 Powers of ten and of two over the whole range of floating point** (proved). The powers of two built by ldexp are exact or infinite, by the number of binary places. The reduction of the argument and the rational function are shown to be the same as without limits for the exponent (products agree unless tiny, differences always), so that the bound of C78 holds before the scaling, and the scaling is one rounding. The integer is within 0.505 of x log2(10)..
- **C122 Levels over the whole range of floating point** (proved). Both models are followed step by step: the roots of all positive numbers are normal, sums and differences always agree, products and quotients agree because they are zero or large enough. The quotient is zero or at least u/4 because a number of the type that is not one differs from it by u..
- **C123 Levels and ratios are inverse up to rounding** (proved). C122 twice; an error of the level is turned into one of the ratio by the exponential function and back by the logarithm..
- **C124 Normaliser for complex samples in floating point** (proved). The model is two normalisers of C92. Runs are shown to be pairs of runs, so that C92 and C109 hold for both components..
- **C125 Zero crossing of the regression line in floating point** (proved). Relative errors of the means, the variance and the covariance from C94, put through the three operations of the crossing..
- **C126 Regression with infinities and NaN** (proved). Sums keep infinities and NaN. On a grid the first and the last place lie on different sides of the middle, so that an infinite mean gives infinities of both signs in the covariance. The limits are computed in the model..
- **C127 Polar coordinates in floating point** (proved). Errors of the products and functions, and that a number near another one has nearly its direction; angles are compared as directions, so that the cut does no harm..
- **C128 Splines with infinities and NaN and at the limits of the range** (proved). The recursions of the code in any arithmetic; in both sweeps a value that is not finite stays so. The divisors are between 3.5 and 4 by monotone rounding. The bounds are multiples of 2^k, which are numbers of the format..
- **C129 Mean square of the rounding errors of the Fourier transform** (proved). Induction over the splits of the size as in C67, but with the squares of the errors summed over the bins of a butterfly (Parseval for the small transforms, Cauchy-Schwarz for their rounding errors)..
- **C130 Convolution by the Fourier transform in floating point** (proved). The error of a product of two bins is split in three, with the bound of C67 for the one factor and of C129 for the other; the backward transform by C129; the exact identity is that of C108..
- **C131 Accuracy of the frequency demodulators in IEEE arithmetic** (proved). Products, sums and quotients of such numbers are zero or normal, so each step gives the same number as arithmetic without limits of the exponent, for which C93 holds; only the last product may underflow, which is less than a unit of rounding of the result's scale..
- **C132 Accuracy of the amplitude demodulator and the normaliser in IEEE arithmetic** (proved). Every intermediate number is zero or within powers of two for which no product and no quotient underflows or overflows; sums never underflow. So each call gives the same numbers as arithmetic without limits of the exponent, and C92 applies..
- **C133 The oscillator in IEEE arithmetic** (proved). Each call multiplies and divides by the absolute value. The errors of the product, the square root and the quotients are bounded with the underflow included, as the numbers are of sizes near one; the direction then moves by at most 9 units per call and the size is restored every time. For NaN both parts of the product are NaN, and stay so under all operations but the reset..
- **C134 Cosine and sine on the unit circle in IEEE arithmetic** (proved). Reduction to one octant is the same in both arithmetics. The reduced argument is zero or at least 2^-29, its square zero or at least 2^-58, and the partial sums of the polynomials stay between one half and three halves of their leading constants as consecutive constants differ by a factor of at least six; so no product underflows or overflows, and every operation gives the same number as without limits of the exponent. C68 and C84 give the errors, C133 the oscillator..
- **C135 PCM samples in IEEE arithmetic, with infinities and NaN** (proved). A whole number times a number of the format is a multiple of the smallest subnormal number, so scaling never underflows, and neither do sums. Unless something overflows, the code is the one of C69, where the exponent has no limits. If something overflows, the sample is infinite or at least two in size, the scaled sample is an infinity of its sign, and the comparisons of std::min and std::max give the limit. With NaN all comparisons are false, so that clamping passes it on..
- **C136 Pixels in IEEE arithmetic, with infinities and NaN** (proved). After clamping the value is finite and between zero and one. The rounded joint is between 0.003 and 0.004. Below it the result is at most 0.06. Above it the power is at least the square root, less the error of std::pow, so that the difference is positive; at the end the errors of the sum, the product and the difference are at most 1/200000 together, which the greatest code does not magnify to half a step..
- **C137 The Hilbert transformer and the down-converter in IEEE arithmetic** (proved). The Kaiser window is between 2^-37 and one since the Bessel function is at most exp(x^2/4), so that all coefficients are normal numbers of at most one. Sums and differences never underflow. A multiple k 2^e with k up to 2^p is a number of the format, so that rounding cannot lift a partial sum of k terms of at most 2^e above k 2^e. A product differs from the one without limits by at most the smallest number of the format, and the sum does not magnify these errors by more than two..
- **C138 Accuracy and round trip of pixel codes in IEEE arithmetic** (proved). The rounded exponent, offset, slope and joint are bounded. Powers depend on the exponent with a factor of at most six for bases from 0.003, the curve stretches by at most 14 there, and x^2.4 by at most 2.4. The threshold of the decoder is the exact one, as 0.04045 times a greatest code up to 255 is never near a half. Codes above it are decoded clearly above the joint. Codes below it that are encoded with the power change by at most 0.26 steps. Everything together stays below one step after rounding..
- **C139 The streaming resampler with infinities and NaN** (proved). Rounding is monotone and keeps minus one, zero and the halves, so the offset stays in its range in all three branches. The calls in a row are given in closed form, and sums with one term that is infinite or NaN are so themselves. An offset that is NaN or positive infinite cannot be converted to an index, and a negative infinite one always takes the branch without output..
- **C140 The block resampler with infinities and NaN** (proved). The position differs by at most a half from the nearest integer, so all arguments of the filter are within TAPS after both conversions, and the spline can index its tables. An invariant of the outer loop describes the array. Sums with one term that is infinite or NaN are so themselves. A product with an infinite or NaN ratio is never finite, and its conversion to int is undefined..
- **C141 Interpolation, clamping and other helpers in IEEE arithmetic** (proved). Rounding errors of the four operations are added up. Rounding is monotone and keeps representable numbers, so pi times a number that is not zero is not zero and a quotient not above one stays so. The numbers that lerp changes are computed by the kernel..
- **C142 The window functions in IEEE arithmetic** (proved). The results of UnitCircle are those without limits of the exponent (C134); they are zero or at least 2^-31 in magnitude, and at most one because one plus a negative number is rounded monotonically. So no operation of the windows over- or underflows, and the bounds of C83 apply. The overflow in i0 is computed by the kernel..
- **C143 The Kaiser window in IEEE arithmetic** (proved). The factors of the series carry a relative error and a remainder of at most 1555200 half units of the smallest number, so the terms are those of C83 up to a remainder far below the square of a unit. A crude growth bound shows that the compensated sum stays finite; it is then the sum without limits of the exponent (C99), and the loop ends where that one has no effect any more. The radicand, its root and the arguments are zero or of ordinary size, because one less a number of the format is a multiple of half a unit..
<!-- /props -->

## Findings: where the code does not do what one would expect

- **F1 MovMax on floats** (`movext.hh:65`). The initial value is `numeric_limits<T>::min()`, for floats the smallest
  *positive* number. The stream `2^-126, -1` with a window of two yields `-1`, not the maximum.
  Proved: `C05_movmax_float_wrong`; the general reason is `C05_init_collision`. `C05_movext` covers streams that avoid the
  initial value.
- **F2 MovExt and NaN** (`movext.hh:26-43`). A value with `x != x` is never dispensed; three inputs suffice to fail an
  assertion. Proved: `C06_nan_asserts`. The `EQUAL` template argument is never used by the class.
- **F3 Schmitt trigger needs low <= high** (`trigger.hh`). The constructor does not check it. Proved:
  `C16_schmitt_needs_order`.
- **F4 quick_select with negative k** (`quick.hh:117`). The assertion lets a negative `k` pass; the array is read in front of
  its first cell. Proved: `C12_negative_k`.
- **F5 repeated median and NaN** (`repeated_median.hh:26-28`). Abscissae with `x != x` make the inner loop write `SIZE` values into
  `inner_[SIZE-1]`. Proved: `C28_nan_bounds`. Theil-Sen is safe (its loops check the capacity).
- **F6 repeated median outliers**. For odd `n` the upper medians tolerate `(n-1)/2 - 1` outliers only; one among three points
  already breaks the line. Proved: `C28_sharp`.
- **F7 ReadWAV hides rejection** (`wav.hh:48-128`). If a header check fails the constructor just returns; `good()` stays
  true and `read`, `skip`, `channels` … look at members that were never set. Proved: `C24_rejection_invisible`.
- **F8 ReadWAV on short files** (`wav.hh:50-51`). A file that ends within a chunk name makes `cmp4` compare characters that were
  never written. Proved: `C24_truncated_uninit`.
- **F9 ReadWAV with zero channels** (`wav.hh:107`). A header with zero channels, block align and byte rate passes all checks and
  the frame count is a division by zero. Proved: `C24_zero_channels`. Likewise `rate * bytes * channels` can overflow
  (`C24_overflow`).
- **F10 signed 16 bit header fields** (`wav.hh:25-26`). `readLE(2)` sign-extends header fields; files whose frames have 32768 bytes
  or more are written but not accepted. Proved: `C24_signed_fields`.
- **F11 Netpbm comments** (`netpbm.hh:65-67`). A comment is recognised only directly behind the newline that follows a number; after an
  empty line or a blank it makes the constructor give up, invisibly for the caller. Proved: `C25_comment_position`,
  `C25_rejection_invisible`; digit strings may overflow `int` (`C25_overflow`).
- **F12 Netpbm with maxval above 255** (`netpbm.hh:148`). Codes are written (and read) as one byte whatever the maximal value, so they
  are truncated. Proved: `C26_wide_truncated`.
- **F13 sRGB joint** (`netpbm.hh:130`). The two branches of `srgb` do not meet: the curve starts 2.96e-8 below the line. Encoding is
  monotone nevertheless for maximal values up to 255 (`C26_monotone`).
- **F14 FDZP with odd INPUT** (`fdzp.hh:30-33`). The loops start at `(INPUT+1)/2+1`, which for odd `INPUT` skips the first bin of negative frequency: it
  stays among the positive ones. A real input then has a complex output (`C35_odd_input`: 3 to 4 samples, `1,0,0` gives `i/3` instead of `1/3`).
- **F15 FDZP with OUTPUT < 3/2 INPUT** (`fdzp.hh:28-33`). The copy of the middle bin lands on a bin that has not been moved yet and the zeroing loop
  clears copied bins (`C35_overlap`: 4 to 5 samples, one whole component of the signal is lost and the output is zero). These two
  defects are all: `FDZP.C73_sizes` says for which sizes the class is right.
- **F16 unconfigured normaliser** (`normalize.hh:20-33`). Before `samples(s)` with `s >= 2` the weight of the average is one, so a first input of
  zero divides zero by zero. `NormalizeSine.C53_default_divides_by_zero` gives the witnesses (no configuration, and `samples(1)`).
- **F17 splines far away** (`spline.hh:41,129`). The index is `int k = tx`, which is undefined once the position leaves the range of `int`:
  an argument `2^31` knot distances away (`NaturalSpline.C58_far`), also infinite or NaN arguments. The clamping comes after the conversion.
- **F18 Hermite spline with two knots** (`spline.hh:86-94,117-125`). Every evaluation with `n = 2` reads outside of both arrays
  (`HermiteSpline.C59_two_knots`); nothing states that three are needed. Further `eval(Y, x, n, x0)` with a literal integer `x0` selects the
  overload `eval(Y, t, k, n)` (not modelled: overload resolution).
- **F19 Coeffs with zero sum** (`coeffs.hh`). `normalize` divides by the sum of the coefficients: a table with sum zero, as of a Hilbert or
  differentiating filter, becomes infinite (`Coeffs.C65_zero_sum`).
- **F20 windows of one sample** (`window.hh`). For `N = 1` the Hann, Hamming, Blackman, Gauss and Kaiser windows divide zero by zero, giving NaN instead
  of one (`Win.C62_single`); Lanczos handles it.
- **F21 LowPass2/HighPass2 with numerator zero** (`filter.hh:38-40,71-73`). The factor cancels in exact arithmetic, but it is zero here: NaN beside
  the centre instead of zero (`Fir.C64_zero_cutoff`).
- **F22 UnitCircle for large N** (`unit_circle.hh:59-67`). `8*n` overflows `int` from `N = 2^28` on (`UnitCircle.C36_overflow`).
- **F23 Hilbert and CDC with one tap** (`hilbert.hh:16`, `cdc.hh:17`). `TAPS = 1` passes the static assertion, but every call reads past the arrays of
  zero elements (`Hilbert.C55_one_tap`, `CDC.C54_one_tap`).
- **F24 Resampler2 with diff >= rate** (`resampler.hh:94-98`). The first call never returns and writes past the end of every array (`Resampler2.C60_forever`). The caller
  has to provide room for `rate/(rate-diff)` outputs, rounded up; the interface does not say so.
- **F25 window of the resamplers is off centre** (`resampler.hh:28-30,68-70`). The ideal filter is centred at `OVER*(TAPS-1)/2`, the window at `(TAPS*OVER-1)/2`. For `OVER >= 2` the taps
  are not symmetric, so the phase is not linear (`Resampler2.C60_asymmetric`).
- **F26 Resampler with diff = -rate** (`resampler.hh:37`). It divides by zero (`Resampler.C61_division`, in IEEE arithmetic `Resampler.Machine.C140_division`); with a difference near it the position does not fit
  an `int`. The loop `i < samples - TAPS` leaves out the last position that would have enough samples.
- **F27 MOREBITS in atan_approx** (`atan2.hh:39-48`). The correction 6.1e-17 is the part of π/2 that double precision cannot hold; the constants here have
  more digits, so in exact (or `long double`) arithmetic it is an error. The bound of `Atan.C37_atan` includes it.
- **F28 ldexp and exp10 for |n| >= 256** (`exp.hh:20`). `1 << a8` is shifted by 32 or more bits (`Exp.C38_ldexp_shift`), so `exp10` is undefined from
  |x| = 77 on and `idecibel` from 770 dB on, while double precision reaches to 10^308 (`Exp.C38_exp10_shift`). For |n| from 248 to 255 the shift sets the
  sign bit, which the squaring removes again.
- **F29 decibel(0)** (`decibel.hh:29-35`). It is about -17390 dB instead of minus infinity, no level is lower (`Decibel.C39_finite`).
- **F30 EMACascade of more than 16 stages** (`ema.hh:66`). The correction of the cutoff silently becomes one, though the exact factor is below 0.21 (`Const.C40_cascade_limit`).
- **F31 CORDIC near the origin** (`cordic.hh:44-68`). Only one bit is kept below the point, so short vectors lose their direction: the unit vector along the real axis comes out ten degrees
  below it, other short ones up to twenty degrees off, and the origin yields a hundred degrees rather than zero (`Cordic.C41_short_vectors`, `Cordic.C41_char`). The test of the project walks
  the circle of largest radius only. Besides, `x << 1` of a negative operand is undefined in C++17, the standard the Makefile asks for, and plain `char` is unsigned on some targets; the model
  has a signed type and shifts as C++20 defines them.
- **F32 SMA3 drifts too** (`sma.hh:73-79`). The README says that the Kahan summation reduces drift significantly. The bound is indeed better by about NUM/8 (`SMAError.C71_sma3` against `C71_sma2`),
  but the error still accumulates over the whole history: blocks of NUM + 2 inputs, each of which leaves only zeros in the window, move the sum by one unit each time, up to a sixth of the largest
  input (`SMADrift.C71_sma3_drift`). Only SMA1 and SMA4 forget their errors (`SMADrift.C71_binary`).
- **F33 cutoff of a cascade** (`ema.hh:79-82`). The correction multiplies the bin by up to 4.75 and nothing limits it to half of the rate. For sixteen stages `cutoff(21, 100)` asks for a
  whole turn: the weight becomes zero and the cascade answers zero for ever (`EMACascade.C72_stuck`). Within the limit it does what it should (`EMACascade.C72_half_power`).
- **F34 EMA in floating point** (`ema.hh:38`, `utils.hh:19-23`). `(1 - x) * a + x * b` rounds four times. An average over `2^k` samples gets stuck up to `2/3 * 2^(k-p)` of its value away from a constant input
  (`EMA.C74_dead_band`, e.g. `float` and 4096 samples: at 12582912 it ignores 12584960), and it does not keep a constant: an average of 8388609 only is 8388608 (`EMA.C74_outside`). The form
  `a + x * (b - a)` would keep it. The error never grows beyond about `3u/alpha` (`EMA.C74_ema`).

- **F35 low frequencies in single precision** (`ema.hh:21-22`, `biquad.hh:25-104`). The designs start from `cos`, which is one in `float` for frequencies below about 1/26800 of the rate. Then the
  weight of `EMA::cutoff` is zero and the average keeps its first value for ever (`EMA.C75_stuck`), the lowpass is silent (`Biquad.C75_silent`), and the poles may leave the unit circle:
  `highpass(1, 192000, 1)` is unstable (`Biquad.C75_unstable`). `1 - cos` from the sine of half the angle would avoid the first two. From `1 - |cos| > 260u` on all is well (`Biquad.C75_stable`).

- **F36 intercept far from the origin** (`repeated_median.hh:36`). The first repeated median estimator computes the intercepts as `(x[j]*y[i] - x[i]*y[j]) / (x[j] - x[i])`. The products are
  rounded and nearly cancel if the abscissae are far from the origin compared to their gaps: in `float` three points on the horizontal line `y = 517` at `x = 1048581, 1048582, 1048583` give the
  intercept 576 (`EstimatorError.C76_far`), and the nearer the abscissae come to `2^24` the worse. The second estimator and Theil-Sen take residuals instead and return 517.

- **F37 resolution of decibel** (`decibel.hh:28-31`). Taking ten square roots of a number near one loses ten bits: the 1023 smallest numbers above one have the level zero (`Elementary.C77_flat`), and
  there are no results between -4400u and 8800u except zero (`Elementary.C77_resolution`; u is 2^-24 in `float`, where these are -0.26 and 0.52 thousandths of a decibel). The error of half a
  millidecibel is there at every level (`Elementary.C77_binary`). Taking apart the exponent, or the series of `log1p` near one, would keep all bits.

- **F38 depth of recursion** (`quick.hh:71-84`). The median of five guards against arrays that are in order, but not against all: any `n` different values can be arranged such that every
  pivot is the third largest element of its range (`C80_worst`). Then `quick_sort` calls itself `(n - 30) / 3` times deep, always for the left part first (so the calls are no tail calls), and
  looks at about `n^2 / 6` elements, and so does `quick_select(a, 0, n)`, which is a loop and needs no stack. A million such elements are more than 300000 calls deep. Sorting the shorter part
  first and the longer one in a loop would bound the depth by the logarithm.
- **F39 resolution of the rate difference** (`resampler.hh:38,93`). In `Resampler2` the position is the sum of many rounded steps. A difference of at most a quarter of a unit of rounding
  relative to the rate never has an effect: the position stops at 1/4 at the latest (`C81_never`), and in general the outputs may drift by half a unit for each of them (`C81_places`, `C81_drift`).
  With `float` and a rate of 48000 a difference of 0.0007 never inserts a sample although it should be one every 24 minutes. In `Resampler` the variable `ratio` is a `double` but `rate / (rate + diff)`
  is computed in `TYPE`: differences below half a unit of rounding are ignored (`C81_ignored`), 0.0014 of 48000 with `float`. Converting `rate` before the division would help.
- **F40 negative weights** (`window.hh:60,65`). The coefficients of `Blackman(0.16)` in double precision are rounded such that the first and last weights, zero in theory, are about -1.4e-17
  (`C83_blackman_negative`). Harmless in most uses, but the square root of such a weight is NaN.
- **F41 the sine is not odd at eighths of a turn** (`unit_circle.hh:59-67,72-80`). The comparisons are all `<`, so that an angle of exactly an odd eighth of a turn goes to the polynomial of the
  cosine in one direction and to that of the sine in the other. With `float` and `double` these differ by one unit in the last place (`UnitCircle.C85_octant`); for all other angles the symmetry is exact.
- **F42 filters that are not quite symmetric** (`filter.hh:38-40`). As a consequence the coefficients of `LowPass2` and `HighPass2` are not always symmetric; with a cutoff of 1/4 and an even
  number of taps hardly any pair of them is (`Fir.C86_asymmetric`; evaluating the model in double precision with 40 taps, 19 of 20 pairs differ). The error of each is still below 31 units (`Fir.C86_lowPass2`).
- **F43 normalising nearly cancelling coefficients** (`coeffs.hh`). Besides a sum that is exactly zero (F19) also a sum that is only rounded to zero makes `normalize` divide by zero: `C88_cancels` shows it
  for the weights 1, 2^-60, -1. `C88_normalize` names the condition under which this cannot happen.
- **F44 integrator that stops** (`calculus.hh`). In floating point the running sum loses inputs below half a unit of its last place: `C89_stuck` shows that a sum of 2^p (2^24 for `float`, six minutes at
  48 kHz with input one) never moves again. A property of any plain running sum, recorded because nothing in the header resets or leaks the sum.
- **F45 last knot of the natural spline** (`spline.hh:46-52`). The last datum is not stored; the value at the last knot is the sum of the last piece's coefficients and carries their rounding errors. `C90_last_knot`:
  in `float` the spline through 1 and 2^-30 is zero at the second knot. All other knots are exact, and the Hermite splines are exact at all knots.
- **F46 one bad sample spoils the filter for ever** (`ema.hh`, `blockdc.hh`, `biquad.hh`, `calculus.hh`, `sma.hh:46-81`). After one infinite or NaN sample, or one overflow, the recursive filters and the moving
  averages with a running sum (SMA2, SMA3) answer with infinities and NaN for ever (C95); the latter although the sample left their window. SMA1 and SMA4 and the filters without feedback recover as soon as it has
  left the window (C96). None of these classes has a `reset`: they have to be constructed anew.
- **F47 filters that never come to rest** (`blockdc.hh:25-30`, `ema.hh:36-39`). Behind the end of a signal the outputs decay to a subnormal number of up to s times the smallest one and stay there for ever
  (`C97_blockdc_samples`, `C97_ema_samples`, from s = 3 on). The value itself is harmless, but every later operation works on subnormal numbers, which is slow on many processors unless they are told to flush them to
  zero. Nothing in the headers does so.
- **F48 averages that overflow** (`sma.hh:39-42,90-95`). The moving averages divide after summing, so two equal samples of 2^127 have the average infinity in single precision, although the average itself is
  representable. `C98_overflow`; `C98_sma1` and `C98_sma4` give the range in which that cannot happen.
- **F49 an adaptive filter does not survive tiny inputs** (`lms.hh:35-41, 70-76`). The power is compared with zero, but a power below 2^-128 has no reciprocal in single precision. One call with the input 2^-70
  makes all coefficients infinite or NaN, and there is no way back except a new filter: a member that resets the coefficients is missing. `C100_tiny`.
- **F50 more points make the resamplers worse** (`resampler.hh:45-48,88-92`, `spline.hh:43-46`). At a negative offset the oldest sample is in front of the first point of the filter. The spline continues its first
  piece there, a cubic that is made for the distance of two points, over up to `OVER / 2` of them. So the weight of this sample grows with `OVER`, while the error of all other weights shrinks with its square.
  With 33 taps, the cutoff frequency at 45% of the rate and the parameter 2 the weight at the offset -1/2 is 0.0012 for 16 points, 0.0073 for 128 and 0.056 for 1024, where the filter itself is 0.0002 (computed, not
  proved). Proved is the case of five taps, a quarter of the rate and no window: there the weight is below `1/4 - OVER * 3/800` (`C106_oldest`), and a single sample of one gives an output below -3/2 (`C106_click`),
  although the filter is nowhere above 1/2. A weight of zero in front of the first point, or points from -1/2 on, would be enough.
- **F51 gain control that is lost** (`amd.hh:32-39`). The limits recover the level from infinity but not from NaN. As long as `agc` has not been called the attack is zero, and zero times an infinite size is NaN:
  one sample of 2^64 or more (its square overflows in single precision) makes all later outputs NaN (`C109_amd_hold`, `C109_amd_large`). With a positive attack the same sample is forgotten at once (`C109_amd`).
- **F52 normaliser and silence** (`normalize.hh:28-33`). Before `samples(s)` with `s >= 3` the mean square becomes exactly zero in silence and the output is NaN (`C109_normalize_short`); from three samples on it
  never gets there (`C109_normalize`). A finite sample whose square overflows makes the mean square infinite, and the output is zero for ever (`C109_normalize_mute`).
- **F53 half the range of complex numbers** (`complex.hh:110-122,130-140`). `abs` and the divisions form the sum of squares first. In single precision a number with a component of 2^64 (1.8e19) or more has an
  infinite modulus and divided by itself gives NaN (`C111_large`); one with both components below 2^-75 (2.6e-23) has the modulus zero, and dividing by it gives infinities or NaN (`C111_small`). Scaling as in
  `hypot` and Smith's division would avoid both.
- **F54 NaN among the samples of a robust fit** (`quick.hh:21-69`, `repeated_median.hh`, `theil_sen.hh`). A NaN is less than nothing and greater than nothing. In small arrays it is an obstacle that no element
  passes (`C113_runs`), in large ones a NaN in the middle is taken as the pivot and nothing is sorted at all (`C113_middle`). So one missing sample marked by NaN can make the slope NaN, and together with one
  outlier it can make the slope of the repeated median arbitrary, although that should tolerate three bad samples of seven (`C113_repeated`, `C113_theil`). Comparing such that NaN is greater than everything would be enough.

- **F55 The radix 8 butterfly overflows early** (`fft.hh:375-392`). `fiddle` adds the parts of a difference and only then `rsqrt2` scales by `1/√2`, so the intermediate value can be larger by `√2` than the result. For
  `2^127 (1 + i)` at position one of eight all exact bins fit into `float`, but half of the computed bins are infinite or NaN (`C114_overflow`). Within an eighth or so of the range this cannot happen (`C114_range`).

- **F56 Frequency demodulators in silence and at the ends of the range** (`fmd.hh:59-64,82-87,105-113,131-140`). One zero sample makes `FMD2` (next output), `FMD4` (this output) and `FMD5` (next output) NaN, because
  they divide by its norm, also if the carrier only starts late; unlike in the filters the NaN is gone one or two samples later (`C115_fmd2`, `C115_fmd4`, `C115_fmd5`, `C115_recovery`). The same happens with every sample below
  `2^-76` in `float`, where the norm underflows, while `FMD3` silently outputs the angle of zero there (`C115_weak`). From `2^64` on the products overflow, and a tone gives NaN from all but `FMD1` (`C115_strong`).
  `FMD1`, which needs no product of samples, is the only one that works over the whole range (`C115_fmd1`).
- **F57 atan2 with special values and where the quotient underflows** (`atan2.hh:57-71`). The half plane is decided by the sign of the computed phase, which is lost if `y / x` becomes zero: for negative `y` and `x` with a
  quotient of at most half the smallest number, and for `x = -∞` with finite negative `y`, the result is `+π` instead of `-π` (`C120_lost`, `C120_infinite`). Compared to `std::atan2`: two infinities give NaN instead of `±π/4` or
  `±3π/4` (`C120_infinite`), `atan2(±0, -0)` is `±0` instead of `±π` (`C120_zero`), `atan2(NaN, 0)` is `±π/2` and `atan2(±0, NaN)` is `±π` instead of NaN (`C120_nan`), and `atan(-0)` is `+0`, because the kernel adds `+0` to it
  (`C120_minus_zero`).
- **F58 exp10 near the ends of the range** (`exp.hh:19-25`, `exp.hh:43-49`). The power of two is calculated before it is multiplied, and the reciprocal of an infinite one is zero. So subnormal results are mostly replaced by zero and
  the largest ones by infinity: in `float` `exp10(-40)` is 0 and `exp10(38.5)` is infinite (`C121_lost`). `ldexp(0, n)` is NaN for `n` of at least 128 (`C121_ldexp`). `exp10` of an infinity or NaN is undefined
  (`C121_exp10_special`).
- **F59 decibel of infinity** (`decibel.hh:31`). It is NaN, as `∞ - 1` is divided by `∞ + 1` (`C122_special`).
- **F60 regression over small steps** (`regression.hh:44-49`). In single precision the squares of places that are less than about `2^-75` apart vanish, and the slope is infinite or NaN though it would be a number of the
  type; a flat line crosses zero at infinity, a line of zeros at NaN (`C126_limits`).
- **F61 one bad datum ruins a natural spline** (`spline.hh:24-36`). The tridiagonal system is solved for all knots at once, so one infinite or NaN datum makes the spline infinite or NaN at every
  position (`C128_ruined`), and so does one large finite datum: `2 * Y[i]` overflows with `0, 2^127, 0` in single precision, and the value even at the first knot, where the datum is zero, is NaN (`C128_limits`). Five binary digits
  of reserve are enough (`C128_range`). The Hermite splines keep the damage to the neighbourhood (`C128_local`, `C128_places`).
- **F62 an oscillator does not recover from a bad frequency** (`phasor.hh:31-47`). `omega()` or `freq()` with an infinity or a NaN gives a phasor of NaN, and after a single call the running phasor is NaN too. Setting a
  proper frequency afterwards does not help: all outputs stay NaN until `reset()` (`C133_stuck`).
- **F63 NaN in samples and pixels** (`wav.hh:263-264`, `netpbm.hh:129-131`). `std::max(v, lo)` and `std::min(v, hi)` give back `v` if it is NaN, so clamping does not stop it, and the conversion of a NaN to `int` is
  undefined. Infinities are clamped as one expects. Writing `std::max(lo, v)` instead would turn NaN into `lo`. See C135, C136.
- **F64 streaming resampler and rate differences that are not numbers** (`resampler.hh:81-98`). The offset is the sum of all differences given so far, and nothing ever resets it. A single difference that is NaN
  makes it NaN for good, and every later call converts a NaN to `int` (`C139_nan`). A negative infinite one silences the resampler for good (`C139_never`), a positive infinite one is undefined at once
  (`C139_infinite`). Infinities and NaN in the samples do no lasting harm: they are gone after `TAPS` calls (`C139_recovers`).
- **F65 interpolation between equal numbers** (`utils.hh:20-23`, `ema.hh:38`). `lerp(a, a, x)` is not always `a`: in single precision `lerp(3, 3, 0.1)` is less than three and `lerp(13, 13, 0.2)` is more than 13
  (`C141_constant`). An exponential moving average that has reached the constant it is fed with leaves it again, by a unit of rounding.
- **F66 sinc of large numbers** (`utils.hh:37-41`). If `Pi*x` overflows, as it does for finite numbers from 2^emax/pi on, `sin` gets an infinity and the result is NaN instead of almost zero (`C141_sinc_far`).
- **F67 Kaiser with a large parameter** (`window.hh:93-116`). Where the Bessel function exceeds the range of `TYPE` the compensated sum becomes infinity less infinity, and all weights are NaN, although
  the quotient is between zero and one: in single precision from a parameter below 40 on (`C142_kaiser_nan`). The comment promises convergence up to 3 pi only.

## What is modelled

Every definition in `Verif/Model` cites the lines it stands for. Per header (exact: over a ring, field, ordered field, the reals or the complex numbers; rounded: also in
binary floating point; checked: machine integers with overflow as a fault):

| header | modelled | left out |
|---|---|---|
| amd.hh | all (exact, rounded and with special values) | |
| atan2.hh | all (exact, rounded, IEEE with special values) | – |
| bip_buffer.hh | all | |
| biquad.hh | all (exact and rounded) | |
| blockdc.hh | all (exact; filter also rounded) | |
| calculus.hh | all (exact and rounded) | |
| cdc.hh | all (exact, rounded and IEEE; the IEEE one with the tables of the rounded constructor); `static_assert` as hypothesis | |
| coeffs.hh | all (exact and rounded) | conversion operator |
| complex.hh | all (exact and rounded, `norm`, `abs` and division also with special values) | |
| const.hh | all (exact digits; rounded for FFT) | |
| cordic.hh | all (checked) | |
| decibel.hh | all (exact, rounded and with special values) | |
| delay.hh | all | |
| deque.hh | all | |
| ema.hh | all (exact and rounded) | |
| exp.hh | all (exact, rounded, with special values, checked shifts) | |
| fdzp.hh | all (exact and rounded) | |
| fft.hh | all; the 2·11 odd radix specialisations by their index tables, `Dit` as one recursion (exact, rounded and with special values) | |
| filter.hh | all (exact and rounded) | the function `sin` of the C library is a parameter in the rounded version |
| fmd.hh | all (exact, rounded and with special values) | |
| hilbert.hh | all (exact, rounded and IEEE; the IEEE one with the tables of the rounded constructor) | |
| kahan.hh | all (exact and rounded) | copy constructor, optimisation attributes |
| lms.hh | all (exact, rounded) | conversion operators |
| movext.hh | all | |
| netpbm.hh | all (streams as byte lists with the failure flags; `srgb` and `linear` exact and IEEE) | accessors |
| normalize.hh | all (exact, rounded and with special values) | |
| pcm.hh, pel.hh | | pure interfaces |
| phasor.hh | all (exact, rounded and IEEE, there with the parts of the frequency given) | |
| quick.hh | all (also with special values) | |
| regression.hh | all (exact and rounded, and with infinities and NaN) | |
| repeated_median.hh | all (exact, rounded) | |
| resampler.hh | all (exact and rounded; the calls also in IEEE arithmetic) | |
| sma.hh | all (exact, SMA2 checked, all rounded) | |
| spline.hh | all (exact, rounded and with special values) | |
| stack.hh | all | |
| swa.hh | all (for any operation, so also rounded) | |
| theil_sen.hh | all (exact, rounded) | |
| trigger.hh | all | |
| unit_circle.hh | all (exact, rounded and IEEE) | |
| utils.hh | all (exact; `lerp`, `clamp`, `signum`, `sinc` and `delta` also in IEEE arithmetic) | |
| wav.hh | all (streams as byte lists with the failure flags; samples exact, rounded and IEEE) | accessors |
| window.hh | all (exact and rounded; Hann, Hamming, Lanczos, Blackman and Kaiser also with infinities and NaN) | `exp` and `pow` of the C library (Gauss) are parameters in the rounded version; the error of Kaiser with infinities and NaN is bounded for parameters up to three, zero or at least 2^-40 |

Accessors that just return a member (`xint()`, `rate()`, …) are the fields of the state.

## Not modelled

Compiler behaviour (`-ffast-math`, optimisation attributes), stream buffering and file system behaviour, performance other
than the amortised operation count of C06 and the depth and passes of C80, and the pure interfaces `pcm.hh`/`pel.hh`, which have no behaviour.
