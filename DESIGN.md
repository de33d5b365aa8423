# Formal model of google/multichannel-audio-tools in Lean 4

## Layout

* `properties.jsonl` – the English properties C01, C02, ...
* `lean/Verif/Model/*.lean` – the model: transcriptions of the C/C++ functions; every
  definition cites file and lines in `/repo`.
* `lean/Verif/Spec/*.lean` – small specifications written independently of the model
  (queues, convolution sums, difference equations, ...).
* `lean/Verif/Proof/*.lean` – helper lemmas and invariants.
* `lean/Verif/Theorems/*.lean` – the property theorems, each next to a concrete
  instance (`example`) that meets its hypotheses. Findings (a property that the code does not
  have) are stated here too, as theorems that refute the full statement on a
  concrete witness, beside a `_partial` theorem for the part that holds.
* `MANIFEST.json` – property -> theorems. `seeded/LOG.jsonl` – seeded-bug log.

## Trusted base

* Lean 4.33.0's kernel. Theorems depend at most on the three standard axioms
  `propext`, `Classical.choice`, `Quot.sound` (checked with `#print axioms` by
  the script `tools/axioms.sh`, which prints the axioms of every theorem named in `MANIFEST.json`). No own axioms, no `sorry`, no `native_decide`/`bv_decide`.
* That the Lean definitions in `Verif/Model` transcribe the cited lines. This is by reading; the
  code is not built or executed here.
* Modelling conventions
  * *Numbers.* Sample values live in an arbitrary commutative ring / (ordered) field / ℝ / ℂ,
    whichever the property needs. Floating-point rounding, NaN and infinities are not modelled
    except where a module says so. Where the C integer width matters, the model
    uses `BitVec`/`UInt` arithmetic or makes overflow a distinct outcome; elsewhere
    sizes are unbounded `Nat`/`Int` and the absence of overflow is an explicit hypothesis or
    remark.
  * *Undefined behaviour and CHECK failures* are distinct outcomes (`none` / an error
    constructor), never silently totalised, wherever indices or pointers are involved.
  * *Memory.* Arrays are lists or functions; uninitialised memory is modelled as arbitrary values
    supplied by an adversary parameter.
  * *Eigen, absl, std* calls are modelled by their documented semantics. The external Kiss FFT
    kernels and Ooura's `rdft` are modelled by the transform they document;
    `kiss_fft_next_fast_size` is a parameter `next` of which only `n ≤ next n` is assumed.
  * *`DCHECK`s* are compiled out of optimised builds; they are modelled as preconditions only where
    a module says so.

## Plan per property

| id | modelled | proof method |
|----|----------|--------------|
| C01 | `CircularBuffer` with indices, flags and storage; UB/CHECK outcome | refinement to a list queue by invariant over all operation histories |
| C02 | same | the full claim is false: refutation on a witness; partial theorem for what remains true |
| C03 | `FixedDelayLine` incl. the chunked in-place shift and uninitialised growth | invariant on the buffer prefix; induction over blocks |
| C04 | `serialize.h` bytes as `BitVec 8` | bit-vector algebra for all values |
| C05 | byte-level WAV writer and reader state machine | symbolic execution of the reader on the writer's output, induction over read requests |
| C06 | reader on arbitrary byte strings, uninitialised reads as adversary values | case analysis; refutations for truncated size field |
| C07 | sample reading loop for all encodings | induction over requests; conversion lemmas |
| C08-C10 | rational factor resampler (C) and QResampler (C++): delayed input, phase, position | invariant relating state to absolute stream position; refinement to the direct formula |
| C11 | continued-fraction loop with remainder bookkeeping over ℚ | convergent invariants, best-approximation theorem |
| C12 | integer helpers on `Int` with 32-bit overflow outcome | arithmetic |
| C13 | iterator `Next` functions | order isomorphism / induction on enumeration |
| C14 | `BatchTopN` with `nth_element`/`sort` as arbitrary correct oracles | invariant: dropped elements never beat kept ones |
| C15 | sample queue and framing loop | invariant on absolute position |
| C16 | overlap-add buffer | invariant; refutation for re-initialising `Flush` |
| C17 | circular buffers + overlap buffer | invariant on position modulo gcd |
| C18 | search loop over ordered field with oracle objective | invariants by induction over iterations |
| C19-C21, C27 | streaming filters over a commutative ring/field | state invariant = spec history; block-split invariance |
| C22 | stage lists, polynomial ratio | ring identities |
| C23 | reflection coefficients, roots over ℂ | Jury conditions ⇔ roots in the disc; BIBO bound |
| C24 | ladder sample update with arbitrary time-varying coefficients over ℝ | energy (in)equality, induction on time; for bounded amplitude, observability of the state from the energy lost at the last stage within `order + 1` samples (`Verif/Proof/LadderBibo.lean`) |
| C25 | step-down recursion and ladder recursion | step-up/step-down lattice induction |
| C26 | smoothing state machine | refutation (swapped assignment), partial theorem for reflection coefficients |
| C28 | bilinear maps and design formulas over ℂ/ℝ | field identities |
| C29 | static gain curves over ℝ | case analysis, monotonicity |
| C30-C31 | parameter/crossfade state machine and block processing | refutations and streaming invariants |
| C32-C34 | envelope recursions | invariants over histories |
| C35 | filterbank tables | index bounds and weights from monotone mel centres |
| C36 | cosine table | orthogonality by trigonometric sums |
| C37, C38 | sampling loops, smoothing | list symmetry, convexity |
| C39, C40 | Bluestein, linear convolution via DFT oracle | finite sums over roots of unity |
| C41 | integer table arithmetic of the fast functions | kernel-checked finite table + interpolation argument |
| C42-C45 | small recursions | induction |
| C46 | multi-band crossover: phase-corrected design, the filterbank object, all its calls | phase alignment invariant over the correction loop; invariant of the object over all call histories |
| C47, C48, C50 | transfer-function algebra | field identities over ℂ, structural induction |
| C49 | complex arithmetic over ℝ pairs | algebra in ℂ |
| C51 | `ArithmeticSequence` with its clamped last element | arithmetic, refutation |
| C52 | `TopNPeaks` on top of C14 | list lemmas, refutation of the periodic variant |
| C53 | WAV writer with a failing sink | case analysis on the sink |
| C54 | resampler configuration arithmetic | arithmetic, refutations |
| C55 | spectrogram and inverse spectrogram composed | C15, C16 and the window condition |
| C56 | Nelder-Mead object over its whole API | invariant, refutations |
| C57, C58 | shelf, peaking and allpass designs | trigonometric identities on the unit circle |
| C59 | Butterworth prototype, lowpass/highpass designs of every order | product over the roots of unity |
| C60, C61 | pole/zero frequency maps, `Eval` | polynomial products over ℂ, refutations |
| C62 | window Fourier transforms | interval integrals, error bounds near the removable singularities; trapezoidal rule on cells where the window is monotone, telescoping variation |
| C63 | MFCC pipeline | composition of C35, C36 |
| C64-C68 | `signal_vector_util.h` | list induction, trigonometry |
| C69, C70 | FFT resampling and Gaussian convolution | finite Fourier sums |
| C71 | multi-band compressor composed of C46 and C31 | composition lemma over per-band behaviours |
| C72 | quadratic roots, poles, peak gain, decay time of a biquad over the reals | squared gain as a ratio of quadratics in cos ω; a quadratic nonpositive on [-1,1] with a zero; two-pole recursion bound |
| C73 | grid search and bisection | invariant "distance to the peak at most one step" |
| C74 | decibel conversions | log and exp identities |
| C75 | pole/zero tables, dropping of roots, bilinear design | products over roots; numeric bounds for the normalisations |
| C76 | streaming loudness meter composed of C75, cascades and an averaging biquad | composition of stream lemmas; K weighting inverted to construct NaN inputs |
| C77 | loudness-driven two-way compressor composed of C76, C32, C29, C03 | invariant over calls (frames since Init and since Reset); NaN modelled as an absorbing state of the envelope |
| C78 | auditory cascade filterbank: parameter checks, pole frequencies, stage loop with `Simplify`, peak search, selection | induction over the stages with the gain normalised at the peak found; bounds on the resonator response (it is bounded away from zero and infinity between 0 and Nyquist) give existence of every peak; product bounds discharge the `Simplify` premise for few stages |
| C79 | stage loop, decimators and difference filters of `ProcessBlock`, `Reset` | the bank as a list of cells, each a state machine with an append law; difference equation per microphone and stage |
| C80 | parametric equalizer parameters, `GetCoefficients` (append with `Simplify`), `ClearAllGains`, gain magnitudes | reachable parameter objects by induction; fold of the append loop with stages of degree two; band facts from C28/C57; cascades with equal numerator and denominator pass every signal |
| C81 | `SetParametricEqualizerGainsToMatchMagnitudeResponse` over real matrices | the solution of the normal equations is the unique minimiser of the regularised cost; induction over the iterations |
| C82 | `FitParametricEqualizer` on top of the Nelder-Mead model (C18) | the objective depends on the point alone; minimisation theorem of C18; clamped first simplex for the violation |
| C83 | `Zpk` of portable/iir_design.c: evaluation, bilinear transform, analog transformations, over arrays whose unused entries are arbitrary | the filter as gain, list of zeros and list of poles; products over lists; root maps of quadratics |
| C84 | `RootsSort`/`ZpkSort` with an arbitrary `qsort` satisfying the C standard, `ZpkToBiquads` | specification of sorted conjugate pairs; the loop over pairs multiplies to the system function |
| C85 | `ButterworthPrototype`, the four `Design*` wrappers, array bound as UB outcome | power of the prototype by the product over roots of -1; transformations from C83; clearness of the digital roots by trigonometric bounds |
| C86 | `Chebyshev1Prototype`, `Chebyshev2Prototype` and their eight designs | Chebyshev polynomial over the complex numbers as a product over its roots; ripple from `|T_n| <= 1` on [-1, 1] |
| C87 | portable/butterworth.c and `BiquadFilterProcessOneSample` | one or two sections with the response of the factored analog prototype (C85 specification); C21 for the difference equation |
| C88 | elliptic_functions.cc, portable/elliptic_fun.c | Gauss/Landen transformation of the integral (real: substitution and derivatives; complex: along the curve sin(tφ) with continuity of the square root branch); convergence of the moduli; asymptotic expansion near 1 |
| C89 | the same | the ascending steps undo the descending ones for every complex number; real accuracy by C88 |
| C90 | both orders, both ranges, the C variant; the Kaiser window on top | power series with geometric tail; asymptotic range from the integral representation with Beta-type moments and an explicit remainder |
| C91 | the deprecated resampler with Eigen's head/tail/segment/dot and its output vector | loops equal those of the QResampler model step by step; then C08-C10 |
| C92 | its kernel, both constructors, the documented parameter conversion | Bessel accuracy C90, sinc bound, product of errors; sum over at most 2r+1 taps |
| C93 | `WriteWavToString` for both sample types on the generic writer; floats by value (IEEE 754 with infinities and NaN) | strong induction on the number of samples over the 512-sample blocks; truncation commutes with clamping; round trip from C05 |
| C94 | `ReadWavFile`, `Read16BitWavFile`, in-place conversion, on the generic reader | C06/C07 for the header and samples, conversion proved per float value |
| C95 | `ChebyshevType1FilterDesign`, `ChebyshevType2FilterDesign` (all four designs) and the band designs of `ButterworthFilterDesign` | margin of every root from the real axis (`Regular`), kept by the band transforms; response through the bilinear transform; ripple from `|T_n| <= 1` on [-1, 1] |
| C96 | `WindowFunction::ComputeSpectralProperties`, for any transform and any conversion to `float` | index facts of `find_if`, `is_sorted_until`, `max_element`; concavity of the sine for the rectangular window |
| C97 | `EllipticFilterDesign` (constructor, prototype, all four designs), with the elliptic functions a parameter: exact or those of elliptic_functions.cc | Jacobi functions from the integral (addition theorem, complex arguments by A&S 16.21); order-N transformation of sn proved by factoring the elliptic rational function and uniqueness of its differential equation; degree equation; poles as roots of `1 + eps^2 R^2`; then as C95 |
| C98 | `JacobiCD/SN`, `InverseJacobiSN`, `SolveEllipticDegreeEquation`, `EllipticAnalogPrototype` and the four elliptic designs of iir_design.c, with the elliptic functions a parameter: exact or those of elliptic_fun.c | roots shown equal to those of C97; transformations and failures from C83/C85; clearness of the digital roots from lower bounds on the modulus and a quadratic-root estimate (IirDesign12), which also serves the band designs of C85/C86 |
| C99 | `PhasorRotator*` with every operation rounded (`Verif.Model.Rounding`: IEEE 754 binary32/binary64 over the reals, optional fused multiply-add) | relative error of a rounding; invariant on amplitude (reset by the renormalization) and angle |
| C100 | `BiquadFilter::ProcessSample`, `BiquadFilterCascade`, `BiquadFilterProcessOneSample` with every operation rounded | the rounded filter is the exact one with a perturbed input; gain of the state from the poles (Jury criterion); bootstrap bound of the state; induction over the stages |
| C101 | the resamplers, biquad filters and FIR filters over a type with arbitrary operations (`Mac`, `Add`/`Sub`/`Mul` without laws); `QResampler` with its sums split at the end of the delayed input (`Verif.Model.FloatResampler`) | sample steps folded over the stream; `FirFilter`: invariant that the state holds the sums of the outputs to come, in the order of arrival of the inputs; simulation with the free arithmetic |
| C102 | the resamplers with rounded operations; a sum of products evaluated in any order with or without fused multiply-add (`IsDot`) | the index structure is that of the run with the free arithmetic; error of a tree of additions by its depth |
| C103 | `FirFilter` with rounded operations (`Verif.Model.FloatFir`) | the sums of C101 are instances of `IsDot` of depth at most kernel length + 1 |
| C104 | `AutoGainControlProcessSample`, `AutoGainControlGetGain` with every operation rounded and `FastPow` at the level of bits (`Verif.Model.FloatAgc`) | IEEE rounding is odd, monotone and idempotent (`Verif.Proof.Ieee`), so that the estimate cannot get negative; relative error of one step; induction against the average with spread weights; C41 for the power |
| C105 | `AttackReleaseEnvelope` with every operation rounded and with the coefficients of the smoother stored in `float` (`Verif.Model.FloatEnvelope`) | the stored filter still has real poles in (0, 1) and a gain close to 1; the state stays in a slightly widened range, so that the coefficient stays in [0, 4/5]; a rounded step towards a `float` does not pass it (grid argument); invariant over all histories |
| C106 | `ReadWavHeader` on files laid out by the RIFF specification (`Verif/Spec/Riff.lean`) | chunk sequences by induction, reduction to C06; concrete files for odd chunk lengths |
| C107 | `LadderFilter::ProcessSample` with rounded operations, contraction and any evaluation order of the taps, coefficients changing with every sample (`Verif/Model/FloatLadder.lean`); the `float` object with its coefficient smoothing and any history of samples, coefficient changes and resets | the energy argument of C24 with rounding terms; the range of the smoother's state is invariant up to its rounding error (`C107_history`); the difference to the ideal filter (`Verif/Spec/NormalizedLadder.lean`) is the same filter driven by the rounding errors |
| C108 | `Sum`, `ComputeSecondOrderStats`, `RootMeanSquareError`, `ZScoreNormalize`, `SumSquaredMagnitudes`, `RealDotProduct` with rounded operations and contraction (`Verif/Model/FloatVector.lean`) | induction over the container for sums and sums of products; error of the square of the mean against the mean square; evaluation of the rounding function for the counterexample |
| C109 | `ComputePhasorVector`, `ComputeSineWaveVector`, `GenerateSine`, `GenerateSineEigen` with rounded operations and contraction (`Verif/Model/FloatSinusoids.lean`) | error of one complex multiplication (Cauchy-Schwarz), induction over the samples, Lipschitz continuity of the sine for the error of the step |
| C110 | `ForwardSmoothVector`, `BackwardSmoothVector`, `SmoothVector` with rounded operations and contraction (`Verif/Model/FloatSmoothers.lean`) | error of a step against the exact smoother of C64 with inexact input, a bound that the step preserves, composition of the four passes; monotonicity of rounding and exactness of small differences for the range |
| C111 | The header reader again, with the calls of `custom_chunk_fun` and the outcome of `malloc` (Model/WavCallback); the chunks of a file as a list (Spec/WavCallback) | induction over the loop: what was read is a list of complete chunks, followed by at most one incomplete one; unique parsing |
| C112 | `MelFilterbank::Initialize` and `Compute` with rounded operations and a logarithm with a relative error (Model/FloatMel) | error of the mel value, of the quotient of two differences, of the weights (the triangle is 1-Lipschitz, so a bin that changes its channel by rounding does no harm) and of the sums; for the violation, bounds of log 11 to 21 digits and exact evaluation of the five roundings |
| C113 | `ArithmeticSequence` with rounded operations (Model/FloatArithmeticSequence) | error of the tolerance, of the numerator and of the quotient; the floor of the quotient is bracketed; monotone rounding for the two internal checks; negative steps by the symmetry of rounding; the documented argument for the factors 5 and 7 is thereby checked, including the division that the comment ignores |
| C114 | the integer arithmetic of the C resampler (`Make`, `NextOutputSize`, `ProcessSamples`) with every `int` operation checked for overflow and the conversions from `int64_t` and to `size_t` as gcc and clang do them (Model/IntResampler) | refinement of the exact model of C08 by induction over both loops and over the calls; the truncated buffer size is a proved violation. |
| C115 | the biquad, biquad cascade, ladder, two-tap and FIR filters on one memory in which the input and the output may overlap (Model/InPlace) | a frame that is read before it is overwritten has the effect of the list model; induction over the channels, the frames and the stages |
| C116 | `Dct::Initialize` and `Compute` with rounded operations, a cosine of a given absolute accuracy and optional fused multiply-add (Model/FloatMfcc) | error of the angle, of the normalisation and of the entry of the table; error of a dot product |
| C117 | `Mfcc::Initialize` and `Compute` with rounded operations (Model/FloatMfcc) | composition of C112, of the error of the logarithm of a floored value and of C116 |
| C118 | the four size functions of `QResampler` on 32-bit integers, with every sum checked for overflow, 64-bit products and truncating division and conversion (Model/IntQResampler) | equality with the exact functions of C10 when the sizes are representable; the failure of the documented bound otherwise is a proved violation. |
| C119 | the whole-file readers and writer and the resampler's `Make`/`Free` with their calls of `fopen`, `fclose`, `malloc` and `free` as a list of events (Model/Resources); Spec/Resources says what is held after a list of events | case analysis over all paths, for arbitrary results of reading; the double `fclose` and the leaked file are proved violations. |
| C120 | the model of `DynamicRangeControl` (Model/Drc) under histories that contain `Init` (Theorems/DrcReinit) | an invariant over histories that tracks the parameters set last and the pending change; the mixture of old and new parameters after a pending change is a proved violation. |
| C121 | `ComputeFilterbankCentersAndBandwidths` with float constants and rounded double operations (`Verif/Model/FloatAuditory.lean`) | the exact recursion of C78 contracts, so that the errors of the constants and of the roundings do not add up; every step is at least 24 Hz times `step_erbs`; tiny steps are absorbed by rounding (violation) |
| C122 | `RationalApproximation` with every operation on `double` rounded, and the factor of a resampler computed from its rates (`Verif/Model/FloatRational.lean`) | the error of the k-th reciprocal, times the square of the denominator of the k-th remainder of Euclid's algorithm, grows only by rounding and in second order; hence all terms but the last are exact, and the last is right or one less and then followed by 1 |
| C123 | the same model as for C122 | backward error: the computed terms are the exact continued fraction of a number within 45 * 2^-52 of the value (a residual, being the fractional part of a double, is exact; a rounded reciprocal moves the value by at most its relative error); C11's theorem about the end of the loop applies to that number; a tie may be decided differently by the rounded distances |
| C124 | Model/FloatQuadratic.lean: QuadraticInterpolateMax on floats, every operation and the conversion of the index rounded, products and sums with or without contraction | monotonicity of rounding and exactness of integers up to 2^24 for the location; sign analysis of the rounded coefficients for the value not being below the sample; forward error analysis against the exact parabola; longer signals violate the documented bounds |
| C125 | Model/FloatFftUtil.lean: the hard band-pass filters on spectra, and the functions on signals between the two transforms, every operation rounded | the result bin by bin, then monotonicity of rounding and exactness of indices up to 2^24 (bins in the band), relative error of the quotient (bins outside) and of the bin width (signals) |
| C126 | the same file: the size computed by FftPeriodicResample and the recursion of PeriodicGaussianConvolution, every operation rounded; the exponentials are inputs | forward error analysis; induction on the iterations |
| C127 | Model/FloatDurations.lean: the three conversions of a duration to a number of samples, every operation rounded | forward error analysis: three roundings of at most 2^21 stay below half a sample |
| C128 | the three curve functions with every operation rounded (Model/FloatDrcCurves.lean), against the documented curves of Spec/DrcCurves.lean | signs and monotonicity of rounding for the exact claims; the Lipschitz bound of the exact curve and an error budget for the accuracy |
| C129 | the composition of the four curves with derived thresholds and ratios, every operation rounded and one quotient rounded to double first (Model/FloatTwoWay.lean) | C128 for each stage, and Lipschitz bounds of the exact curves in level, threshold and ratio to carry the errors through |

Things that cannot be expressed usefully here: rounding-error bounds of whole pipelines (rounding is
modelled for the components named below only), wall-clock/real-time behaviour, memory allocation behaviour.

## Modelled and not modelled

Modelled (the functions cited in `lean/Verif/Model`): `circular_buffer.h`, `fixed_delay_line.h`,
`batch_top_n.h`, `number_util.*` (both), `nelder_mead_searcher.h`, `attack_release_envelope.*`,
`envelope_detector.*`, `decibels.h`, `hifi/*`, `kiss_fft.*`, `kiss_fft_util.*`,
`loudness/{background_level_detector,streaming_loudness_1771,loudness_1771_two_way_compressor}.*`, `mfcc/*`, `elliptic_functions.*`, `bessel_functions.*`, `resampler_rational_factor.*`, `resampler.h`, `portable/{auto_gain_control,biquad_filter,butterworth,complex,elliptic_fun,fast_fun,iir_design,
phasor_rotator,rational_factor_resampler*,read_wav_file,read_wav_file_generic,serialize,write_wav_file,write_wav_file_generic,write_wav_string}`,
`resampler_q.*`, `signal_vector_util.h`, `signal_eigen_util.h` (three-tap smoother), `signal_generator.*`,
`spectral_processor.*`, `spectrogram/*`, `teager_energy_filter.h`, `window_functions.*`,
`linear_filters/{biquad_filter*,crossover,discretization,
filter_poles_and_zeros,fir_filter,two_tap_fir_filter,ladder_filter*,parametric_equalizer,equalizer_filter_params,perceptual_filter_design}`, `porting.*` (`RealRootsForQuadratic`), `filterbanks/*`.

Not modelled: logging and porting shims, Eigen type helpers (`eigen_types.h`, `types.h`,
`filter_traits.h`), test utilities, and everything that the "Modelled" list does not name. Threads do
not occur in the code. Floating-point rounding is modelled only for C41, the 1/3 check of C38, the
samples of C93 and C94 (exact IEEE values), the conversions to `float` of C96 (any monotone rounding)
and the functions of C99, C100, C102 to C105, C107 to C110, C112, C113, C116, C117 and C121 to C129. C101 holds for every arithmetic, rounded or not, whose
operations are functions of their operands (no contraction that differs between two loops).

## Findings

Behaviour that contradicts the documentation or is plainly unintended. Each is a theorem.

| theorem | what happens |
|---|---|
| `C01_isFull_zero_read_violation` | reading zero entries from a full `CircularBuffer` makes `IsFull` false |
| `C02_overflow_violation` | an overflowing write returns the retained entries rotated |
| `C05_channel_count_wraps_violation` | channel counts above 65535 are written modulo 2^16 |
| `C06_truncated_data_size_violation` | a file cut after `data` is accepted with an uninitialised size |
| `C07_read_after_failure_violation` | reading samples after a failed header divides by zero |
| `C11_tolerance_violation`, `C11_int_min_numerator_violation` | the default tolerance stops too early for large denominators; numerators of magnitude 2^31 |
| `C13_flatIndex_wrap_violation` | `FlatIndex` wraps around far past the end |
| `C16_large_step_violation`, `C16_flush_window_violation` | steps above the frame length leave no gap; `Flush` forgets the synthesis window |
| `C17_hop_violation`, `C17_zero_hop_violation`, `C17_empty_chunk_violation` | hops above the block length abort, hop 0 does not end, an empty chunk erases pending output |
| `C22_simplify_violation`, `C22_asPolynomialRatio_zero_violation` | `Simplify` changes the response of cascades with small coefficients; a zero stage is undefined |
| `C25_zero_reflection_violation` | a zero reflection coefficient is realised with a gain error |
| `C26_*_violation` | coefficient smoothing ends with the wrong tap gains; `Reset` in between keeps the old coefficients |
| `C29_verify_violation` | `VerifyParams` of the two-way compressor accepts invalid parameters |
| `C30_*_violation` | no crossfade, `Reset` loses the parameters and keeps the look-ahead, parameters before `Init` dereference null |
| `C32_detector_reset_violation` | `EnvelopeDetector::Reset` keeps the last output |
| `C33_documented_formula_violation` | the documented formula counts one sample too few |
| `C34_*_violation` | `Init` validates the old parameters; negative times and sensitivities are accepted; sensitivity 1 never accepts noise |
| `C35_*_violation`, `C36_failed_reinitialize_violation`, `C63_short_frame_violation` | out-of-bounds accesses above Nyquist and after a failed re-`Initialize`; zeros for short frames |
| `C37_*_violation`, `C62_set_radius_violation` | overlapping `reverse_copy`, negative quartic window, radius dependence, stale memoized samples |
| `C38_one_third_violation`, `C38_example_violation` | the float nearest 1/3 is rejected; the documented example is wrong |
| `C40_*_violation` | empty input overflows the buffer; documented highpass edges abort |
| `C41_pow_violation` | `FastPow` misses its accuracy for large exponents |
| `C44_symmetric_valley_violation` | a symmetric valley returns its minimum |
| `C46_init_abort_violation` | `Init` aborts for some increasing crossover frequencies |
| `C47_violation` | high-order low-frequency crossovers do not sum flat |
| `C48_violation`, `C60_*_violation`, `C61_eval_violation`, `C50_no_roots_violation` | wrong roots of band maps, signs and gains of pole/zero systems |
| `C49_branch_cut_violation` | `Acos`/`Asin` differ from the standard library on the branch cut |
| `C51_last_element_violation` | for large steps the last element is replaced by a limit half a step away |
| `C52_periodic_violation` | periodic peaks at index 0 compare on the wrong side |
| `C53_lost_samples_violation` | `WriteWavFile` ignores sample write errors |
| `C54_*_violation` | accepted resampler configurations that crash |
| `C56_*_violation` | Nelder-Mead: lowest value not returned, zero tolerance, `SetSimplex` |
| `C58_allpass_violation` | the accepted infimal group delay gives 0/0 |
| `C64_*_violation`, `C66_zero_rate_violation`, `C67_eigen_phase_violation` | vector utilities: empty input, constants, zero rate, phase sign |
| `C69_*_violation`, `C70_documented_sum_violation` | FFT resampling to even sizes, empty outputs; the documented Gaussian sum |
| `C71_reset_violation`, `C71_init_forgets_frequencies_violation` | `Reset` switches the multi-band compressor off; `Init` forgets retuned frequencies |
| `C72_poles_violation` | `GetPoles` merges nearly equal real poles into their mean, so an unstable filter gets a finite decay time |
| `C72_peak_violation` | a maximum and a minimum of the gain close together are merged: peak gain above 3 reported below 3/2 |
| `C72_decay_violation` | `EstimateDecayTime` ignores the factor n+1 of a double pole |
| `C73_identity_violation`, `C73_peak_violation` | cascade peak search: not the lowest frequency; a resonance between grid points is missed (gain 11 reported as less than 2) |
| `C75_low_rate_violation` | at low sampling rates zeros are kept whose poles are dropped: D at 4 kHz and K at 3 kHz are too loud |
| `C76_second_order_violation`, `C76_failed_init_violation` | a permitted second-order averaging filter makes the loudness NaN; a failed `Init` leaves the meter reading past its weights |
| `C77_reset_violation`, `C77_unchecked_curve_violation`, `C77_low_rate_violation`, `C77_nan_violation`, `C77_default_rate_violation`, `C77_failed_init_violation` | `Reset` leaves the look-ahead audio; `Init` accepts curves that abort in `ProcessBlock`; rates up to 400 Hz abort instead of returning false; one NaN locks the gain until `Reset`; the default averaging filter is for 48 kHz whatever the rate; an `Init` that returns false replaces the gains and the curve used by the following blocks |
| `C78_selection_violation`, `C78_sample_rate_violation`, `C78_min_rate_violation`, `C78_second_init_violation`, `C78_no_stages_violation`, `C78_nyquist_violation` | stages with index at or above `max_channels` are shown; `GetSampleRate()` is not the rate given to `Init` when the first channel is a decimated stage; the rate is halved down to exactly `min_sample_rate`; a second `Init` reads beyond the sampling rates; `Init` may leave no stage, then `ProcessBlock` accesses the first; a Nyquist fraction of one aborts |
| `C80_order_violation`, `C80_empty_violation` | bypassing a stage changes the number of stages of the filter (parametric_equalizer.h:57-58 says it does not); `GetCoefficients` of an equalizer without stages reads outside an empty vector |
| `C81_disabled_violation`, `C82_disabled_violation`, `C81_least_squares_violation`, `C81_no_iterations`, `C82_default_bounds_violation` | a disabled stage aborts both fits although its status is documented as ignored; the 1e-4 term makes the fit of small gains far from least squares; `max_iterations = 0` leaves 6 dB gains; default bounds at 48 kHz abort for a filter starting at 22 kHz |
| `C84_stale_violation` | `ZpkToBiquads` reads unused entries of the zeros array when there are fewer zeros than poles |
| `C85_order_violation`, `C86_*_order_violation` | orders above 30 write past the arrays of `Zpk` (the order is not checked) |
| `C85_bandpass_violation`, `C85_bandstop_violation`, `C86_bandpass*_violation`, `C86_bandstop_violation` | band designs of the orders 16 to 30 ignore the failed transformation: they report success with a lowpass of gain `2^order` or a highpass |
| `C85_cutoff_violation` | the documented cutoff 0 gives a filter with a pole on the unit circle and no output |
| `C89_range_violation` | `JacobiAmplitude` of real `u` beyond `K(m)` stays in `[-π/2, π/2]`: `cos` of it is not `cn(u|m)` (at `2K` it returns 0) |
| `C91_eigen_stale_violation`, `C91_short_filter_violation`, `C92_zero_factor_violation`, `C92_migration_violation` | stale samples in the Eigen output; short filter accepted; factor 0 accepted; converted parameters rejected |
| `C93_nan_violation`, `C93_arguments_violation`, `C93_size_violation`, `C94_full_scale_violation` | NaN written as -32768; string writer accepts 0 channels; sizes wrap silently; float sample of 1.0 is undefined behaviour in `ReadWavFile` |
| `C95_bandpass_violation` | The C++ type 1 Chebyshev bandpass of order 1 has power 9/16 instead of 1/2 at its upper edge when the band is wide |
| `C96_radius_violation` | `ComputeSpectralProperties` only looks at 0 to 3 Hz whatever the radius: every rectangular window with radius at most 1/6 aborts the program |
| `C98_order_violation`, `C98_ripple_violation`, `C98_bandpass_violation` | the C elliptic designs write behind the end of an array for orders above 30; do not reject a passband ripple that is not positive or not below the stopband ripple (the roots are NaN); and report success with half of the biquads and a lowpass for bandpass orders 16 to 30 |
| `C101_q_violation` | the last bits of the output of `QResampler` depend on where the stream is cut into blocks: the parts of a filter on the delayed and on the new input are summed separately |
| `C104_warm_up_violation` | time constants of more than `2^24` samples are accepted, but the sum of the warm-up then stops growing: the estimate for constant power 1 ends at a quarter |
| `C105_interpolation_violation`, `C105_detector_violation` | low corner frequencies are accepted, but the coefficients stored as `float` then put a pole at 1: `AttackReleaseEnvelope` with `interpolation_rate_hz = 1` at 44.1 kHz divides by zero in its constructor, and the smoother of `EnvelopeDetector` with `envelope_cutoff_hz = 1` is an unstable integrator |
| `C106_odd_chunk_violation`, `C106_misread_violation` | `ReadWavHeader` does not skip the padding byte after a chunk of odd length: files that follow the RIFF specification are rejected, or read from the wrong place (read_wav_file_generic.c:316-329) |
| `C108_zscore_violation`, `C108_sum_violation` | `ZScoreNormalize` of `{0.1, 0.1, 0.1}` (`double`) yields NaN for every floor of the standard deviation, as the variance is computed as -1.7e-18; `Sum` of `float` elements accumulates in `float`: any `2^24` or more ones sum to `2^24` |
| `C110_identity_violation` | `SmoothVector` with the coefficient 1 (negligible smoothing) turns the `float` signal `{-16777216, 3}` into `{-16777216, 4}`: the state is updated by a rounded difference |
| `C111_truncated_violation`, `C111_stale_violation`, `C111_empty_chunk_violation` | `ReadWavHeaderGeneric` calls `custom_chunk_fun` before looking at the error flag: for a truncated chunk with uninitialised bytes, and at the end of a file without `data` chunk once more with the previous id and a length from uninitialised memory (also passed to `malloc`); where `malloc(0)` is `NULL`, empty chunks are rejected if there is a callback (read_wav_file_generic.c:284-330) |
| `C112_out_of_bounds_violation` | `MelFilterbank::Initialize` can assign the bin on the upper limit to channel `n` (one past the last), because `(mel_hi - mel_low) / mel_spacing` is rounded to a number above `n + 1`; it then writes past the end of `channel_weights_sum_`, and `Compute` past the end of its output. Proved for 16 kHz, 40 channels, 0 to 7000 Hz and every power-of-two FFT size; an evaluation in doubles shows the same for about 2% of the common configurations with the upper limit on a bin, e.g. 30 channels with the default limits 20 and 4000 Hz at 8 or 16 kHz |
| `C113_abort_violation` | `ArithmeticSequence(1, 2^-k, 1)` for k from 54 to 1000 (any tiny step, compared to base = limit): the internal `CHECK_LT(limit, base + step * size)` fails because `base + step` is rounded to `base`, so the program is aborted for arguments that the documentation allows (it only calls the result unreliable) |
| `C114_buffer_overflow_violation` | rational_factor_resampler.c:124-125 converts the `int64_t` size of the output buffer to `int` without a check. For 16 kHz to 48 kHz and `max_input_size` 1431655766 the buffer has 2 floats, and a first block of radius + 1 samples writes 3. |
| `C118_bound_violation`, `C118_overflow_violation` | resampler_q.h:441-451 and 826-831 convert an `int64` number of frames to `int` without a check. From 16 kHz to 48 kHz with 11 taps and 715827883 input frames `MaxOutputFrames` is -2147483647 although `NextNumOutputFrames`, documented as never larger, is 2147483634; with five frames more it is negative too, and for INT_MAX frames line 443 overflows. |
| `C119_double_close_violation`, `C119_leak_violation` | read_wav_file.c:94 and 182: when `fclose` fails, the label `fail` closes the same stream again (undefined behaviour; a double free in common C libraries). write_wav_file.c:44: when the header cannot be written, `WriteWavFile` returns without closing the file. |
| `C120_pending_violation`, `C120_attack_violation` | dynamic_range_control.cc:45-61: `Init` makes the envelope from the old parameters and leaves the pending change pending. After `SetDynamicRangeControlParams` and `Init` the object has the new static curve with the old attack and release times, for good. |
| `C121_endless_violation` | auditory_cascade_filterbank.cc:61-62, 123-129: `step_erbs` is only required to be positive; for 2^-60 the subtraction leaves the frequency unchanged, and `Init` never returns (it allocates memory for ever) |
| `C122_tolerance_violation` | resampler_q.h:223-224, portable/number_util.c:144: from 1 Hz to 2^30 Hz with `max_denominator = 2^30` the residual is within the tolerance at once, and the factor is 0 / 1 instead of 1 / 2^30 |
| `C123_large_violation` | resampler_q.h:224-225, portable/number_util.c:105-108: from 2^32 Hz to 1 Hz the factor is 2^31 - 1: the error is not bounded by 0.5 / `max_denominator` |
| `C124_long_violation`, `C124_distance_violation` | signal_vector_util.h:510, 533: the index is converted to `float`, so from 2^24 samples on the location can be beyond the end (index 2^25 + 3 of 2^25 + 4 samples is located at 2^25 + 4) or more than one sample away (index 2^26 + 3 at 2^26) |
| `C125_edge_violation`, `C125_nyquist_violation`, `C125_highpass_long_violation` | kiss_fft_util.cc:97, 103, 134, 138: a bin strictly below the lower edge passes (edge 3 + 2^-21, bin width 1 + 2^-23, bin 3); a bin exactly on an edge is removed (14 samples at 16 Hz: the high-pass with edge 0 removes the bin at Nyquist); the high-pass of 2^24 samples or more always fails its own check |
| `C126_size_violation`, `C126_same_rate_violation` | kiss_fft_util.cc:163: 6701877 samples at 44.1 kHz become 7294561 instead of 7294560 samples at 48 kHz; 2^24 + 1 samples resampled to their own rate become 2^24 |
| `C127_long_violation` | portable/auto_gain_control.c:22: a time constant of 2^23 + 1 samples gives a warm-up of 2^23 + 2 (outside the range of the claim) |
| `C128_limiter_violation` | The limiter subtracts the threshold from the level and adds the level back in float. A level of 1 dB and a threshold of -2^-30 dB give 0 dB, which is above the threshold. |
| `C128_expander_violation` | An expander with a soft knee can raise a level by a rounding error. 8 dB with a threshold of 0 dB, a knee of 2^-20 dB and a ratio of 5 gives 8 + 2^-19 dB. |
