NOTES = {
"C01":("proved","For whole histories of the class API; the one documented corner that fails (IsFull after a zero-size read) is stated as a proved violation."),
"C02":("partial","The English claim is false of the code: C02_overflow_violation is a concrete history in which the retained entries come back rotated and IsFull is false; C02_overflow_partial proves which entries are kept and in which (rotated) order."),
"C03":("proved","All block sequences and delays; Reset."),
"C04":("proved","All widths and both byte orders; floats as their bit patterns."),
"C05":("proved","Round trip through WriteWavFile (sink with enough room) and ReadWavHeader/ReadWavSamples for all channel counts 1..65535, all positive rates with 2*channels*rate < 2^31 (beyond that the header expression is signed overflow, undefined), all whole-frame sample arrays within WriteWavFile's own limit, all request sequences, all reader callback configurations, all uninitialised buffer contents. C05_channel_count_wraps_violation: more than 65535 channels are accepted by the writer and produce an unreadable file (outside the property's range)."),
"C06":("partial","Full statement refuted by C06_truncated_data_size_violation (a file cut after 'data' is accepted with an uninitialised size). Proved for every byte string: acceptance without read error iff well-formed (sound_partial + complete), the only other accepted files end within the data chunk's 8-byte header (accepted_cases), accepted info always consistent (accepted_info), termination."),
"C07":("proved","Exact service of every request sequence on every well-formed header and any (possibly truncated) data, every encoding, with or without raising the destination size; conversions against an independent spec incl. all 256 mu-law codes. Float narrowing is an uninterpreted function on bit patterns. C07_read_after_failure_violation records a division by zero when reading after a failed header (outside the statement)."),
"C08":("proved","From every valid state and for every cutting into blocks the concatenated output and the final state are those of one call; also for the C resampler with max_input_size, whose overflow rule (reset and keep the last max_input_size frames) is proved as it is. Channels are independent (any linear map on frames commutes). Exact arithmetic; int sizes unbounded."),
"C09":("proved","Output m is the polyphase formula, and for kernels supported on [-r, r] the interpolation sum over the whole input; emitted exactly when its last input frame has arrived; QResampleSignal (process and flush) emits everything that is not identically zero; fully primed variant; the library's Kaiser-sinc kernel meets the support condition. All buffer reads and writes and assertions are part of the model. Exact arithmetic."),
"C10":("proved","Exact size in every valid state, state-independent bounds and their tightness, NextNumInputFramesToProduce is the least input, excess bound (b-1)/a, exactness when downsampling, ResetFullyPrimed block sizes."),
"C100":("proved","Rounding modelled over the reals without infinities, for real samples; the premise on the precision excludes filters whose poles are too close to the unit circle for the number format. Coefficients are those stored after Init."),
"C101":("partial","Fails for QResampler (C101_q_violation: the output of three inputs depends on the cut); proved for it in exact arithmetic, and for all others in every arithmetic. Assumes that a compiler contracts the same expression in the same way everywhere."),
"C102":("proved","Premise: the rounding has relative error u and absolute error eta near 0 (no overflow), proved for binary32/binary64. C102_bound gives the bound from the peak of the input."),
"C103":("proved","Premise as in C102. The products are stored before they are added, so that no fused multiply-add occurs."),
"C104":("proved","Coefficients as stored (the double-precision computation of the coefficient in Init is not modelled). The bounds on coefficient and warm-up are needed: C104_warm_up_violation."),
"C105":("partial","Proved for interpolation rates with rate^2 T2/T1 <= 2^20 hz^2 and 6 hz <= rate, and time constants of 3 to 2^22 samples. The property is false for low corner frequencies, which the code accepts: the coefficients rounded to float put a pole at 1 (C105_interpolation_violation: division by zero in the constructor; C105_detector_violation: unbounded output of EnvelopeDetector's smoother). Computations in double are assumed to have a relative error of at most 2^-30."),
"C106":("partial","Proved when all chunks in front of the data have even lengths (C106_even_partial). False otherwise: the reader does not skip the padding byte of a chunk of odd length, so that the file is rejected (C106_odd_chunk_violation) or read from the wrong place (C106_misread_violation)."),
"C107":("proved","For every rounding with relative error u (float: 2^-24, double: 2^-53) and reflection coefficients in effect bounded by kappa, with 144 (M+1)^4 (16/(5 gamma))^(2M) u <= 1 where gamma is a little less than sqrt(1-kappa^2) (float: order 2, kappa 0.8; double: order 8, kappa 0.6; both shown). C107_history: the same bound for the float object after any history of samples, coefficient changes and resets, with the rounding of the coefficient smoothing (the coefficients in effect exceed the requested bound by at most 0.003). C107_accuracy compares with the ideal filter with the coefficients in effect. Overflow is not modelled; the bound shows that the state stays far from it for ordinary inputs."),
"C108":("partial","Error bounds for Sum, dot products, mean, variance and RMS error; ZScoreNormalize defined if the variance exceeds its error bound. Violations: ZScoreNormalize of {0.1, 0.1, 0.1} in double is NaN whatever the floor, because the one-pass variance is negative; Sum of floats adds in float and stops growing at 2^24 ones. Complex elements are not covered."),
"C109":("proved","Error linear in the index of the sample. Library cosine and sine assumed to have an absolute error of at most 2^-50 (float sine of Eigen: 2^-22); sample rates of at least 2^-20; amplitudes must not be negative (std::polar is undefined for them)."),
"C11":("partial","Exact arithmetic; int overflow checked. Optimal for tolerance*(2*max_denominator+1) <= 1 (default options: max_denominator <= 499999999). For larger limits the default tolerance makes the claim false (C11_tolerance_violation), and numerators are bounded by INT_MAX (C11_int_min_numerator_violation)."),
"C110":("partial","Accuracy for all coefficients in (0, 1]; range kept exactly for coefficients up to 1 - 2^-22. Violation: with the coefficient 1 (scale up to 0.01) SmoothVector turns {-16777216, 3} into {-16777216, 4}. Real elements of type float."),
"C111":("partial","Proved for every well-formed file (C111_calls), and for every byte string that all calls but possibly the last are the complete unknown chunks in order, the last one being followed by a rejection (C111_calls_partial). Violations: a truncated chunk is handed over with uninitialised bytes; a file ending after an unknown chunk causes a second call with the stale id and a length from uninitialised memory; where malloc(0) returns NULL an empty chunk is rejected only if there is a callback."),
"C112":("partial","Violated: at 16 kHz with 40 channels between 0 Hz and 7000 Hz Initialize writes one element past channel_weights_sum_ for every power-of-two FFT size, because the position of the bin on the upper limit is computed as 40 + 2^-47 (C112_out_of_bounds_violation). Proved otherwise: no access out of bounds and the error bound, whenever the used bins lie inside the limits by more than the error of a position (C112_accurate_partial); the bins used (C112_bins). The final bound for MFCCs is not derived."),
"C113":("partial","Proved for steps of at least three times the documented tolerance (the documentation calls smaller steps unreliable), without underflow or overflow. For smaller steps the last sentence is false: the constructor aborts for (1, 2^-k, 1), k from 54 to 1000 (C113_abort_violation)."),
"C114":("partial","Proved for all sizes in an explicit range; outside of it the claim is false of the code: C114_buffer_overflow_violation shows a resampler that Make accepts and that writes outside its output buffer."),
"C115":("proved","In any arithmetic, except that the ladder filter is over the reals."),
"C116":("proved","Accuracy of the table and of the sums for every rounding and cosine of a given accuracy, with or without fused multiply-add."),
"C117":("partial","Missing: bins closer to a limit of the band than the error of a position (C112_out_of_bounds_violation shows an access out of bounds there)."),
"C118":("partial","Proved when the largest output (or needed input) and the input with the filter length are representable as int. Without that the claim is false of the code: C118_bound_violation (MaxOutputFrames negative where NextNumOutputFrames is not, although documented as an upper bound) and C118_overflow_violation."),
"C119":("partial","Proved for the resampler; for the readers when fclose succeeds; for WriteWavFile when the header can be written. Otherwise the claim is false of the code: C119_double_close_violation (both readers call fclose twice when it fails) and C119_leak_violation (WriteWavFile leaves the file open when the header cannot be written)."),
"C12":("proved","32-bit int/unsigned arguments; overflowing arguments are characterised exactly (INT_MIN, NextPowerOfTwo(0) and above 2^31)."),
"C120":("partial","Proved for histories in which the last parameter change has taken effect (by a block or a Reset) and every Reset comes after a parameter change. Otherwise false of the code: C120_pending_violation (Init directly after SetDynamicRangeControlParams keeps the old attack and release times but takes the new curve), C120_attack_violation (an example); for Reset see C30_reset_loses_parameters_violation."),
"C121":("partial","Proved for step_erbs of at least 2^-40 (termination) and 2^-20 (accuracy within 2^-21 of the highest frequency plus 229 Hz; number of stages, if no exact frequency is that close to the minimum). For tiny steps the claim is false of the code: C121_endless_violation (2^-60 passes the checks and Init never returns). Overflow is not modelled."),
"C122":("proved","Proved in double arithmetic for the stated range, which contains every fraction with denominator up to 16384 whose numerator is an int. C122_tolerance_violation shows that the promise of resampler_q.h fails for enormous ratios of the rates. NaN and infinities are not modelled."),
"C123":("proved","Proved for every double; NaN and infinities are not modelled. C123_large_violation shows that the error bound of resampler_q.h needs the condition on the size of the factor."),
"C124":("partial","Proved for signals of up to 2^24 samples with magnitudes that do not overflow; the documented bounds on the location fail for longer signals (C124_long_violation, C124_distance_violation)."),
"C125":("partial","The spectrum filters are proved as stated; bins within rounding of an edge can be on the wrong side (C125_edge_violation, C125_nyquist_violation) and the high-pass of 2^24 samples or more always fails (C125_highpass_long_violation). The transforms themselves are C40's, in exact arithmetic."),
"C126":("partial","Exact sizes up to 2^21 samples; wrong sizes for longer signals are shown (C126_size_violation, C126_same_rate_violation). The exponentials are inputs of the model, assumed to be in [0, 1]."),
"C127":("proved","As stated, for up to 2^21 samples. Beyond, rounding can change the number (C127_long_violation)."),
"C128":("partial","Proved: the accuracy of the three curves, the bit-exact identity part of the compressor, the limiter and the hard-knee expander, and that none of these raises a level. The claim that a limiter's output never exceeds its threshold fails by a rounding error (C128_limiter_violation). A soft-knee expander, which the statement leaves out, can raise a level by a rounding error (C128_expander_violation). Overflow, infinities and NaN are not modelled."),
"C129":("proved","The soft ratio must be at least one, which the documentation demands but VerifyParams does not check (C29_verify_violation), and the upwards ratio at most 2^100. Overflow, infinities and NaN are not modelled."),
"C13":("proved","Unbounded n, k and shapes. Past the end FlatIndex is the end iterator only if the quotient fits an int (C13_flatIndex_end_partial, C13_flatIndex_wrap_violation)."),
"C14":("proved","All strict weak orders, all histories, every legal outcome of std::sort and std::nth_element; also no out-of-bounds index."),
"C15":("proved","Every chunking: analysed frames, complex slices and squared magnitudes equal the textbook DFT of the windowed complete frames; reset returns to the initial state; exact acceptance condition of Initialize. rdft (third party) is modelled by its documented result; kernel sign is exp(+i)."),
"C16":("partial","Proved for steps up to the frame length and the first run after Initialize(window,..); Flush is exact for Initialize(length,..). Violations proved: step > frame emits no gap; Flush forgets the synthesis window."),
"C17":("partial","Proved for 1 <= hop <= block length and positive chunk lengths, any stateful block callback; exact delayed identity for inverse transforms with identity callback and power-complementary window. Violations proved: hop > block aborts, hop 0 never ends, an empty chunk erases pending output. Real arithmetic."),
"C18":("proved","Over exact arithmetic, with objective values that are numbers or +infinity (NaN not modelled)."),
"C19":("proved","Over any commutative ring; rounding not modelled."),
"C20":("proved","Over any commutative ring, all channels; includes absence of out-of-range columns."),
"C21":("proved","Over any field; rounding not modelled."),
"C22":("partial","AsPolynomialRatio, cascade output and frequency-response algebra are proved over any field; Simplify (and Append, which calls it) is only equivalence-preserving when no coefficient falls below its absolute 1e-10 thresholds: C22_simplify_violation is a concrete cascade whose response it changes, C22_asPolynomialRatio_zero_violation an all-zero stage for which AsPolynomialRatio is undefined."),
"C23":("proved","Exact real coefficients; poles as complex roots, plus a uniform bounded-input bounded-output gain."),
"C24":("proved","Exact reals; whole call histories of one channel (samples, ChangeLadderCoeffs, Reset). C24_bounded_state/_output: bound by input energy for all reflection coefficients. C24_bounded_amplitude(_output): bound by input amplitude, independent of time, when all requested reflection coefficients are at most kappa < 1 in absolute value."),
"C25":("partial","Proved for every order when no stage is clamped (no reflection coefficient exactly 0, or eta = 0). With eta = 10*epsilon a zero reflection coefficient clamps its scattering coefficient to 1 - eta, and C25_zero_reflection_violation shows the resulting gain error for the one-sample delay."),
"C26":("partial","The claim is false of the code: C26_tap_gains_violation / C26_output_violation (swapped assignment, ladder_filter-inl.h:237) and C26_reset_violation. C26_reflection_partial proves it for the reflection coefficients."),
"C27":("proved","Over any commutative ring; decimator over any sample type."),
"C28":("proved","Over the reals; corner claims for frequencies >= rate/10^7 (the code switches to K = 2 rate below). Pole-zero designs are C50, C47, C59."),
"C29":("proved","All five curves over the reals (rounding not modelled), including the two-way compressor. C29_verify_violation: VerifyParams of the two-way compressor accepts soft ratios below 1 and negative knees, for which the curve theorems do not apply."),
"C30":("partial","The property is false of the code and the violations are proved: no crossfade (aliased buffers), Reset without an earlier parameter change installs defaults, Reset keeps the look-ahead delay, parameters before Init dereference null. C30_reset_partial / C30_reset_no_lookahead: what Reset does restore, after every history."),
"C31":("proved","Over the reals (rounding not modelled), for sample rates of at least 1200 Hz; includes sidechaining and the equality with an independent specification of the whole processor."),
"C32":("proved","Over the reals (rounding not modelled), for sample rates at least 1200 Hz. C32_detector_reset_violation: EnvelopeDetector::Reset keeps the most recent output value."),
"C33":("proved","Over the reals with FastPow as the exact power. C33_documented_formula_violation: the header's (1+sum)/(1+n) on the nth sample counts one too few; the property's reading is what is proved."),
"C34":("partial","Exact arithmetic, one channel. Proved: movement between estimate and envelope, rejection interval, counter range, burn-in, constants, bounds, block invariance, Reset. False of the code and proved so: Init validates the old parameters instead of its argument; setters accept negative rejection times and sensitivities (estimate freezes); with sensitivity 1 long noises are never accepted."),
"C35":("partial","Proved for every accepted configuration with upper limit at most half the sample rate: bounds, exact triangular weights, partition of unity, flat response, inverse formula. Violations proved: tables accessed out of bounds for every accepted configuration with the limit a bin above half the rate; failed re-Initialize then Compute writes out of bounds."),
"C36":("partial","Transform, orthogonality (row 0 has squared norm 2), inversion and Parseval proved for all sizes. Violation proved: a failed re-Initialize leaves the object initialized with sizes that do not match its table; Compute reads out of bounds."),
"C37":("partial","All windows: sampling theorems for any even window; per-window shape theorems. Partial: an accepted quartic window can be negative in the 1e-12 tolerance zone just outside its radius (proved), the documented radius independence is false for Planck-taper (proved), and reverse_copy is called on overlapping ranges (proved). Kaiser is proved for any positive nondecreasing function in place of the Bessel function."),
"C38":("partial","All three modes proved; the float nearest 1/3 is rejected and the documented example is wrong (violations). Rounding not modelled."),
"C39":("proved","Forward and inverse complex and real transforms equal the DFT for every positive size, with Bluestein's algorithm, the conjugate reflection, normalization and size checks modelled in detail; the external Kiss FFT kernels are modelled by their documented function and kiss_fft_next_fast_size only by rounding up. Rounding not modelled."),
"C40":("partial","All of it proved, except: HardHighpassSpectrum aborts for documented band edges above the last half bin (C40_highpass_spectrum_violation); LinearConvolution with one empty input overflows its buffer (C40_empty_violation)."),
"C41":("partial","Bit-level model of the tables and of correctly rounded float operations. log2, exp2, tanh and monotonicity proved as documented. FastPow's 0.5% is proved for |y| <= 3/2 (C41_pow_partial) with a general bound growing with |y| (C41_pow_general); without that restriction it is false (C41_pow_violation)."),
"C42":("proved","Over the reals. C42_renormalize covers arbitrary nonzero (drifted) phasors; also ComputePhasorVector and ComputeSineWaveVector."),
"C43":("proved","Over any commutative ring; the normaliser is a parameter."),
"C44":("partial","Location guarantee and maximality proved; a nearly symmetric valley returns the minimum instead of the maximum (violation)."),
"C45":("proved","Exact arithmetic; rounding not modelled."),
"C46":("partial","Any number of bands. Proved: every band is its filter path for every block split (C46_bands, C46_transfer); Linkwitz-Riley designs: bands in phase at all crossover frequencies, amplitudes add to one, sum at most one, flat for two bands, stability, number of corrections; no aborts over any call history and Reset restores Init (order 4M). Hypotheses that make it partial: frequencies in the range where Simplify drops no coefficient (C47), last denominator coefficient of every phase correction above 1e-10, exact ladders (eta = 0, see C25). Violation: increasing frequencies for which Init aborts (order 8, three bands: correction of exactly pi is refused)."),
"C47":("partial","Proved for all orders under explicit bounds that keep stage gains above Simplify's 1e-10; C47_violation: order 8 at 46 Hz/48 kHz sums to 11/16 at DC."),
"C48":("partial","Proved for complex roots and real roots with p^2 <= center^2; false for other real roots (C48_violation: a double root instead of two different ones)."),
"C49":("proved","Over the reals: rounding and signed zeros are not modelled. C49_branch_cut_violation: on the real branch cut x > 1 Acos and Asin return the conjugate of the C++ standard library's value."),
"C50":("partial","Proved for roots that are zero or above 1e-5 in magnitude; violation without roots (gain is dropped)."),
"C51":("partial","Size and all elements but the last hold for every step; the last element claim is false for large steps (C51_last_element_violation) and proved for step <= 1."),
"C52":("partial","Non-periodic version proved. Periodic version is false at index 0 when it equals a neighbour (C52_periodic_violation); proved otherwise."),
"C53":("partial","WriteWavHeader and WriteWavSamples: exact (iff). WriteWavFile: refuted by C53_lost_samples_violation (sample write errors ignored); C53_file_reports_partial states what it does report."),
"C54":("partial","Every call from every valid state works when the factor is a positive fraction at most num_taps (C08_states_stay_valid), which filter_radius_factor >= 1/2 guarantees. False in general: filter_radius_factor 1/4 with factor 4 makes the new delayed-input size negative; upsampling by 2500 with max_denominator 1000 makes the factor numerator 0 (division by zero)."),
"C55":("proved","Real arithmetic; rounding not modelled."),
"C56":("partial","Lowest-seen holds when the conversion to float does not lower the highest value (always for Scalar = float); violated for double, for a tolerance of exactly zero, and for SetSimplex (C56_*_violation)."),
"C57":("proved","Over the reals (the code rounds parameters to float)."),
"C58":("partial","Proved for every group delay strictly above the infimum; at the infimum, which CheckAllPassConfiguration accepts, the coefficients are 0/0 (C58_allpass_violation)."),
"C59":("proved","Every order from 1 to 49999 (beyond that a pole could fall under Simplify's threshold); exact real arithmetic."),
"C60":("partial","Frequency maps for left-half-plane prototypes with digital roots zero or above 1e-5; band maps need ((t2-t1)p/2)^2 <= t1 t2 for real roots p, violation otherwise (order-1 Butterworth bandpass). Sign of negative gain and improper filters: violations."),
"C61":("partial","Right up to the sign (-1)^(#poles+#zeros) for analog systems; C61_eval_violation."),
"C62":("partial","Rectangular, cosine, Hamming, Hann, Nuttall and quartic: equality with the integral outside the tolerance zones and at the singularities, error at most 1e-7 radii everywhere. Kaiser and Planck-taper: equal to the 1025-point rectangle rule, whose error is at most (1 + 2 pi |f| r) r / 512 (C62_quadrature_error, for every window of the documented shape), also against the Kaiser window with the exact Bessel function (C62_kaiser_bessel). Violation: set_radius keeps stale memoized samples for Planck-taper."),
"C63":("partial","Proved for frames of at least the initialized length. Violation proved: a too short frame gives a vector of zeros."),
"C64":("partial","Smoothers, range, coefficient, BlockDC proved; SmoothVector reads an empty container and, like HermitianSmoothVector, does not preserve constants (violations)."),
"C65":("proved","Exact arithmetic over any commutative ring."),
"C66":("partial","Designs proved for positive rates; rate 0 with edge 0 passes the checks and gives NaN (violation)."),
"C67":("partial","Formulas proved; GenerateSineEigen applies the phase with the opposite sign (violation)."),
"C68":("proved","Exact arithmetic; with rounding the result may equal the period."),
"C69":("partial","Proved for all upsampling and for downsampling to odd sizes; to even sizes the sinusoid at half the output rate is halved (C69_resample_even, C69_roundtrip_violation); an output size that rounds to zero aborts (C69_resample_empty_violation). The DCHECK on the factor is modelled as a precondition."),
"C70":("partial","The spectral statement and its consequences are proved; the documented sum over a sampled Gaussian is refuted (C70_documented_sum_violation)."),
"C71":("partial","Proved: output = sum over bands of the documented per-band dynamic range control of the band signals, never aborting, for all block divisions (C71_output, C71_block_invariance); per-stage isolation (C71_set_drc). With exact ladder filters the band signals obey the designed transfer functions (C71_transfer_partial). Violations: Reset replaces the parameters of all bands by defaults, i.e. switches compression off (C71_reset_violation); Init forgets frequencies set with SetCrossoverFrequencies (C71_init_forgets_frequencies_violation). Rounding not modelled."),
"C72":("partial","Proved over exact reals for all coefficients whose discriminants are not in the nonzero tolerance zone; inside it two violations are proved (an unstable filter given a finite decay time; a stable filter whose peak gain is underestimated by more than a factor of two). The decay bound carries the factor n+1 of a double pole; without it the claim is false (C72_decay_violation)."),
"C73":("partial","Proved: result on the grid, and precision for single-peaked functions. The documented claim is violated: lowest frequency (C73_identity_violation) and maximality (C73_peak_violation)."),
"C74":("proved","Over exact reals; arguments of the logarithms positive."),
"C75":("partial","Response, stability, DC zero for every rate outside narrow intervals where a real digital pole has magnitude in (0, 1e-5]; C75_proper, C75_no_drop: rates above 6.3 kHz have no excess factor, rates above 24.4 kHz drop nothing. C75_low_rate_violation: D at 4 kHz and K at 3 kHz are too loud, because more zeros than poles are kept."),
"C76":("partial","Output formula, block invariance, uniqueness, Reset, scaling, silent weights, exponential average, gains and time constant of the three layouts of the recommendation, no NaN for the recommended averaging, ProcessVector, Init result: proved for rates of at least 121 Hz, over exact reals. Violations: a permitted second-order averaging filter gives NaN (C76_second_order_violation); a failed Init leaves the meter reading past its weights (C76_failed_init_violation)."),
"C77":("partial","C77_output proves the output formula, the block invariance and the acceptance of documented parameters at rates of at least 1200 Hz; C77_reset_partial proves Reset without look-ahead, and C77_reset_violation that Reset does not clear the look-ahead; C77_init_false proves the return value of Init; C77_unchecked_curve_violation, C77_low_rate_violation, C77_nan_violation and C77_default_rate_violation prove where Init aborts or accepts parameters that make processing abort, lock the gain or change the time constant; C77_failed_init_violation that a rejected Init changes the gain of later blocks. Exact reals: rounding is not modelled."),
"C78":("partial","Proved for all parameters with a first pole below Nyquist (C78_design): existence and properties of the design, and Init produces it unless Simplify takes a feed-forward polynomial for one of lower order (premise Numerators; discharged for few stages by C78_few_stages). Gain one at the peak found; that the peak is the maximum is only shown on the 98 grid points. Violations: documented channel selection, GetSampleRate(), min_sample_rate, second Init, no stages, Nyquist fraction one. Over the reals (no rounding)."),
"C79":("proved","For all parameters as in C78 (premise Numerators on the coefficients), all signals and divisions into blocks, over the reals."),
"C80":("partial","Proved: bookkeeping after any history; response, stability and levels of every band for stages of degree two (C80_moderate: quality factors from 0.51 without extreme frequency or gain, and every peak outside a few frequencies); checks; ClearAllGains keeps what it should and its filter is the identity on every input. Missing: exact response when Simplify merges stages of lower degree. Violations: the number of stages depends on bypass flags (header says it does not); an equalizer without stages is undefined behaviour."),
"C81":("partial","Proved: only gains change, independent of the gains before; every step is the unique regularised least-squares solution; the result for any number of iterations (stages of degree two). Violations: a disabled stage aborts although it is documented as ignored; the regularisation loses more than half of a 0.01 dB target that can be met exactly; with no iterations the gains are 6 dB."),
"C82":("partial","Proved without restriction for every call that returns: kinds, flags, bounds, value returned = RMS error of the equalizer left, not worse than the starting guess; objective function without memory; it returns whenever the objective is defined within the bounds. Violations: a disabled stage aborts; the default bounds at 48 kHz abort for a filter starting at 22 kHz."),
"C83":("proved","Exact real arithmetic. Theorems for the documented domain (positive cutoffs, stable prototypes with no more zeros than poles); the 15-pole limit is C83_band_failure."),
"C84":("partial","Conversion to biquads is proved for filters with as many zeros as poles (what the bilinear transform gives); with fewer zeros the code reads unused entries of the zeros array, C84_stale_violation. Roots must be real or clearly complex (imaginary part above 100 DBL_EPSILON times the modulus)."),
"C85":("partial","Lowpass and highpass: all orders up to 30 and cutoffs at least 1e-9 of the rate away from 0 and Nyquist. Bandpass and bandstop: all orders up to 15, for even orders all bands with margins of 1e-9 of the rate (C85_bandpass_clear_partial, C85_bandstop_clear_partial), for odd orders outside a sliver of bands (RealClear). Missing: orders above 30 (C85_order_violation: out-of-bounds write), orders 16 to 30 of band filters (C85_bandpass_violation, C85_bandstop_violation: wrong filter reported as success), cutoff 0 (C85_cutoff_violation)."),
"C86":("partial","As C85, with ripple at least 1e-11 dB (type 1) and at most 120 dB (type 2) for lowpass and highpass. Missing: orders above 30 (out-of-bounds write), orders 16 to 30 of band filters (wrong filter reported as success); ripple at or below 0 is not checked by the code and not covered."),
"C87":("proved","Exact real arithmetic. Coefficients of the bandpass in the order written by the code; the response does not depend on the order."),
"C88":("proved","Exact real and complex arithmetic (rounding not modelled). C++ and C. Complex amplitudes: error relative to the integral of the modulus of the integrand along the segment; the case 0 < m <= 2^-104 with |Im phi| > 17 is excluded."),
"C89":("proved","Inverse in both directions inside the documented range; the documented cn(u|m) = cos(phi) fails for real u beyond K(m) (C89_range_violation)."),
"C90":("proved","Real arithmetic with the code's truncation rules and epsilon; exp and sqrt exact; rounding not modelled. The asymptotic range uses the integral representation with an explicit remainder bound."),
"C91":("partial","Exact arithmetic; int overflow not modelled. Partial because of the two findings (stale output of ProcessSamplesEigen, short filters); everything else holds without further restriction."),
"C92":("partial","Real arithmetic; rounding not modelled. Partial because of the two findings (rejected conversion, factor 0). The agreement of outputs excludes filter points in the relative zone (1, 1+1e-12] outside the radius, shown empty for integer radius."),
"C93":("partial","NaN samples are written as -32768 (C93_nan_violation), so quantization is proved for all other floats; argument checks and sizes are missing in the code (violations)."),
"C94":("partial","Complete except for float samples of at least 1, for which the code has undefined behaviour (C94_full_scale_violation). Allocation and close outcomes are parameters."),
"C95":("partial","Proved for orders up to 45000; odd-order band designs under an explicit condition on the band (BandClear), outside which the design is wrong (C95_bandpass_violation). Rounding not modelled."),
"C96":("partial","Result, abort condition and accuracy of the width proved for every window, transform and monotone conversion to float; the rectangular window works for radii from 1/4 to 12. The last part of the claim is false: C96_radius_violation, radii up to 1/6 abort."),
"C97":("partial","Prototype proved for every order and ripples, with the elliptic functions being the exact ones (C88 and C89 bound the error of those in the code); digital designs for orders up to 45000, band designs of odd order under the condition on the real pole without which the code is wrong (C95_bandpass_violation)."),
"C98":("partial","For every order up to 30, passband ripple from 2e-5 dB, stopband ripple up to 120 dB and cutoff within 1e-9 of the ends, with exact elliptic functions: response, both ripples, degree equation, stability, number of biquads (C98_lowpass_partial, C98_highpass_partial); bands up to order 15 (for odd orders outside the sliver RealClear). C98_structure holds for any implementation of the elliptic functions. Violated: orders above 30 write behind the array, ripples are not checked (NaN roots), bandpass orders 16 to 30 report success with a lowpass. Missing: the error of elliptic_fun.c (C88/C89) and rounding."),
"C99":("proved","IEEE rounding modelled over the reals without infinities (nothing overflows: all values are at most 1.001 in magnitude); the C library's cosine and sine are assumed accurate to 2^-50."),
}
