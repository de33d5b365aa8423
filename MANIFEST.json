{
 "claims": [
  {
   "property": "C01",
   "status": "proved",
   "theorems": [
    "Verif.CircularBuffer.C01_fifo",
    "Verif.CircularBuffer.C01_isFull",
    "Verif.CircularBuffer.C01_isFull_zero_read_violation",
    "Verif.CircularBuffer.C01_planar_fifo"
   ],
   "note": "For whole histories of the class API; the one documented corner that fails (IsFull after a zero-size read) is stated as a proved violation."
  },
  {
   "property": "C02",
   "status": "partial",
   "theorems": [
    "Verif.CircularBuffer.C02_overflow_violation",
    "Verif.CircularBuffer.C02_overflow_partial",
    "Verif.CircularBuffer.C02_overflow_isFull_false"
   ],
   "note": "The English claim is false of the code: C02_overflow_violation is a concrete history in which the retained entries come back rotated and IsFull is false; C02_overflow_partial proves which entries are kept and in which (rotated) order."
  },
  {
   "property": "C03",
   "status": "proved",
   "theorems": [
    "Verif.FixedDelayLine.C03_delay",
    "Verif.FixedDelayLine.C03_reset"
   ],
   "note": "All block sequences and delays; Reset."
  },
  {
   "property": "C04",
   "status": "proved",
   "theorems": [
    "Verif.Serialize.C04_write_value",
    "Verif.Serialize.C04_little_endian_digits",
    "Verif.Serialize.C04_big_endian_reverse",
    "Verif.Serialize.C04_read_value",
    "Verif.Serialize.C04_read_write",
    "Verif.Serialize.C04_write_read",
    "Verif.Serialize.C04_signed_round_trip",
    "Verif.Serialize.C04_signed_value",
    "Verif.Serialize.C04_float_round_trip"
   ],
   "note": "All widths and both byte orders; floats as their bit patterns."
  },
  {
   "property": "C05",
   "status": "proved",
   "theorems": [
    "Verif.Wav.C05_round_trip",
    "Verif.Wav.C05_channel_count_wraps_violation"
   ],
   "note": "Round trip through WriteWavFile (sink with enough room) and ReadWavHeader/ReadWavSamples for all channel counts 1..65535, all positive rates with 2*channels*rate < 2^31 (beyond that the header expression is signed overflow, undefined), all whole-frame sample arrays within WriteWavFile's own limit, all request sequences, all reader callback configurations, all uninitialised buffer contents. C05_channel_count_wraps_violation: more than 65535 channels are accepted by the writer and produce an unreadable file (outside the property's range)."
  },
  {
   "property": "C06",
   "status": "partial",
   "theorems": [
    "Verif.Wav.C06_header_terminates",
    "Verif.Wav.C06_header_sound_partial",
    "Verif.Wav.C06_accepted_cases",
    "Verif.Wav.C06_header_complete",
    "Verif.Wav.C06_accepted_info",
    "Verif.Wav.C06_truncated_data_size_violation"
   ],
   "note": "Full statement refuted by C06_truncated_data_size_violation (a file cut after 'data' is accepted with an uninitialised size). Proved for every byte string: acceptance without read error iff well-formed (sound_partial + complete), the only other accepted files end within the data chunk's 8-byte header (accepted_cases), accepted info always consistent (accepted_info), termination."
  },
  {
   "property": "C07",
   "status": "proved",
   "theorems": [
    "Verif.Wav.C07_reads",
    "Verif.Wav.C07_serve_bounds",
    "Verif.Wav.C07_total",
    "Verif.Wav.C07_read16",
    "Verif.Wav.C07_mulaw_table",
    "Verif.Wav.C07_read_after_failure_violation"
   ],
   "note": "Exact service of every request sequence on every well-formed header and any (possibly truncated) data, every encoding, with or without raising the destination size; conversions against an independent spec incl. all 256 mu-law codes. Float narrowing is an uninterpreted function on bit patterns. C07_read_after_failure_violation records a division by zero when reading after a failed header (outside the statement)."
  },
  {
   "property": "C08",
   "status": "proved",
   "theorems": [
    "Verif.Resampler.C08_c_block_invariance",
    "Verif.Resampler.C08_states_stay_valid",
    "Verif.Resampler.C08_block_invariance",
    "Verif.Resampler.C08_c_excess_input",
    "Verif.Resampler.C08_channels_independent"
   ],
   "note": "From every valid state and for every cutting into blocks the concatenated output and the final state are those of one call; also for the C resampler with max_input_size, whose overflow rule (reset and keep the last max_input_size frames) is proved as it is. Channels are independent (any linear map on frames commutes). Exact arithmetic; int sizes unbounded."
  },
  {
   "property": "C09",
   "status": "proved",
   "theorems": [
    "Verif.RationalFactorResampler.C09_kernel_accuracy",
    "Verif.Resampler.C09_polyphase",
    "Verif.Resampler.C09_polyphase_fully_primed",
    "Verif.Resampler.C09_interpolates",
    "Verif.Resampler.C09_resample_signal",
    "Verif.Resampler.C09_flush_complete",
    "Verif.Resampler.C09_kernel_even_and_supported",
    "Verif.Resampler.C09_kernel_init",
    "Verif.Resampler.C09_resampler_with_kernel"
   ],
   "note": "Output m is the polyphase formula, and for kernels supported on [-r, r] the interpolation sum over the whole input; emitted exactly when its last input frame has arrived; QResampleSignal (process and flush) emits everything that is not identically zero; fully primed variant; the library's Kaiser-sinc kernel meets the support condition. All buffer reads and writes and assertions are part of the model. Exact arithmetic."
  },
  {
   "property": "C10",
   "status": "proved",
   "theorems": [
    "Verif.Resampler.C10_size_exact",
    "Verif.Resampler.C10_size_bound",
    "Verif.Resampler.C10_size_bound_tight",
    "Verif.Resampler.C10_least_input",
    "Verif.Resampler.C10_input_bound",
    "Verif.Resampler.C10_excess",
    "Verif.Resampler.C10_exact_when_downsampling",
    "Verif.Resampler.C10_fully_primed_exact"
   ],
   "note": "Exact size in every valid state, state-independent bounds and their tightness, NextNumInputFramesToProduce is the least input, excess bound (b-1)/a, exactness when downsampling, ResetFullyPrimed block sizes."
  },
  {
   "property": "C11",
   "status": "partial",
   "theorems": [
    "Verif.RationalApproximation.C11_best",
    "Verif.RationalApproximation.C11_default_best_partial",
    "Verif.RationalApproximation.C11_default_error_partial",
    "Verif.RationalApproximation.C11_tolerance_violation",
    "Verif.RationalApproximation.C11_int_min_numerator_violation"
   ],
   "note": "Exact arithmetic; int overflow checked. Optimal for tolerance*(2*max_denominator+1) <= 1 (default options: max_denominator <= 499999999). For larger limits the default tolerance makes the claim false (C11_tolerance_violation), and numerators are bounded by INT_MAX (C11_int_min_numerator_violation)."
  },
  {
   "property": "C12",
   "status": "proved",
   "theorems": [
    "Verif.NumberUtil.C12_modulo",
    "Verif.NumberUtil.C12_roundDown",
    "Verif.NumberUtil.C12_roundUp",
    "Verif.NumberUtil.C12_roundUp_least",
    "Verif.NumberUtil.C12_gcd",
    "Verif.NumberUtil.C12_gcd_vector",
    "Verif.NumberUtil.C12_isPowerOfTwoOrZero",
    "Verif.NumberUtil.C12_log2Floor",
    "Verif.NumberUtil.C12_log2Ceiling",
    "Verif.NumberUtil.C12_nextPowerOfTwo"
   ],
   "note": "32-bit int/unsigned arguments; overflowing arguments are characterised exactly (INT_MIN, NextPowerOfTwo(0) and above 2^31)."
  },
  {
   "property": "C13",
   "status": "proved",
   "theorems": [
    "Verif.NumberUtil.C13_combinations",
    "Verif.NumberUtil.C13_combinations_count",
    "Verif.NumberUtil.C13_cross_product",
    "Verif.NumberUtil.C13_cross_product_exactly_once",
    "Verif.NumberUtil.C13_cross_product_empty",
    "Verif.NumberUtil.C13_flatIndex",
    "Verif.NumberUtil.C13_flatIndex_end_partial",
    "Verif.NumberUtil.C13_flatIndex_wrap_violation"
   ],
   "note": "Unbounded n, k and shapes. Past the end FlatIndex is the end iterator only if the quotient fits an int (C13_flatIndex_end_partial, C13_flatIndex_wrap_violation)."
  },
  {
   "property": "C14",
   "status": "proved",
   "theorems": [
    "Verif.BatchTopN.C14_top_elements",
    "Verif.BatchTopN.C14_no_out_of_bounds"
   ],
   "note": "All strict weak orders, all histories, every legal outcome of std::sort and std::nth_element; also no out-of-bounds index."
  },
  {
   "property": "C15",
   "status": "proved",
   "theorems": [
    "Verif.Spectrogram.C15_initialize",
    "Verif.Spectrogram.C15_uninitialized",
    "Verif.Spectrogram.C15_frames",
    "Verif.Spectrogram.C15_complex",
    "Verif.Spectrogram.C15_squared"
   ],
   "note": "Every chunking: analysed frames, complex slices and squared magnitudes equal the textbook DFT of the windowed complete frames; reset returns to the initial state; exact acceptance condition of Initialize. rdft (third party) is modelled by its documented result; kernel sign is exp(+i)."
  },
  {
   "property": "C16",
   "status": "partial",
   "theorems": [
    "Verif.Spectrogram.C16_length_any_step",
    "Verif.Spectrogram.C16_window_any_step",
    "Verif.Spectrogram.C16_length_partial",
    "Verif.Spectrogram.C16_window_partial",
    "Verif.Spectrogram.C16_large_step_violation",
    "Verif.Spectrogram.C16_flush_window_violation"
   ],
   "note": "Proved for steps up to the frame length and the first run after Initialize(window,..); Flush is exact for Initialize(length,..). Violations proved: step > frame emits no gap; Flush forgets the synthesis window."
  },
  {
   "property": "C17",
   "status": "partial",
   "theorems": [
    "Verif.SpectralProcessor.C17_overlap_add_partial",
    "Verif.SpectralProcessor.C17_construct",
    "Verif.SpectralProcessor.C17_identity_partial",
    "Verif.SpectralProcessor.C17_hop_violation",
    "Verif.SpectralProcessor.C17_zero_hop_violation",
    "Verif.SpectralProcessor.C17_empty_chunk_violation"
   ],
   "note": "Proved for 1 <= hop <= block length and positive chunk lengths, any stateful block callback; exact delayed identity for inverse transforms with identity callback and power-complementary window. Violations proved: hop > block aborts, hop 0 never ends, an empty chunk erases pending output. Real arithmetic."
  },
  {
   "property": "C18",
   "status": "proved",
   "theorems": [
    "Verif.NelderMead.C18_minimize",
    "Verif.NelderMead.C18_never_increases",
    "Verif.NelderMead.C18_no_objective"
   ],
   "note": "Over exact arithmetic, with objective values that are numbers or +infinity (NaN not modelled)."
  },
  {
   "property": "C19",
   "status": "proved",
   "theorems": [
    "Verif.Fir.C19_convolution",
    "Verif.Fir.C19_init"
   ],
   "note": "Over any commutative ring; rounding not modelled."
  },
  {
   "property": "C20",
   "status": "proved",
   "theorems": [
    "Verif.Fir.C20_convolution",
    "Verif.Fir.C20_per_channel"
   ],
   "note": "Over any commutative ring, all channels; includes absence of out-of-range columns."
  },
  {
   "property": "C21",
   "status": "proved",
   "theorems": [
    "Verif.Biquad.C21_difference_equation",
    "Verif.Biquad.C21_unique",
    "Verif.Biquad.C21_init_check",
    "Verif.Biquad.C21_steady_state",
    "Verif.Biquad.C21_portable_same",
    "Verif.Biquad.C21_cascade_sample_block",
    "Verif.Biquad.C21_cascade_blocks"
   ],
   "note": "Over any field; rounding not modelled."
  },
  {
   "property": "C22",
   "status": "partial",
   "theorems": [
    "Verif.BiquadCascade.C22_asPolynomialRatio",
    "Verif.BiquadCascade.C22_asPolynomialRatio_zero_violation",
    "Verif.BiquadCascade.C22_cascade_response",
    "Verif.BiquadCascade.C22_simplify_partial",
    "Verif.BiquadCascade.C22_append_partial",
    "Verif.BiquadCascade.C22_simplify_output_partial",
    "Verif.BiquadCascade.C22_eval",
    "Verif.BiquadCascade.C22_simplify_eval_partial",
    "Verif.BiquadCascade.C22_simplify_terminates",
    "Verif.BiquadCascade.C22_simplify_violation"
   ],
   "note": "AsPolynomialRatio, cascade output and frequency-response algebra are proved over any field; Simplify (and Append, which calls it) is only equivalence-preserving when no coefficient falls below its absolute 1e-10 thresholds: C22_simplify_violation is a concrete cascade whose response it changes, C22_asPolynomialRatio_zero_violation an all-zero stage for which AsPolynomialRatio is undefined."
  },
  {
   "property": "C23",
   "status": "proved",
   "theorems": [
    "Verif.Ladder.C23_isStable_iff_poles",
    "Verif.Ladder.C23_bounded_output"
   ],
   "note": "Exact real coefficients; poles as complex roots, plus a uniform bounded-input bounded-output gain."
  },
  {
   "property": "C24",
   "status": "proved",
   "theorems": [
    "Verif.Ladder.C24_energy_step",
    "Verif.Ladder.C24_bounded_state",
    "Verif.Ladder.C24_bounded_output",
    "Verif.Ladder.C24_dies_out",
    "Verif.Ladder.C24_bounded_amplitude",
    "Verif.Ladder.C24_bounded_amplitude_output"
   ],
   "note": "Exact reals; whole call histories of one channel (samples, ChangeLadderCoeffs, Reset). C24_bounded_state/_output: bound by input energy for all reflection coefficients. C24_bounded_amplitude(_output): bound by input amplitude, independent of time, when all requested reflection coefficients are at most kappa < 1 in absolute value."
  },
  {
   "property": "C25",
   "status": "partial",
   "theorems": [
    "Verif.Ladder.C25_transfer_function",
    "Verif.Ladder.C25_zero_reflection_violation"
   ],
   "note": "Proved for every order when no stage is clamped (no reflection coefficient exactly 0, or eta = 0). With eta = 10*epsilon a zero reflection coefficient clamps its scattering coefficient to 1 - eta, and C25_zero_reflection_violation shows the resulting gain error for the one-sample delay."
  },
  {
   "property": "C26",
   "status": "partial",
   "theorems": [
    "Verif.Ladder.C26_reflection_partial",
    "Verif.Ladder.C26_tap_gains_violation",
    "Verif.Ladder.C26_output_violation",
    "Verif.Ladder.C26_reset_violation"
   ],
   "note": "The claim is false of the code: C26_tap_gains_violation / C26_output_violation (swapped assignment, ladder_filter-inl.h:237) and C26_reset_violation. C26_reflection_partial proves it for the reflection coefficients."
  },
  {
   "property": "C27",
   "status": "proved",
   "theorems": [
    "Verif.Fir.C27_two_tap",
    "Verif.Fir.C27_first_difference",
    "Verif.Fir.C27_decimator"
   ],
   "note": "Over any commutative ring; decimator over any sample type."
  },
  {
   "property": "C28",
   "status": "proved",
   "theorems": [
    "Verif.FilterDesign.C28_bilinear_transform",
    "Verif.FilterDesign.C28_bilinear_rejects",
    "Verif.FilterDesign.C28_designs_reject",
    "Verif.FilterDesign.C28_lowpass",
    "Verif.FilterDesign.C28_highpass",
    "Verif.FilterDesign.C28_bandpass",
    "Verif.FilterDesign.C28_bandstop",
    "Verif.FilterDesign.C28_ranged_bandpass",
    "Verif.FilterDesign.C28_ranged_bandstop"
   ],
   "note": "Over the reals; corner claims for frequencies >= rate/10^7 (the code switches to K = 2 rate below). Pole-zero designs are C50, C47, C59."
  },
  {
   "property": "C29",
   "status": "proved",
   "theorems": [
    "Verif.Drc.C29_formula",
    "Verif.Drc.C29_monotone_continuous",
    "Verif.Drc.C29_smooth",
    "Verif.Drc.C29_bounds",
    "Verif.Drc.C29_two_way_monotone",
    "Verif.Drc.C29_two_way",
    "Verif.Drc.C29_verify_violation"
   ],
   "note": "All five curves over the reals (rounding not modelled), including the two-way compressor. C29_verify_violation: VerifyParams of the two-way compressor accepts soft ratios below 1 and negative knees, for which the curve theorems do not apply."
  },
  {
   "property": "C30",
   "status": "partial",
   "theorems": [
    "Verif.Drc.C30_reset_partial",
    "Verif.Drc.C30_reset_no_lookahead",
    "Verif.Drc.C30_no_crossfade_violation",
    "Verif.Drc.C30_crossfade_example_violation",
    "Verif.Drc.C30_reset_loses_parameters_violation",
    "Verif.Drc.C30_reset_then_set_violation",
    "Verif.Drc.C30_reset_keeps_lookahead_violation",
    "Verif.Drc.C30_set_before_init_violation"
   ],
   "note": "The property is false of the code and the violations are proved: no crossfade (aliased buffers), Reset without an earlier parameter change installs defaults, Reset keeps the look-ahead delay, parameters before Init dereference null. C30_reset_partial / C30_reset_no_lookahead: what Reset does restore, after every history."
  },
  {
   "property": "C31",
   "status": "proved",
   "theorems": [
    "Verif.Drc.C31_output",
    "Verif.Drc.C31_block_invariance"
   ],
   "note": "Over the reals (rounding not modelled), for sample rates of at least 1200 Hz; includes sidechaining and the equality with an independent specification of the whole processor."
  },
  {
   "property": "C32",
   "status": "proved",
   "theorems": [
    "Verif.Envelope.C32_range",
    "Verif.Envelope.C32_monotone",
    "Verif.Envelope.C32_fixed_parameters",
    "Verif.Envelope.C32_time_constants",
    "Verif.Envelope.C32_detector_blocks",
    "Verif.Envelope.C32_detector_init",
    "Verif.Envelope.C32_detector_range",
    "Verif.Envelope.C32_detector_reset_violation"
   ],
   "note": "Over the reals (rounding not modelled), for sample rates at least 1200 Hz. C32_detector_reset_violation: EnvelopeDetector::Reset keeps the most recent output value."
  },
  {
   "property": "C33",
   "status": "proved",
   "theorems": [
    "Verif.Agc.C33_power",
    "Verif.Agc.C33_init",
    "Verif.Agc.C33_init_fail",
    "Verif.Agc.C33_bounds",
    "Verif.Agc.C33_gain",
    "Verif.Agc.C33_monotone",
    "Verif.Agc.C33_converges",
    "Verif.Agc.C33_documented_formula_violation"
   ],
   "note": "Over the reals with FastPow as the exact power. C33_documented_formula_violation: the header's (1+sum)/(1+n) on the nth sample counts one too few; the property's reading is what is proved."
  },
  {
   "property": "C34",
   "status": "partial",
   "theorems": [
    "Verif.BackgroundLevel.C34_init_succeeds_iff",
    "Verif.BackgroundLevel.C34_init_validation_violation",
    "Verif.BackgroundLevel.C34_moves_between",
    "Verif.BackgroundLevel.C34_counter_range",
    "Verif.BackgroundLevel.C34_transient_rejected",
    "Verif.BackgroundLevel.C34_transient_ends",
    "Verif.BackgroundLevel.C34_burn_in",
    "Verif.BackgroundLevel.C34_coefficients",
    "Verif.BackgroundLevel.C34_constant_level",
    "Verif.BackgroundLevel.C34_range",
    "Verif.BackgroundLevel.C34_blocks",
    "Verif.BackgroundLevel.C34_reset",
    "Verif.BackgroundLevel.C34_acceptance_violation",
    "Verif.BackgroundLevel.C34_rejection_time_violation",
    "Verif.BackgroundLevel.C34_sensitivity_violation"
   ],
   "note": "Exact arithmetic, one channel. Proved: movement between estimate and envelope, rejection interval, counter range, burn-in, constants, bounds, block invariance, Reset. False of the code and proved so: Init validates the old parameters instead of its argument; setters accept negative rejection times and sensitivities (estimate freezes); with sensitivity 1 long noises are never accepted."
  },
  {
   "property": "C35",
   "status": "partial",
   "theorems": [
    "Verif.Mfcc.C35_accepts",
    "Verif.Mfcc.C35_compute",
    "Verif.Mfcc.C35_partition_of_unity",
    "Verif.Mfcc.C35_centres",
    "Verif.Mfcc.C35_flat",
    "Verif.Mfcc.C35_inverse",
    "Verif.Mfcc.C35_short",
    "Verif.Mfcc.C35_above_nyquist_violation",
    "Verif.Mfcc.C35_failed_reinitialize_violation"
   ],
   "note": "Proved for every accepted configuration with upper limit at most half the sample rate: bounds, exact triangular weights, partition of unity, flat response, inverse formula. Violations proved: tables accessed out of bounds for every accepted configuration with the limit a bin above half the rate; failed re-Initialize then Compute writes out of bounds."
  },
  {
   "property": "C36",
   "status": "partial",
   "theorems": [
    "Verif.Mfcc.C36_accepts",
    "Verif.Mfcc.C36_transform",
    "Verif.Mfcc.C36_orthogonal",
    "Verif.Mfcc.C36_inverse",
    "Verif.Mfcc.C36_parseval",
    "Verif.Mfcc.C36_uninitialized",
    "Verif.Mfcc.C36_failed_reinitialize_violation"
   ],
   "note": "Transform, orthogonality (row 0 has squared norm 2), inversion and Parseval proved for all sizes. Violation proved: a failed re-Initialize leaves the object initialized with sizes that do not match its table; Compute reads out of bounds."
  },
  {
   "property": "C37",
   "status": "partial",
   "theorems": [
    "Verif.Bessel.C37_kaiser_bessel",
    "Verif.Bessel.C37_kaiser_accuracy",
    "Verif.Windows.C37_symmetric",
    "Verif.Windows.C37_symmetric_palindrome",
    "Verif.Windows.C37_symmetric_center",
    "Verif.Windows.C37_periodic",
    "Verif.Windows.C37_periodic_symmetry",
    "Verif.Windows.C37_check",
    "Verif.Windows.C37_reverse_copy_overlap_violation",
    "Verif.Windows.C37_rectangular",
    "Verif.Windows.C37_cosine",
    "Verif.Windows.C37_hamming",
    "Verif.Windows.C37_hann",
    "Verif.Windows.C37_kaiser",
    "Verif.Windows.C37_nuttall",
    "Verif.Windows.C37_planck_taper",
    "Verif.Windows.C37_quartic_partial",
    "Verif.Windows.C37_quartic_negative_violation",
    "Verif.Windows.C37_radius",
    "Verif.Windows.C37_radius_violation"
   ],
   "note": "All windows: sampling theorems for any even window; per-window shape theorems. Partial: an accepted quartic window can be negative in the 1e-12 tolerance zone just outside its radius (proved), the documented radius independence is false for Planck-taper (proved), and reverse_copy is called on overlapping ranges (proved). Kaiser is proved for any positive nondecreasing function in place of the Bessel function."
  },
  {
   "property": "C38",
   "status": "partial",
   "theorems": [
    "Verif.ThreeTap.C38_make",
    "Verif.ThreeTap.C38_rejects",
    "Verif.ThreeTap.C38_convolution",
    "Verif.ThreeTap.C38_constant",
    "Verif.ThreeTap.C38_circular_sum",
    "Verif.ThreeTap.C38_range",
    "Verif.ThreeTap.C38_one_third_violation",
    "Verif.ThreeTap.C38_example_violation"
   ],
   "note": "All three modes proved; the float nearest 1/3 is rejected and the documented example is wrong (violations). Rounding not modelled."
  },
  {
   "property": "C39",
   "status": "proved",
   "theorems": [
    "Verif.Fft.C39_make",
    "Verif.Fft.C39_complex_forward",
    "Verif.Fft.C39_complex_inverse",
    "Verif.Fft.C39_complex_roundtrip",
    "Verif.Fft.C39_real_forward",
    "Verif.Fft.C39_real_inverse",
    "Verif.Fft.C39_real_roundtrip"
   ],
   "note": "Forward and inverse complex and real transforms equal the DFT for every positive size, with Bluestein's algorithm, the conjugate reflection, normalization and size checks modelled in detail; the external Kiss FFT kernels are modelled by their documented function and kiss_fft_next_fast_size only by rounding up. Rounding not modelled."
  },
  {
   "property": "C40",
   "status": "partial",
   "theorems": [
    "Verif.Fft.C40_convolution",
    "Verif.Fft.C40_self_convolution",
    "Verif.Fft.C40_empty_violation",
    "Verif.Fft.C40_bandpass_spectrum",
    "Verif.Fft.C40_bandpass_rejects",
    "Verif.Fft.C40_lowpass_spectrum",
    "Verif.Fft.C40_highpass_spectrum_partial",
    "Verif.Fft.C40_highpass_spectrum_violation",
    "Verif.Fft.C40_fft_bandpass",
    "Verif.Fft.C40_fft_lowpass_highpass"
   ],
   "note": "All of it proved, except: HardHighpassSpectrum aborts for documented band edges above the last half bin (C40_highpass_spectrum_violation); LinearConvolution with one empty input overflows its buffer (C40_empty_violation)."
  },
  {
   "property": "C41",
   "status": "partial",
   "theorems": [
    "Verif.FastFun.C41_log2",
    "Verif.FastFun.C41_log2_monotone",
    "Verif.FastFun.C41_decode_monotone",
    "Verif.FastFun.C41_exp2",
    "Verif.FastFun.C41_exp2_integer",
    "Verif.FastFun.C41_exp2_monotone",
    "Verif.FastFun.C41_pow_general",
    "Verif.FastFun.C41_pow_partial",
    "Verif.FastFun.C41_pow_violation",
    "Verif.FastFun.C41_tanh_range",
    "Verif.FastFun.C41_tanh",
    "Verif.FastFun.C41_tanh_not_monotone"
   ],
   "note": "Bit-level model of the tables and of correctly rounded float operations. log2, exp2, tanh and monotonicity proved as documented. FastPow's 0.5% is proved for |y| <= 3/2 (C41_pow_partial) with a general bound growing with |y| (C41_pow_general); without that restriction it is false (C41_pow_violation)."
  },
  {
   "property": "C42",
   "status": "proved",
   "theorems": [
    "Verif.Phasor.C42_rotator",
    "Verif.Phasor.C42_renormalize",
    "Verif.Phasor.C42_phasor_vector",
    "Verif.Phasor.C42_sine_wave"
   ],
   "note": "Over the reals. C42_renormalize covers arbitrary nonzero (drifted) phasors; also ComputePhasorVector and ComputeSineWaveVector."
  },
  {
   "property": "C43",
   "status": "proved",
   "theorems": [
    "Verif.Fir.C43_teager"
   ],
   "note": "Over any commutative ring; the normaliser is a parameter."
  },
  {
   "property": "C44",
   "status": "partial",
   "theorems": [
    "Verif.VectorUtil.C44_location",
    "Verif.VectorUtil.C44_ends",
    "Verif.VectorUtil.C44_maximum",
    "Verif.VectorUtil.C44_vertex",
    "Verif.VectorUtil.C44_near_symmetric",
    "Verif.VectorUtil.C44_symmetric_valley_violation"
   ],
   "note": "Location guarantee and maximality proved; a nearly symmetric valley returns the minimum instead of the maximum (violation)."
  },
  {
   "property": "C45",
   "status": "proved",
   "theorems": [
    "Verif.VectorUtil.C45_stats",
    "Verif.VectorUtil.C45_variance",
    "Verif.VectorUtil.C45_energy",
    "Verif.VectorUtil.C45_rmse",
    "Verif.VectorUtil.C45_zscore",
    "Verif.VectorUtil.C45_find_max",
    "Verif.VectorUtil.C45_max_magnitude",
    "Verif.VectorUtil.C45_max_magnitude_complex",
    "Verif.VectorUtil.C45_elementwise",
    "Verif.VectorUtil.C45_zscore_constant"
   ],
   "note": "Exact arithmetic; rounding not modelled."
  },
  {
   "property": "C46",
   "status": "partial",
   "theorems": [
    "Verif.MultiCrossover.C46_wrap_angle",
    "Verif.MultiCrossover.C46_bands",
    "Verif.MultiCrossover.C46_transfer",
    "Verif.MultiCrossover.C46_never_aborts",
    "Verif.MultiCrossover.C46_reset",
    "Verif.MultiCrossover.C46_in_phase_partial",
    "Verif.MultiCrossover.C46_amplitudes_sum_partial",
    "Verif.MultiCrossover.C46_sum_at_most_one_partial",
    "Verif.MultiCrossover.C46_two_bands_flat",
    "Verif.MultiCrossover.C46_corrections",
    "Verif.MultiCrossover.C46_init_succeeds_partial",
    "Verif.MultiCrossover.C46_stable_partial",
    "Verif.MultiCrossover.C46_linkwitz_transfer_partial",
    "Verif.MultiCrossover.C46_init_abort_violation"
   ],
   "note": "Any number of bands. Proved: every band is its filter path for every block split (C46_bands, C46_transfer); Linkwitz-Riley designs: bands in phase at all crossover frequencies, amplitudes add to one, sum at most one, flat for two bands, stability, number of corrections; no aborts over any call history and Reset restores Init (order 4M). Hypotheses that make it partial: frequencies in the range where Simplify drops no coefficient (C47), last denominator coefficient of every phase correction above 1e-10, exact ladders (eta = 0, see C25). Violation: increasing frequencies for which Init aborts (order 8, three bands: correction of exactly pi is refused)."
  },
  {
   "property": "C47",
   "status": "partial",
   "theorems": [
    "Verif.PoleZero.C47_sum_flat_partial",
    "Verif.PoleZero.C47_violation"
   ],
   "note": "Proved for all orders under explicit bounds that keep stage gains above Simplify's 1e-10; C47_violation: order 8 at 46 Hz/48 kHz sums to 11/16 at DC."
  },
  {
   "property": "C48",
   "status": "partial",
   "theorems": [
    "Verif.PoleZero.C48_shift_partial",
    "Verif.PoleZero.C48_violation"
   ],
   "note": "Proved for complex roots and real roots with p^2 <= center^2; false for other real roots (C48_violation: a double root instead of two different ones)."
  },
  {
   "property": "C49",
   "status": "proved",
   "theorems": [
    "Verif.PortableComplex.C49_ring",
    "Verif.PortableComplex.C49_div_abs",
    "Verif.PortableComplex.C49_sqrt",
    "Verif.PortableComplex.C49_exp_log_trig",
    "Verif.PortableComplex.C49_acosh",
    "Verif.PortableComplex.C49_asinh",
    "Verif.PortableComplex.C49_acos",
    "Verif.PortableComplex.C49_asin",
    "Verif.PortableComplex.C49_branch_cut_violation"
   ],
   "note": "Over the reals: rounding and signed zeros are not modelled. C49_branch_cut_violation: on the real branch cut x > 1 Acos and Asin return the conjugate of the C++ standard library's value."
  },
  {
   "property": "C50",
   "status": "partial",
   "theorems": [
    "Verif.PoleZero.C50_coefficients_partial",
    "Verif.PoleZero.C50_no_roots_violation"
   ],
   "note": "Proved for roots that are zero or above 1e-5 in magnitude; violation without roots (gain is dropped)."
  },
  {
   "property": "C51",
   "status": "partial",
   "theorems": [
    "Verif.ArithmeticSequence.C51_size",
    "Verif.ArithmeticSequence.C51_elements",
    "Verif.ArithmeticSequence.C51_last_element_partial",
    "Verif.ArithmeticSequence.C51_last_element_violation"
   ],
   "note": "Size and all elements but the last hold for every step; the last element claim is false for large steps (C51_last_element_violation) and proved for step <= 1."
  },
  {
   "property": "C52",
   "status": "partial",
   "theorems": [
    "Verif.BatchTopN.C52_nonperiodic",
    "Verif.BatchTopN.C52_periodic_partial",
    "Verif.BatchTopN.C52_periodic_violation"
   ],
   "note": "Non-periodic version proved. Periodic version is false at index 0 when it equals a neighbour (C52_periodic_violation); proved otherwise."
  },
  {
   "property": "C53",
   "status": "partial",
   "theorems": [
    "Verif.Wav.C53_header_reports",
    "Verif.Wav.C53_samples_report",
    "Verif.Wav.C53_file_reports_partial",
    "Verif.Wav.C53_lost_samples_violation"
   ],
   "note": "WriteWavHeader and WriteWavSamples: exact (iff). WriteWavFile: refuted by C53_lost_samples_violation (sample write errors ignored); C53_file_reports_partial states what it does report."
  },
  {
   "property": "C54",
   "status": "partial",
   "theorems": [
    "Verif.Resampler.C54_accepted_configuration_works_partial",
    "Verif.Resampler.C54_short_filter_violation",
    "Verif.Resampler.C54_zero_factor_violation"
   ],
   "note": "Every call from every valid state works when the factor is a positive fraction at most num_taps (C08_states_stay_valid), which filter_radius_factor >= 1/2 guarantees. False in general: filter_radius_factor 1/4 with factor 4 makes the new delayed-input size negative; upsampling by 2500 with max_denominator 1000 makes the factor numerator 0 (division by zero)."
  },
  {
   "property": "C55",
   "status": "proved",
   "theorems": [
    "Verif.Spectrogram.C55_perfect_reconstruction"
   ],
   "note": "Real arithmetic; rounding not modelled."
  },
  {
   "property": "C56",
   "status": "partial",
   "theorems": [
    "Verif.NelderMead.C56_lowest_seen_partial",
    "Verif.NelderMead.C56_negative_tolerance",
    "Verif.NelderMead.C56_lowest_seen_violation",
    "Verif.NelderMead.C56_zero_tolerance_violation",
    "Verif.NelderMead.C56_set_simplex_violation"
   ],
   "note": "Lowest-seen holds when the conversion to float does not lower the highest value (always for Scalar = float); violated for double, for a tolerance of exactly zero, and for SetSimplex (C56_*_violation)."
  },
  {
   "property": "C57",
   "status": "proved",
   "theorems": [
    "Verif.FilterDesign.C57_low_shelf",
    "Verif.FilterDesign.C57_high_shelf",
    "Verif.FilterDesign.C57_parametric_peak",
    "Verif.FilterDesign.C57_parametric_peak_symmetric",
    "Verif.FilterDesign.C57_symmetric_gain_zero"
   ],
   "note": "Over the reals (the code rounds parameters to float)."
  },
  {
   "property": "C58",
   "status": "partial",
   "theorems": [
    "Verif.FilterDesign.C58_allpass_partial",
    "Verif.FilterDesign.C58_allpass_minimum",
    "Verif.FilterDesign.C58_allpass_violation"
   ],
   "note": "Proved for every group delay strictly above the infimum; at the infimum, which CheckAllPassConfiguration accepts, the coefficients are 0/0 (C58_allpass_violation)."
  },
  {
   "property": "C59",
   "status": "proved",
   "theorems": [
    "Verif.PoleZero.C59_lowpass",
    "Verif.PoleZero.C59_highpass",
    "Verif.PoleZero.C59_power_complementary"
   ],
   "note": "Every order from 1 to 49999 (beyond that a pole could fall under Simplify's threshold); exact real arithmetic."
  },
  {
   "property": "C60",
   "status": "partial",
   "theorems": [
    "Verif.PoleZero.C60_bilinear_partial",
    "Verif.PoleZero.C60_bilinear_violation",
    "Verif.PoleZero.C60_lowpass_partial",
    "Verif.PoleZero.C60_highpass_partial",
    "Verif.PoleZero.C60_bandpass_partial",
    "Verif.PoleZero.C60_bandstop_partial",
    "Verif.PoleZero.C60_stable",
    "Verif.PoleZero.C60_bandpass_violation"
   ],
   "note": "Frequency maps for left-half-plane prototypes with digital roots zero or above 1e-5; band maps need ((t2-t1)p/2)^2 <= t1 t2 for real roots p, violation otherwise (order-1 Butterworth bandpass). Sign of negative gain and improper filters: violations."
  },
  {
   "property": "C61",
   "status": "partial",
   "theorems": [
    "Verif.PoleZero.C61_eval_partial",
    "Verif.PoleZero.C61_eval_violation"
   ],
   "note": "Right up to the sign (-1)^(#poles+#zeros) for analog systems; C61_eval_violation."
  },
  {
   "property": "C62",
   "status": "partial",
   "theorems": [
    "Verif.Windows.C62_rectangular",
    "Verif.Windows.C62_cosine",
    "Verif.Windows.C62_hamming",
    "Verif.Windows.C62_hann",
    "Verif.Windows.C62_nuttall",
    "Verif.Windows.C62_quartic",
    "Verif.Windows.C62_quadrature",
    "Verif.Windows.C62_set_radius_violation",
    "Verif.Windows.C62_quadrature_error",
    "Verif.Windows.C62_kaiser",
    "Verif.Windows.C62_planck_taper",
    "Verif.Windows.C62_kaiser_bessel"
   ],
   "note": "Rectangular, cosine, Hamming, Hann, Nuttall and quartic: equality with the integral outside the tolerance zones and at the singularities, error at most 1e-7 radii everywhere. Kaiser and Planck-taper: equal to the 1025-point rectangle rule, whose error is at most (1 + 2 pi |f| r) r / 512 (C62_quadrature_error, for every window of the documented shape), also against the Kaiser window with the exact Bessel function (C62_kaiser_bessel). Violation: set_radius keeps stale memoized samples for Planck-taper."
  },
  {
   "property": "C63",
   "status": "partial",
   "theorems": [
    "Verif.Mfcc.C63_mfcc",
    "Verif.Mfcc.C63_uninitialized",
    "Verif.Mfcc.C63_short_frame_violation"
   ],
   "note": "Proved for frames of at least the initialized length. Violation proved: a too short frame gives a vector of zeros."
  },
  {
   "property": "C64",
   "status": "partial",
   "theorems": [
    "Verif.VectorUtil.C64_forward",
    "Verif.VectorUtil.C64_forward_blocks",
    "Verif.VectorUtil.C64_backward",
    "Verif.VectorUtil.C64_smooth_empty_violation",
    "Verif.VectorUtil.C64_block_dc",
    "Verif.VectorUtil.C64_block_dc_constant",
    "Verif.VectorUtil.C64_constant",
    "Verif.VectorUtil.C64_range",
    "Verif.VectorUtil.C64_smooth_range",
    "Verif.VectorUtil.C64_smooth_constant_violation",
    "Verif.VectorUtil.C64_coefficient",
    "Verif.VectorUtil.C64_hermitian",
    "Verif.VectorUtil.C64_hermitian_constant_violation"
   ],
   "note": "Smoothers, range, coefficient, BlockDC proved; SmoothVector reads an empty container and, like HermitianSmoothVector, does not preserve constants (violations)."
  },
  {
   "property": "C65",
   "status": "proved",
   "theorems": [
    "Verif.VectorUtil.C65_filter"
   ],
   "note": "Exact arithmetic over any commutative ring."
  },
  {
   "property": "C66",
   "status": "partial",
   "theorems": [
    "Verif.VectorUtil.C66_lowpass",
    "Verif.VectorUtil.C66_symmetric",
    "Verif.VectorUtil.C66_highpass",
    "Verif.VectorUtil.C66_highpass_error",
    "Verif.VectorUtil.C66_bandpass",
    "Verif.VectorUtil.C66_zero_rate_violation"
   ],
   "note": "Designs proved for positive rates; rate 0 with edge 0 passes the checks and gives NaN (violation)."
  },
  {
   "property": "C67",
   "status": "partial",
   "theorems": [
    "Verif.VectorUtil.C67_phasor",
    "Verif.VectorUtil.C67_sine_wave",
    "Verif.VectorUtil.C67_generate_sine",
    "Verif.VectorUtil.C67_eigen_partial",
    "Verif.VectorUtil.C67_eigen_phase_violation"
   ],
   "note": "Formulas proved; GenerateSineEigen applies the phase with the opposite sign (violation)."
  },
  {
   "property": "C68",
   "status": "proved",
   "theorems": [
    "Verif.VectorUtil.C68_weighted",
    "Verif.VectorUtil.C68_unweighted",
    "Verif.VectorUtil.C68_best",
    "Verif.VectorUtil.C68_equal"
   ],
   "note": "Exact arithmetic; with rounding the result may equal the period."
  },
  {
   "property": "C69",
   "status": "partial",
   "theorems": [
    "Verif.Fft.C69_interpolates",
    "Verif.Fft.C69_upsample",
    "Verif.Fft.C69_upsample_samples",
    "Verif.Fft.C69_upsample_rejects",
    "Verif.Fft.C69_resample_partial",
    "Verif.Fft.C69_resample_same",
    "Verif.Fft.C69_resample_even",
    "Verif.Fft.C69_resample_empty_violation",
    "Verif.Fft.C69_roundtrip_partial",
    "Verif.Fft.C69_roundtrip_violation"
   ],
   "note": "Proved for all upsampling and for downsampling to odd sizes; to even sizes the sinusoid at half the output rate is halved (C69_resample_even, C69_roundtrip_violation); an output size that rounds to zero aborts (C69_resample_empty_violation). The DCHECK on the factor is modelled as a precondition."
  },
  {
   "property": "C70",
   "status": "partial",
   "theorems": [
    "Verif.Fft.C70_spectrum",
    "Verif.Fft.C70_empty",
    "Verif.Fft.C70_sum",
    "Verif.Fft.C70_zero",
    "Verif.Fft.C70_compose",
    "Verif.Fft.C70_constant",
    "Verif.Fft.C70_documented_sum_violation"
   ],
   "note": "The spectral statement and its consequences are proved; the documented sum over a sampled Gaussian is refuted (C70_documented_sum_violation)."
  },
  {
   "property": "C71",
   "status": "partial",
   "theorems": [
    "Verif.MultibandCompressor.C71_output",
    "Verif.MultibandCompressor.C71_block_invariance",
    "Verif.MultibandCompressor.C71_transfer_partial",
    "Verif.MultibandCompressor.C71_reset_violation",
    "Verif.MultibandCompressor.C71_init_forgets_frequencies_violation",
    "Verif.MultibandCompressor.C71_set_drc"
   ],
   "note": "Proved: output = sum over bands of the documented per-band dynamic range control of the band signals, never aborting, for all block divisions (C71_output, C71_block_invariance); per-stage isolation (C71_set_drc). With exact ladder filters the band signals obey the designed transfer functions (C71_transfer_partial). Violations: Reset replaces the parameters of all bands by defaults, i.e. switches compression off (C71_reset_violation); Init forgets frequencies set with SetCrossoverFrequencies (C71_init_forgets_frequencies_violation). Rounding not modelled."
  },
  {
   "property": "C72",
   "status": "partial",
   "theorems": [
    "Verif.BiquadAnalysis.C72_real_roots",
    "Verif.BiquadAnalysis.C72_poles_partial",
    "Verif.BiquadAnalysis.C72_poles_near",
    "Verif.BiquadAnalysis.C72_poles_violation",
    "Verif.BiquadAnalysis.C72_peak_partial",
    "Verif.BiquadAnalysis.C72_peak_attained",
    "Verif.BiquadAnalysis.C72_peak_violation",
    "Verif.BiquadAnalysis.C72_set_gain",
    "Verif.BiquadAnalysis.C72_set_peak_gain_partial",
    "Verif.BiquadAnalysis.C72_decay_infinite",
    "Verif.BiquadAnalysis.C72_decay_partial",
    "Verif.BiquadAnalysis.C72_decay_violation"
   ],
   "note": "Proved over exact reals for all coefficients whose discriminants are not in the nonzero tolerance zone; inside it two violations are proved (an unstable filter given a finite decay time; a stable filter whose peak gain is underestimated by more than a factor of two). The decay bound carries the factor n+1 of a double pole; without it the claim is false (C72_decay_violation)."
  },
  {
   "property": "C73",
   "status": "partial",
   "theorems": [
    "Verif.BiquadAnalysis.C73_bisection_grid",
    "Verif.BiquadAnalysis.C73_bisection_unimodal",
    "Verif.BiquadAnalysis.C73_identity_violation",
    "Verif.BiquadAnalysis.C73_peak_violation"
   ],
   "note": "Proved: result on the grid, and precision for single-peaked functions. The documented claim is violated: lowest frequency (C73_identity_violation) and maximality (C73_peak_violation)."
  },
  {
   "property": "C74",
   "status": "proved",
   "theorems": [
    "Verif.Decibels.C74_to_db",
    "Verif.Decibels.C74_from_db",
    "Verif.Decibels.C74_round_trip",
    "Verif.Decibels.C74_arrays",
    "Verif.Decibels.C74_algebra"
   ],
   "note": "Over exact reals; arguments of the logarithms positive."
  },
  {
   "property": "C75",
   "status": "partial",
   "theorems": [
    "Verif.PerceptualFilter.C75_response_partial",
    "Verif.PerceptualFilter.C75_dropped",
    "Verif.PerceptualFilter.C75_no_drop",
    "Verif.PerceptualFilter.C75_proper",
    "Verif.PerceptualFilter.C75_frequency_partial",
    "Verif.PerceptualFilter.C75_low_rate_violation",
    "Verif.PerceptualFilter.C75_unity"
   ],
   "note": "Response, stability, DC zero for every rate outside narrow intervals where a real digital pole has magnitude in (0, 1e-5]; C75_proper, C75_no_drop: rates above 6.3 kHz have no excess factor, rates above 24.4 kHz drop nothing. C75_low_rate_violation: D at 4 kHz and K at 3 kHz are too loud, because more zeros than poles are kept."
  },
  {
   "property": "C76",
   "status": "partial",
   "theorems": [
    "Verif.Loudness.C76_output",
    "Verif.Loudness.C76_unique",
    "Verif.Loudness.C76_reset",
    "Verif.Loudness.C76_init_false",
    "Verif.Loudness.C76_average",
    "Verif.Loudness.C76_nonneg",
    "Verif.Loudness.C76_scale",
    "Verif.Loudness.C76_silent_weight",
    "Verif.Loudness.C76_mono",
    "Verif.Loudness.C76_stereo",
    "Verif.Loudness.C76_surround51",
    "Verif.Loudness.C76_vector",
    "Verif.Loudness.C76_failed_init_violation",
    "Verif.Loudness.C76_second_order_violation"
   ],
   "note": "Output formula, block invariance, uniqueness, Reset, scaling, silent weights, exponential average, gains and time constant of the three layouts of the recommendation, no NaN for the recommended averaging, ProcessVector, Init result: proved for rates of at least 121 Hz, over exact reals. Violations: a permitted second-order averaging filter gives NaN (C76_second_order_violation); a failed Init leaves the meter reading past its weights (C76_failed_init_violation)."
  },
  {
   "property": "C77",
   "status": "partial",
   "theorems": [
    "Verif.LoudnessCompressor.C77_output",
    "Verif.LoudnessCompressor.C77_reset_partial",
    "Verif.LoudnessCompressor.C77_init_false",
    "Verif.LoudnessCompressor.C77_reset_violation",
    "Verif.LoudnessCompressor.C77_unchecked_curve_violation",
    "Verif.LoudnessCompressor.C77_failed_init_violation",
    "Verif.LoudnessCompressor.C77_low_rate_violation",
    "Verif.LoudnessCompressor.C77_nan_violation",
    "Verif.LoudnessCompressor.C77_default_rate_violation"
   ],
   "note": "C77_output proves the output formula, the block invariance and the acceptance of documented parameters at rates of at least 1200 Hz; C77_reset_partial proves Reset without look-ahead, and C77_reset_violation that Reset does not clear the look-ahead; C77_init_false proves the return value of Init; C77_unchecked_curve_violation, C77_low_rate_violation, C77_nan_violation and C77_default_rate_violation prove where Init aborts or accepts parameters that make processing abort, lock the gain or change the time constant; C77_failed_init_violation that a rejected Init changes the gain of later blocks. Exact reals: rounding is not modelled."
  },
  {
   "property": "C78",
   "status": "partial",
   "theorems": [
    "Verif.AuditoryFilterbank.C78_design",
    "Verif.AuditoryFilterbank.C78_few_stages",
    "Verif.AuditoryFilterbank.C78_checks",
    "Verif.AuditoryFilterbank.C78_no_selection",
    "Verif.AuditoryFilterbank.C78_selection_violation",
    "Verif.AuditoryFilterbank.C78_sample_rate_violation",
    "Verif.AuditoryFilterbank.C78_min_rate_violation",
    "Verif.AuditoryFilterbank.C78_second_init_violation",
    "Verif.AuditoryFilterbank.C78_no_stages_violation",
    "Verif.AuditoryFilterbank.C78_nyquist_violation"
   ],
   "note": "Proved for all parameters with a first pole below Nyquist (C78_design): existence and properties of the design, and Init produces it unless Simplify takes a feed-forward polynomial for one of lower order (premise Numerators; discharged for few stages by C78_few_stages). Gain one at the peak found; that the peak is the maximum is only shown on the 98 grid points. Violations: documented channel selection, GetSampleRate(), min_sample_rate, second Init, no stages, Nyquist fraction one. Over the reals (no rounding)."
  },
  {
   "property": "C79",
   "status": "proved",
   "theorems": [
    "Verif.AuditoryFilterbank.C79_output",
    "Verif.AuditoryFilterbank.C79_reset"
   ],
   "note": "For all parameters as in C78 (premise Numerators on the coefficients), all signals and divisions into blocks, over the reals."
  },
  {
   "property": "C80",
   "status": "partial",
   "theorems": [
    "Verif.ParametricEqualizer.C80_bookkeeping",
    "Verif.ParametricEqualizer.C80_response_partial",
    "Verif.ParametricEqualizer.C80_moderate",
    "Verif.ParametricEqualizer.C80_checks",
    "Verif.ParametricEqualizer.C80_clear",
    "Verif.ParametricEqualizer.C80_clear_identity",
    "Verif.ParametricEqualizer.C80_order",
    "Verif.ParametricEqualizer.C80_order_violation",
    "Verif.ParametricEqualizer.C80_empty_violation"
   ],
   "note": "Proved: bookkeeping after any history; response, stability and levels of every band for stages of degree two (C80_moderate: quality factors from 0.51 without extreme frequency or gain, and every peak outside a few frequencies); checks; ClearAllGains keeps what it should and its filter is the identity on every input. Missing: exact response when Simplify merges stages of lower degree. Violations: the number of stages depends on bypass flags (header says it does not); an equalizer without stages is undefined behaviour."
  },
  {
   "property": "C81",
   "status": "partial",
   "theorems": [
    "Verif.ParametricEqualizer.C81_only_gains",
    "Verif.ParametricEqualizer.C81_step",
    "Verif.ParametricEqualizer.C81_fit_partial",
    "Verif.ParametricEqualizer.C81_disabled_violation",
    "Verif.ParametricEqualizer.C81_no_iterations",
    "Verif.ParametricEqualizer.C81_least_squares_violation"
   ],
   "note": "Proved: only gains change, independent of the gains before; every step is the unique regularised least-squares solution; the result for any number of iterations (stages of degree two). Violations: a disabled stage aborts although it is documented as ignored; the regularisation loses more than half of a 0.01 dB target that can be met exactly; with no iterations the gains are 6 dB."
  },
  {
   "property": "C82",
   "status": "partial",
   "theorems": [
    "Verif.ParametricEqualizer.C82_no_memory",
    "Verif.ParametricEqualizer.C82_fit",
    "Verif.ParametricEqualizer.C82_returns",
    "Verif.ParametricEqualizer.C82_disabled_violation",
    "Verif.ParametricEqualizer.C82_default_bounds_violation"
   ],
   "note": "Proved without restriction for every call that returns: kinds, flags, bounds, value returned = RMS error of the equalizer left, not worse than the starting guess; objective function without memory; it returns whenever the objective is defined within the bounds. Violations: a disabled stage aborts; the default bounds at 48 kHz abort for a filter starting at 22 kHz."
  },
  {
   "property": "C83",
   "status": "proved",
   "theorems": [
    "Verif.IirDesign.C83_init",
    "Verif.IirDesign.C83_eval",
    "Verif.IirDesign.C83_bilinear",
    "Verif.IirDesign.C83_bilinear_failure",
    "Verif.IirDesign.C83_lowpass",
    "Verif.IirDesign.C83_highpass",
    "Verif.IirDesign.C83_bandpass",
    "Verif.IirDesign.C83_bandstop",
    "Verif.IirDesign.C83_band_failure"
   ],
   "note": "Exact real arithmetic. Theorems for the documented domain (positive cutoffs, stable prototypes with no more zeros than poles); the 15-pole limit is C83_band_failure."
  },
  {
   "property": "C84",
   "status": "partial",
   "theorems": [
    "Verif.IirDesign.C84_sort",
    "Verif.IirDesign.C84_biquads_partial",
    "Verif.IirDesign.C84_biquads_failure",
    "Verif.IirDesign.C84_stale_violation"
   ],
   "note": "Conversion to biquads is proved for filters with as many zeros as poles (what the bilinear transform gives); with fewer zeros the code reads unused entries of the zeros array, C84_stale_violation. Roots must be real or clearly complex (imaginary part above 100 DBL_EPSILON times the modulus)."
  },
  {
   "property": "C85",
   "status": "partial",
   "theorems": [
    "Verif.IirDesign.C85_bandpass_clear_partial",
    "Verif.IirDesign.C85_bandstop_clear_partial",
    "Verif.IirDesign.C85_lowpass_partial",
    "Verif.IirDesign.C85_highpass_partial",
    "Verif.IirDesign.C85_bandpass_partial",
    "Verif.IirDesign.C85_bandstop_partial",
    "Verif.IirDesign.C85_failure",
    "Verif.IirDesign.C85_band_failure",
    "Verif.IirDesign.C85_order_violation",
    "Verif.IirDesign.C85_bandpass_violation",
    "Verif.IirDesign.C85_bandstop_violation",
    "Verif.IirDesign.C85_cutoff_violation"
   ],
   "note": "Lowpass and highpass: all orders up to 30 and cutoffs at least 1e-9 of the rate away from 0 and Nyquist. Bandpass and bandstop: all orders up to 15, for even orders all bands with margins of 1e-9 of the rate (C85_bandpass_clear_partial, C85_bandstop_clear_partial), for odd orders outside a sliver of bands (RealClear). Missing: orders above 30 (C85_order_violation: out-of-bounds write), orders 16 to 30 of band filters (C85_bandpass_violation, C85_bandstop_violation: wrong filter reported as success), cutoff 0 (C85_cutoff_violation)."
  },
  {
   "property": "C86",
   "status": "partial",
   "theorems": [
    "Verif.IirDesign.C86_chebyshev1_bandpass_clear_partial",
    "Verif.IirDesign.C86_chebyshev2_bandpass_clear_partial",
    "Verif.IirDesign.C86_chebyshev1_bandstop_clear_partial",
    "Verif.IirDesign.C86_chebyshev2_bandstop_clear_partial",
    "Verif.IirDesign.C86_chebyshev1_lowpass_partial",
    "Verif.IirDesign.C86_chebyshev1_highpass_partial",
    "Verif.IirDesign.C86_chebyshev1_bandpass_partial",
    "Verif.IirDesign.C86_chebyshev1_bandstop_partial",
    "Verif.IirDesign.C86_chebyshev2_lowpass_partial",
    "Verif.IirDesign.C86_chebyshev2_highpass_partial",
    "Verif.IirDesign.C86_chebyshev2_bandpass_partial",
    "Verif.IirDesign.C86_chebyshev2_bandstop_partial",
    "Verif.IirDesign.C86_chebyshev1_failure",
    "Verif.IirDesign.C86_chebyshev1_band_failure",
    "Verif.IirDesign.C86_chebyshev1_order_violation",
    "Verif.IirDesign.C86_chebyshev2_failure",
    "Verif.IirDesign.C86_chebyshev2_band_failure",
    "Verif.IirDesign.C86_chebyshev2_order_violation",
    "Verif.IirDesign.C86_bandpass_violation",
    "Verif.IirDesign.C86_bandstop_violation",
    "Verif.IirDesign.C86_bandpass2_violation"
   ],
   "note": "As C85, with ripple at least 1e-11 dB (type 1) and at most 120 dB (type 2) for lowpass and highpass. Missing: orders above 30 (out-of-bounds write), orders 16 to 30 of band filters (wrong filter reported as success); ripple at or below 0 is not checked by the code and not covered."
  },
  {
   "property": "C87",
   "status": "proved",
   "theorems": [
    "Verif.PortableButterworth.C87_lowpass",
    "Verif.PortableButterworth.C87_highpass",
    "Verif.PortableButterworth.C87_bandpass",
    "Verif.PortableButterworth.C87_failure",
    "Verif.PortableButterworth.C87_process"
   ],
   "note": "Exact real arithmetic. Coefficients of the bandpass in the order written by the code; the response does not depend on the order."
  },
  {
   "property": "C88",
   "status": "proved",
   "theorems": [
    "Verif.Elliptic.C88_moduli",
    "Verif.Elliptic.C88_K",
    "Verif.Elliptic.C88_K_one",
    "Verif.Elliptic.C88_F_real",
    "Verif.Elliptic.C88_F_complete",
    "Verif.Elliptic.C88_F_complex",
    "Verif.Elliptic.C88_F_small",
    "Verif.Elliptic.C88_spec_real"
   ],
   "note": "Exact real and complex arithmetic (rounding not modelled). C++ and C. Complex amplitudes: error relative to the integral of the modulus of the integrand along the segment; the case 0 < m <= 2^-104 with |Im phi| > 17 is excluded."
  },
  {
   "property": "C89",
   "status": "proved",
   "theorems": [
    "Verif.Elliptic.C89_amplitude",
    "Verif.Elliptic.C89_inverse",
    "Verif.Elliptic.C89_inverse_real",
    "Verif.Elliptic.C89_range_violation"
   ],
   "note": "Inverse in both directions inside the documented range; the documented cn(u|m) = cos(phi) fails for real u beyond K(m) (C89_range_violation)."
  },
  {
   "property": "C90",
   "status": "proved",
   "theorems": [
    "Verif.Bessel.C90_spec_integral",
    "Verif.Bessel.C90_recursion",
    "Verif.Bessel.C90_I0",
    "Verif.Bessel.C90_I1",
    "Verif.Bessel.C90_small",
    "Verif.Bessel.C90_symmetry",
    "Verif.Bessel.C90_monotone",
    "Verif.Bessel.C90_portable"
   ],
   "note": "Real arithmetic with the code's truncation rules and epsilon; exp and sqrt exact; rounding not modelled. The asymptotic range uses the integral representation with an explicit remainder bound."
  },
  {
   "property": "C91",
   "status": "partial",
   "theorems": [
    "Verif.RationalFactorResampler.C91_same_as_q",
    "Verif.RationalFactorResampler.C91_polyphase",
    "Verif.RationalFactorResampler.C91_interpolates",
    "Verif.RationalFactorResampler.C91_fully_primed",
    "Verif.RationalFactorResampler.C91_flush",
    "Verif.RationalFactorResampler.C91_eigen_partial",
    "Verif.RationalFactorResampler.C91_eigen_stale_violation",
    "Verif.RationalFactorResampler.C91_short_filter_violation"
   ],
   "note": "Exact arithmetic; int overflow not modelled. Partial because of the two findings (stale output of ProcessSamplesEigen, short filters); everything else holds without further restriction."
  },
  {
   "property": "C92",
   "status": "partial",
   "theorems": [
    "Verif.RationalFactorResampler.C92_kernel_valid",
    "Verif.RationalFactorResampler.C92_kernel_even_and_supported",
    "Verif.RationalFactorResampler.C92_kernel_accuracy",
    "Verif.RationalFactorResampler.C92_factor",
    "Verif.RationalFactorResampler.C92_approximated_factor",
    "Verif.RationalFactorResampler.C92_zero_factor_violation",
    "Verif.RationalFactorResampler.C92_migration_kernel",
    "Verif.RationalFactorResampler.C92_migration_violation",
    "Verif.RationalFactorResampler.C92_clear_integer",
    "Verif.RationalFactorResampler.C92_migration"
   ],
   "note": "Real arithmetic; rounding not modelled. Partial because of the two findings (rejected conversion, factor 0). The agreement of outputs excludes filter points in the relative zone (1, 1+1e-12] outside the radius, shown empty for integer radius."
  },
  {
   "property": "C93",
   "status": "partial",
   "theorems": [
    "Verif.WavString.C93_quantize_partial",
    "Verif.WavString.C93_nan_violation",
    "Verif.WavString.C93_quantize_total",
    "Verif.WavString.C93_quantization_error",
    "Verif.WavString.C93_string_is_file",
    "Verif.WavString.C93_round_trip",
    "Verif.WavString.C93_float_string",
    "Verif.WavString.C93_float_round_trip",
    "Verif.WavString.C93_arguments_violation",
    "Verif.WavString.C93_size_violation"
   ],
   "note": "NaN samples are written as -32768 (C93_nan_violation), so quantization is proved for all other floats; argument checks and sizes are missing in the code (violations)."
  },
  {
   "property": "C94",
   "status": "partial",
   "theorems": [
    "Verif.WavString.C94_quantize_partial",
    "Verif.WavString.C94_read_file_partial",
    "Verif.WavString.C94_full_scale_violation",
    "Verif.WavString.C94_read16_file",
    "Verif.WavString.C94_outcomes",
    "Verif.WavString.C94_round_trip"
   ],
   "note": "Complete except for float samples of at least 1, for which the code has undefined behaviour (C94_full_scale_violation). Allocation and close outcomes are parameters."
  },
  {
   "property": "C95",
   "status": "partial",
   "theorems": [
    "Verif.PoleZero.C95_type1_lowpass_partial",
    "Verif.PoleZero.C95_type1_highpass_partial",
    "Verif.PoleZero.C95_type1_bandpass_partial",
    "Verif.PoleZero.C95_type1_bandstop_partial",
    "Verif.PoleZero.C95_type2_lowpass_partial",
    "Verif.PoleZero.C95_type2_highpass_partial",
    "Verif.PoleZero.C95_type2_bandpass_partial",
    "Verif.PoleZero.C95_type2_bandstop_partial",
    "Verif.PoleZero.C95_butterworth_bandpass_partial",
    "Verif.PoleZero.C95_butterworth_bandstop_partial",
    "Verif.PoleZero.C95_bandpass_violation"
   ],
   "note": "Proved for orders up to 45000; odd-order band designs under an explicit condition on the band (BandClear), outside which the design is wrong (C95_bandpass_violation). Rounding not modelled."
  },
  {
   "property": "C96",
   "status": "partial",
   "theorems": [
    "Verif.SpectralProperties.C96_result",
    "Verif.SpectralProperties.C96_abort",
    "Verif.SpectralProperties.C96_width",
    "Verif.SpectralProperties.C96_radius_violation",
    "Verif.SpectralProperties.C96_rectangular"
   ],
   "note": "Result, abort condition and accuracy of the width proved for every window, transform and monotone conversion to float; the rectangular window works for radii from 1/4 to 12. The last part of the claim is false: C96_radius_violation, radii up to 1/6 abort."
  },
  {
   "property": "C97",
   "status": "partial",
   "theorems": [
    "Verif.EllipticDesign.C97_outcome",
    "Verif.EllipticDesign.C97_prototype",
    "Verif.EllipticDesign.C97_lowpass_partial",
    "Verif.EllipticDesign.C97_highpass_partial",
    "Verif.EllipticDesign.C97_bandpass_partial",
    "Verif.EllipticDesign.C97_bandstop_partial",
    "Verif.EllipticDesign.C97_structure"
   ],
   "note": "Prototype proved for every order and ripples, with the elliptic functions being the exact ones (C88 and C89 bound the error of those in the code); digital designs for orders up to 45000, band designs of odd order under the condition on the real pole without which the code is wrong (C95_bandpass_violation)."
  },
  {
   "property": "C98",
   "status": "partial",
   "theorems": [
    "Verif.IirElliptic.C98_prototype",
    "Verif.IirElliptic.C98_lowpass_partial",
    "Verif.IirElliptic.C98_highpass_partial",
    "Verif.IirElliptic.C98_bandpass_partial",
    "Verif.IirElliptic.C98_bandstop_partial",
    "Verif.IirElliptic.C98_failure",
    "Verif.IirElliptic.C98_band_failure",
    "Verif.IirElliptic.C98_structure",
    "Verif.IirElliptic.C98_order_violation",
    "Verif.IirElliptic.C98_ripple_violation",
    "Verif.IirElliptic.C98_bandpass_violation"
   ],
   "note": "For every order up to 30, passband ripple from 2e-5 dB, stopband ripple up to 120 dB and cutoff within 1e-9 of the ends, with exact elliptic functions: response, both ripples, degree equation, stability, number of biquads (C98_lowpass_partial, C98_highpass_partial); bands up to order 15 (for odd orders outside the sliver RealClear). C98_structure holds for any implementation of the elliptic functions. Violated: orders above 30 write behind the array, ripples are not checked (NaN roots), bandpass orders 16 to 30 report success with a lowpass. Missing: the error of elliptic_fun.c (C88/C89) and rounding."
  },
  {
   "property": "C99",
   "status": "proved",
   "theorems": [
    "Verif.FloatPhasor.C99_total",
    "Verif.FloatPhasor.C99_amplitude",
    "Verif.FloatPhasor.C99_phase"
   ],
   "note": "IEEE rounding modelled over the reals without infinities (nothing overflows: all values are at most 1.001 in magnitude); the C library's cosine and sine are assumed accurate to 2^-50."
  },
  {
   "property": "C100",
   "status": "proved",
   "theorems": [
    "Verif.FloatBiquad.C100_total",
    "Verif.FloatBiquad.C100_error",
    "Verif.FloatBiquad.C100_stable",
    "Verif.FloatBiquad.C100_cascade"
   ],
   "note": "Rounding modelled over the reals without infinities, for real samples; the premise on the precision excludes filters whose poles are too close to the unit circle for the number format. Coefficients are those stored after Init."
  },
  {
   "property": "C101",
   "status": "partial",
   "theorems": [
    "Verif.BitExact.C101_c_resampler",
    "Verif.BitExact.C101_q_exact_arithmetic",
    "Verif.BitExact.C101_q_violation",
    "Verif.BitExact.C101_biquad_cascade",
    "Verif.BitExact.C101_biquad",
    "Verif.BitExact.C101_fir",
    "Verif.BitExact.C101_two_tap",
    "Verif.BitExact.C101_fir_filter"
   ],
   "note": "Fails for QResampler (C101_q_violation: the output of three inputs depends on the cut); proved for it in exact arithmetic, and for all others in every arithmetic. Assumes that a compiler contracts the same expression in the same way everywhere."
  },
  {
   "property": "C102",
   "status": "proved",
   "theorems": [
    "Verif.FloatResampler.C102_c_accuracy",
    "Verif.FloatResampler.C102_q_accuracy",
    "Verif.FloatResampler.C102_bound"
   ],
   "note": "Premise: the rounding has relative error u and absolute error eta near 0 (no overflow), proved for binary32/binary64. C102_bound gives the bound from the peak of the input."
  },
  {
   "property": "C103",
   "status": "proved",
   "theorems": [
    "Verif.FloatFir.C103_fir_accuracy"
   ],
   "note": "Premise as in C102. The products are stored before they are added, so that no fused multiply-add occurs."
  },
  {
   "property": "C104",
   "status": "proved",
   "theorems": [
    "Verif.FloatAgc.C104_power",
    "Verif.FloatAgc.C104_accuracy",
    "Verif.FloatAgc.C104_gain",
    "Verif.FloatAgc.C104_end_to_end",
    "Verif.FloatAgc.C104_run_exists",
    "Verif.FloatAgc.C104_warm_up_violation"
   ],
   "note": "Coefficients as stored (the double-precision computation of the coefficient in Init is not modelled). The bounds on coefficient and warm-up are needed: C104_warm_up_violation."
  },
  {
   "property": "C105",
   "status": "partial",
   "theorems": [
    "Verif.FloatEnvelope.C105_range_partial",
    "Verif.FloatEnvelope.C105_total_partial",
    "Verif.FloatEnvelope.C105_interpolation_violation",
    "Verif.FloatEnvelope.C105_detector_violation"
   ],
   "note": "Proved for interpolation rates with rate^2 T2/T1 <= 2^20 hz^2 and 6 hz <= rate, and time constants of 3 to 2^22 samples. The property is false for low corner frequencies, which the code accepts: the coefficients rounded to float put a pole at 1 (C105_interpolation_violation: division by zero in the constructor; C105_detector_violation: unbounded output of EnvelopeDetector's smoother). Computations in double are assumed to have a relative error of at most 2^-30."
  },
  {
   "property": "C106",
   "status": "partial",
   "theorems": [
    "Verif.Wav.C106_even_partial",
    "Verif.Wav.C106_odd_chunk_violation",
    "Verif.Wav.C106_misread_violation"
   ],
   "note": "Proved when all chunks in front of the data have even lengths (C106_even_partial). False otherwise: the reader does not skip the padding byte of a chunk of odd length, so that the file is rejected (C106_odd_chunk_violation) or read from the wrong place (C106_misread_violation)."
  },
  {
   "property": "C107",
   "status": "proved",
   "theorems": [
    "Verif.FloatLadder.C107_bounded",
    "Verif.FloatLadder.C107_accuracy",
    "Verif.FloatLadder.C107_history",
    "Verif.FloatLadder.C107_total"
   ],
   "note": "For every rounding with relative error u (float: 2^-24, double: 2^-53) and reflection coefficients in effect bounded by kappa, with 144 (M+1)^4 (16/(5 gamma))^(2M) u <= 1 where gamma is a little less than sqrt(1-kappa^2) (float: order 2, kappa 0.8; double: order 8, kappa 0.6; both shown). C107_history: the same bound for the float object after any history of samples, coefficient changes and resets, with the rounding of the coefficient smoothing (the coefficients in effect exceed the requested bound by at most 0.003). C107_accuracy compares with the ideal filter with the coefficients in effect. Overflow is not modelled; the bound shows that the state stays far from it for ordinary inputs."
  },
  {
   "property": "C108",
   "status": "partial",
   "theorems": [
    "Verif.FloatVector.C108_sum",
    "Verif.FloatVector.C108_dot_product",
    "Verif.FloatVector.C108_mean",
    "Verif.FloatVector.C108_variance",
    "Verif.FloatVector.C108_zscore_partial",
    "Verif.FloatVector.C108_rms_error",
    "Verif.FloatVector.C108_zscore_violation",
    "Verif.FloatVector.C108_sum_violation"
   ],
   "note": "Error bounds for Sum, dot products, mean, variance and RMS error; ZScoreNormalize defined if the variance exceeds its error bound. Violations: ZScoreNormalize of {0.1, 0.1, 0.1} in double is NaN whatever the floor, because the one-pass variance is negative; Sum of floats adds in float and stops growing at 2^24 ones. Complex elements are not covered."
  },
  {
   "property": "C109",
   "status": "proved",
   "theorems": [
    "Verif.FloatSinusoids.C109_phasor",
    "Verif.FloatSinusoids.C109_sine_wave",
    "Verif.FloatSinusoids.C109_generate_sine",
    "Verif.FloatSinusoids.C109_eigen"
   ],
   "note": "Error linear in the index of the sample. Library cosine and sine assumed to have an absolute error of at most 2^-50 (float sine of Eigen: 2^-22); sample rates of at least 2^-20; amplitudes must not be negative (std::polar is undefined for them)."
  },
  {
   "property": "C110",
   "status": "partial",
   "theorems": [
    "Verif.FloatSmoothers.C110_forward",
    "Verif.FloatSmoothers.C110_backward",
    "Verif.FloatSmoothers.C110_smooth",
    "Verif.FloatSmoothers.C110_range",
    "Verif.FloatSmoothers.C110_smooth_range",
    "Verif.FloatSmoothers.C110_identity_violation"
   ],
   "note": "Accuracy for all coefficients in (0, 1]; range kept exactly for coefficients up to 1 - 2^-22. Violation: with the coefficient 1 (scale up to 0.01) SmoothVector turns {-16777216, 3} into {-16777216, 4}. Real elements of type float."
  },
  {
   "property": "C111",
   "status": "partial",
   "theorems": [
    "Verif.Wav.C111_result",
    "Verif.Wav.C111_calls",
    "Verif.Wav.C111_calls_partial",
    "Verif.Wav.C111_truncated_violation",
    "Verif.Wav.C111_stale_violation",
    "Verif.Wav.C111_empty_chunk_violation"
   ],
   "note": "Proved for every well-formed file (C111_calls), and for every byte string that all calls but possibly the last are the complete unknown chunks in order, the last one being followed by a rejection (C111_calls_partial). Violations: a truncated chunk is handed over with uninitialised bytes; a file ending after an unknown chunk causes a second call with the stale id and a length from uninitialised memory; where malloc(0) returns NULL an empty chunk is rejected only if there is a callback."
  },
  {
   "property": "C112",
   "status": "partial",
   "theorems": [
    "Verif.FloatMel.C112_out_of_bounds_violation",
    "Verif.FloatMel.C112_accurate_partial",
    "Verif.FloatMel.C112_bins"
   ],
   "note": "Violated: at 16 kHz with 40 channels between 0 Hz and 7000 Hz Initialize writes one element past channel_weights_sum_ for every power-of-two FFT size, because the position of the bin on the upper limit is computed as 40 + 2^-47 (C112_out_of_bounds_violation). Proved otherwise: no access out of bounds and the error bound, whenever the used bins lie inside the limits by more than the error of a position (C112_accurate_partial); the bins used (C112_bins). The final bound for MFCCs is not derived."
  },
  {
   "property": "C113",
   "status": "partial",
   "theorems": [
    "Verif.FloatArithmeticSequence.C113_intended_size",
    "Verif.FloatArithmeticSequence.C113_bracket",
    "Verif.FloatArithmeticSequence.C113_abort_violation"
   ],
   "note": "Proved for steps of at least three times the documented tolerance (the documentation calls smaller steps unreliable), without underflow or overflow. For smaller steps the last sentence is false: the constructor aborts for (1, 2^-k, 1), k from 54 to 1000 (C113_abort_violation)."
  },
  {
   "property": "C114",
   "status": "partial",
   "theorems": [
    "Verif.IntResampler.C114_make_partial",
    "Verif.IntResampler.C114_process_partial",
    "Verif.IntResampler.C114_buffer_overflow_violation"
   ],
   "note": "Proved for all sizes in an explicit range; outside of it the claim is false of the code: C114_buffer_overflow_violation shows a resampler that Make accepts and that writes outside its output buffer."
  },
  {
   "property": "C115",
   "status": "proved",
   "theorems": [
    "Verif.InPlace.C115_biquad",
    "Verif.InPlace.C115_biquad_fixed",
    "Verif.InPlace.C115_cascade",
    "Verif.InPlace.C115_fir",
    "Verif.InPlace.C115_two_tap",
    "Verif.InPlace.C115_ladder"
   ],
   "note": "In any arithmetic, except that the ladder filter is over the reals."
  },
  {
   "property": "C116",
   "status": "proved",
   "theorems": [
    "Verif.FloatMfcc.C116_accepts",
    "Verif.FloatMfcc.C116_accurate"
   ],
   "note": "Accuracy of the table and of the sums for every rounding and cosine of a given accuracy, with or without fused multiply-add."
  },
  {
   "property": "C117",
   "status": "partial",
   "theorems": [
    "Verif.FloatMfcc.C117_accurate_partial",
    "Verif.FloatMfcc.C117_accepts"
   ],
   "note": "Missing: bins closer to a limit of the band than the error of a position (C112_out_of_bounds_violation shows an access out of bounds there)."
  },
  {
   "property": "C118",
   "status": "partial",
   "theorems": [
    "Verif.IntQResampler.C118_output_size_partial",
    "Verif.IntQResampler.C118_input_size_partial",
    "Verif.IntQResampler.C118_bound_violation",
    "Verif.IntQResampler.C118_overflow_violation"
   ],
   "note": "Proved when the largest output (or needed input) and the input with the filter length are representable as int. Without that the claim is false of the code: C118_bound_violation (MaxOutputFrames negative where NextNumOutputFrames is not, although documented as an upper bound) and C118_overflow_violation."
  },
  {
   "property": "C119",
   "status": "partial",
   "theorems": [
    "Verif.Resources.C119_read16_partial",
    "Verif.Resources.C119_read_partial",
    "Verif.Resources.C119_double_close_violation",
    "Verif.Resources.C119_write_partial",
    "Verif.Resources.C119_leak_violation",
    "Verif.Resources.C119_resampler"
   ],
   "note": "Proved for the resampler; for the readers when fclose succeeds; for WriteWavFile when the header can be written. Otherwise the claim is false of the code: C119_double_close_violation (both readers call fclose twice when it fails) and C119_leak_violation (WriteWavFile leaves the file open when the header cannot be written)."
  },
  {
   "property": "C120",
   "status": "partial",
   "theorems": [
    "Verif.Drc.C120_reinit_partial",
    "Verif.Drc.C120_pending_violation",
    "Verif.Drc.C120_attack_violation"
   ],
   "note": "Proved for histories in which the last parameter change has taken effect (by a block or a Reset) and every Reset comes after a parameter change. Otherwise false of the code: C120_pending_violation (Init directly after SetDynamicRangeControlParams keeps the old attack and release times but takes the new curve), C120_attack_violation (an example); for Reset see C30_reset_loses_parameters_violation."
  },
  {
   "property": "C121",
   "status": "partial",
   "theorems": [
    "Verif.FloatAuditory.C121_ends_partial",
    "Verif.FloatAuditory.C121_accurate_partial",
    "Verif.FloatAuditory.C121_count_partial",
    "Verif.FloatAuditory.C121_endless_violation"
   ],
   "note": "Proved for step_erbs of at least 2^-40 (termination) and 2^-20 (accuracy within 2^-21 of the highest frequency plus 229 Hz; number of stages, if no exact frequency is that close to the minimum). For tiny steps the claim is false of the code: C121_endless_violation (2^-60 passes the checks and Init never returns). Overflow is not modelled."
  },
  {
   "property": "C122",
   "status": "proved",
   "theorems": [
    "Verif.FloatRational.C122_recovers",
    "Verif.FloatRational.C122_factor",
    "Verif.FloatRational.C122_integer_rates",
    "Verif.FloatRational.C122_default",
    "Verif.FloatRational.C122_tolerance_violation"
   ],
   "note": "Proved in double arithmetic for the stated range, which contains every fraction with denominator up to 16384 whose numerator is an int. C122_tolerance_violation shows that the promise of resampler_q.h fails for enormous ratios of the rates. NaN and infinities are not modelled."
  },
  {
   "property": "C123",
   "status": "proved",
   "theorems": [
    "Verif.FloatRational.C123_near_best",
    "Verif.FloatRational.C123_error",
    "Verif.FloatRational.C123_large_violation"
   ],
   "note": "Proved for every double; NaN and infinities are not modelled. C123_large_violation shows that the error bound of resampler_q.h needs the condition on the size of the factor."
  },
  {
   "property": "C124",
   "status": "partial",
   "theorems": [
    "Verif.FloatQuadratic.C124_location",
    "Verif.FloatQuadratic.C124_not_below",
    "Verif.FloatQuadratic.C124_value",
    "Verif.FloatQuadratic.C124_sample",
    "Verif.FloatQuadratic.C124_long_violation",
    "Verif.FloatQuadratic.C124_distance_violation",
    "Verif.FloatQuadratic.C124_total"
   ],
   "note": "Proved for signals of up to 2^24 samples with magnitudes that do not overflow; the documented bounds on the location fail for longer signals (C124_long_violation, C124_distance_violation)."
  },
  {
   "property": "C125",
   "status": "partial",
   "theorems": [
    "Verif.FloatFftUtil.C125_spectrum",
    "Verif.FloatFftUtil.C125_signal_partial",
    "Verif.FloatFftUtil.C125_edge_violation",
    "Verif.FloatFftUtil.C125_nyquist_violation",
    "Verif.FloatFftUtil.C125_highpass_long_violation"
   ],
   "note": "The spectrum filters are proved as stated; bins within rounding of an edge can be on the wrong side (C125_edge_violation, C125_nyquist_violation) and the high-pass of 2^24 samples or more always fails (C125_highpass_long_violation). The transforms themselves are C40's, in exact arithmetic."
  },
  {
   "property": "C126",
   "status": "partial",
   "theorems": [
    "Verif.FloatFftUtil.C126_size_error",
    "Verif.FloatFftUtil.C126_size_partial",
    "Verif.FloatFftUtil.C126_size_violation",
    "Verif.FloatFftUtil.C126_same_rate_violation",
    "Verif.FloatFftUtil.C126_weights",
    "Verif.FloatFftUtil.C126_weight_error"
   ],
   "note": "Exact sizes up to 2^21 samples; wrong sizes for longer signals are shown (C126_size_violation, C126_same_rate_violation). The exponentials are inputs of the model, assumed to be in [0, 1]."
  },
  {
   "property": "C127",
   "status": "proved",
   "theorems": [
    "Verif.FloatDurations.C127_lookahead",
    "Verif.FloatDurations.C127_warm_up",
    "Verif.FloatDurations.C127_lookahead_error",
    "Verif.FloatDurations.C127_long_violation"
   ],
   "note": "As stated, for up to 2^21 samples. Beyond, rounding can change the number (C127_long_violation)."
  },
  {
   "property": "C128",
   "status": "partial",
   "theorems": [
    "Verif.FloatDrc.C128_compressor_below",
    "Verif.FloatDrc.C128_limiter_below",
    "Verif.FloatDrc.C128_expander_above",
    "Verif.FloatDrc.C128_compressor_not_above",
    "Verif.FloatDrc.C128_limiter_not_above",
    "Verif.FloatDrc.C128_expander_not_above",
    "Verif.FloatDrc.C128_compressor_error",
    "Verif.FloatDrc.C128_limiter_error",
    "Verif.FloatDrc.C128_expander_error",
    "Verif.FloatDrc.C128_upwards_error",
    "Verif.FloatDrc.C128_limiter_violation",
    "Verif.FloatDrc.C128_expander_violation"
   ],
   "note": "Proved: the accuracy of the three curves, the bit-exact identity part of the compressor, the limiter and the hard-knee expander, and that none of these raises a level. The claim that a limiter's output never exceeds its threshold fails by a rounding error (C128_limiter_violation). A soft-knee expander, which the statement leaves out, can raise a level by a rounding error (C128_expander_violation). Overflow, infinities and NaN are not modelled."
  },
  {
   "property": "C129",
   "status": "proved",
   "theorems": [
    "Verif.FloatDrc.C129_error",
    "Verif.FloatDrc.C129_hard_knees"
   ],
   "note": "The soft ratio must be at least one, which the documentation demands but VerifyParams does not check (C29_verify_violation), and the upwards ratio at most 2^100. Overflow, infinities and NaN are not modelled."
  }
 ]
}