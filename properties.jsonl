{"id": "C01", "title": "CircularBuffer is a FIFO queue", "statement": "For every sequence of Init/Clear/Write/Read/Peek/Advance calls in which no write exceeds the free space and no read exceeds NumReadableEntries(), every Read and Peek returns exactly the oldest unread entries in the order they were written, NumReadableEntries() is the number of unread entries, IsFull() is true exactly when the buffer was filled to capacity by the last mutating non-empty operation, the two spans handed out lie inside the storage, and no undefined behaviour occurs.", "quantifier": "all capacities, all element values, all operation histories of any length", "why_tests_cant": "wrap-around behaviour depends on the whole history of index positions modulo capacity; tests visit a handful of them", "anchors": ["audio/dsp/circular_buffer.h: CircularBuffer::{Init,Write,Read,Peek,Advance,Clear,IsFull,NumReadableEntries}"]}
{"id": "C02", "title": "CircularBuffer overflow semantics", "statement": "A Write that exceeds the free space overwrites the oldest entries, after which reading NumReadableEntries() entries returns the most recent capacity() entries in write order and IsFull() is true.", "quantifier": "all buffers and all overflowing writes", "why_tests_cant": "whether the documented overwrite keeps the order depends on the read index at the time of the overflow", "anchors": ["audio/dsp/circular_buffer.h: CircularBuffer::Write, IsFull"]}
{"id": "C03", "title": "FixedDelayLine delays by exactly the configured number of frames", "statement": "For every configured delay and every way of cutting the input stream into blocks (including empty blocks and blocks longer than max_block_size-independent histories), the concatenation of the returned blocks equals delay_frames zero frames followed by the input, truncated to the input's length; each returned block has as many frames as its input block.", "quantifier": "all delays, all block-size sequences, all sample values", "why_tests_cant": "correctness depends on the relation between consecutive block sizes and the delay, an unbounded history", "anchors": ["audio/dsp/fixed_delay_line.h: FixedDelayLine::{Init,Reset,ProcessBlock}"]}
{"id": "C04", "title": "Byte serialization round trips and fixes byte order", "statement": "Reading back what was written returns the same 16-, 32- and 64-bit value for both byte orders, signed and unsigned; writing what was read restores the same bytes; the i-th byte of the little-endian encoding is the i-th base-256 digit and the big-endian encoding is its reverse; float encodings are the bit patterns.", "quantifier": "all 2^16, 2^32 and 2^64 values and all byte strings", "why_tests_cant": "2^64 inputs cannot be enumerated", "anchors": ["audio/dsp/portable/serialize.h"]}
{"id": "C05", "title": "A WAV file written by the library is read back unchanged", "statement": "For every channel count, sample rate and 16-bit sample sequence within the format's limits, reading the header of the written file reports the same channel count, sample rate, bit depth and number of samples, and reading the samples in any split into requests returns the written samples followed by end of stream.", "quantifier": "all channel counts 1..65535, all sample rates, all sample arrays within the 32-bit size limit, all ways of splitting the reads", "why_tests_cant": "the space of files and of read splits is unbounded", "anchors": ["audio/dsp/portable/write_wav_file_generic.c: WriteWavHeaderGeneric, WriteWavSamplesGeneric", "audio/dsp/portable/read_wav_file_generic.c: ReadWavHeaderGeneric, Read16BitWavSamplesGeneric"]}
{"id": "C06", "title": "The WAV header reader rejects truncated and malformed files", "statement": "For every byte string, ReadWavHeader either fails or reports a header that was completely contained in the file: channels >= 1, a supported encoding, the bit depth of that encoding, and a data chunk whose size field was fully read.", "quantifier": "all byte strings", "why_tests_cant": "arbitrary malformed inputs, truncation at every offset", "anchors": ["audio/dsp/portable/read_wav_file_generic.c: ReadWavHeaderGeneric, ReadWavFmtChunk, ReadWavFactChunk"]}
{"id": "C07", "title": "WAV sample reading never exceeds what the header promised and converts exactly", "statement": "For every file and every sequence of read requests, the total number of samples returned never exceeds the number announced by the header, each call returns a multiple of the channel count not exceeding the request, stops at end of stream and each returned sample is the documented conversion of its bytes.", "quantifier": "all byte strings, encodings, channel counts and request sequences", "why_tests_cant": "depends on the history of requests and the truncation point", "anchors": ["audio/dsp/portable/read_wav_file_generic.c: ReadBytesAsSamples, ReadMulaw, Read3BytesIntoUint32, ReadWavSamplesGeneric"]}
{"id": "C08", "title": "Resampling does not depend on how the stream is cut into blocks", "statement": "For every resampler whose filter is at least as long as the resampling factor (as with every filter_radius_factor of at least 1/2) and every way of cutting the input into ProcessSamples calls, the concatenated output equals the output of processing the whole stream in one call.", "quantifier": "all factors, filter lengths, channel counts, block-size sequences and sample values", "why_tests_cant": "the delayed-input and phase state depend on the full history of block sizes", "anchors": ["audio/dsp/portable/rational_factor_resampler.c: RationalFactorResamplerProcessSamples", "audio/dsp/resampler_q.h: ProcessSamplesCommon"]}
{"id": "C09", "title": "Resampler output equals the polyphase interpolation formula", "statement": "Output frame m is the dot product of the filter phase (m*factor_numerator mod factor_denominator) with the input window ending at input frame floor(m*factor_numerator/factor_denominator)+radius of the zero-padded input, i.e. the kernel interpolation of the input at time m*factor; the implementation never reads or writes outside its buffers, provided that the filter is at least as long as the factor.", "quantifier": "all rational factors, kernels, block splits, sample values and output indices", "why_tests_cant": "universally quantified over factors, phases and histories", "anchors": ["audio/dsp/portable/rational_factor_resampler.c", "audio/dsp/resampler_q.h"]}
{"id": "C10", "title": "Predicted resampler output sizes are exact", "statement": "NextOutputSize/NextNumOutputFrames for a given input size equals the number of frames the next ProcessSamples call produces in every reachable state, and NextNumInputFramesToProduce returns the least input size producing at least the requested number of outputs.", "quantifier": "all factors, states and input sizes", "why_tests_cant": "requires exact ceiling-division arithmetic in every reachable phase", "anchors": ["audio/dsp/portable/rational_factor_resampler.c: RationalFactorResamplerNextOutputSize", "audio/dsp/resampler_q.h: NextNumOutputFrames, NextNumInputFramesToProduce"]}
{"id": "C11", "title": "RationalApproximation returns the best bounded-denominator fraction", "statement": "For every value, the returned fraction is reduced, has denominator between 1 and max_denominator, and no other fraction within the limits is strictly closer to the value.", "quantifier": "all rational values, all max_denominator", "why_tests_cant": "optimality over all competitors is a universally quantified claim", "anchors": ["audio/dsp/portable/number_util.c: RationalApproximation", "audio/dsp/number_util.cc: RationalApproximation"]}
{"id": "C12", "title": "Integer helpers meet their specifications", "statement": "Modulo, RoundDownToMultiple, RoundUpToMultiple, GreatestCommonDivisor, Log2Floor, Log2Ceiling, NextPowerOfTwo, IsPowerOfTwoOrZero return the mathematically specified value for every argument for which the computation has no overflow, and the arguments for which it overflows are characterised.", "quantifier": "all 32-bit arguments", "why_tests_cant": "overflow and boundary arguments out of 2^64 pairs", "anchors": ["audio/dsp/number_util.h", "audio/dsp/number_util.cc", "audio/dsp/portable/number_util.c"]}
{"id": "C13", "title": "Combination and cross-product iteration enumerate everything exactly once in order", "statement": "CombinationsIterator visits every k-subset of {0..n-1} exactly once in lexicographic order and then ends; CrossProductRange visits every index tuple exactly once with the documented order, and FlatIndex is the position of the tuple.", "quantifier": "all n, k and all shape vectors", "why_tests_cant": "exhaustive enumeration is exponential", "anchors": ["audio/dsp/number_util.cc: CombinationsIterator, CrossProductRange"]}
{"id": "C14", "title": "BatchTopN keeps the N best elements of everything pushed", "statement": "After any sequence of Push calls since the last Reset, GetTopElements returns min(N, number pushed) elements, sorted best first, which form the top N of the pushed multiset under the comparator (no discarded element is better than a kept one).", "quantifier": "all N, all push sequences, all comparators that are strict weak orders, every legal behaviour of nth_element/sort", "why_tests_cant": "history dependent compaction; the standard library may order ties arbitrarily", "anchors": ["audio/dsp/batch_top_n.h: BatchTopN::{Push,GetTopElements,Reset}"]}
{"id": "C15", "title": "Spectrogram frames do not depend on chunking", "statement": "For every way of cutting the signal into ComputeSpectrogram calls, the concatenated list of analysed frames is: frame j = window-length samples starting at j*step, for every j whose frame is complete.", "quantifier": "all window and step lengths, all chunk sequences", "why_tests_cant": "queue state depends on the whole chunk history", "anchors": ["audio/dsp/spectrogram/spectrogram.cc: Spectrogram::GetNextWindowOfSamples"]}
{"id": "C16", "title": "Inverse spectrogram overlap-adds frames at the step spacing", "statement": "For every way of cutting the slice sequence into Process calls followed by Flush, the concatenated output is the overlap-add of the windowed inverse transforms with frame j placed at j*step.", "quantifier": "all frame lengths, steps, slice sequences and chunkings", "why_tests_cant": "depends on the overlap buffer's history", "anchors": ["audio/dsp/spectrogram/inverse_spectrogram.cc: InverseSpectrogram::{Process,Flush}"]}
{"id": "C17", "title": "SpectralProcessor output is the delayed weighted overlap-add of its input", "statement": "For every block size, hop size and chunk-length sequence the output has the same length as the input and equals the weighted overlap-add of the processed blocks delayed by a constant; no internal check fails and no buffer overflows.", "quantifier": "all block sizes, hops, chunk sequences and per-block callbacks", "why_tests_cant": "the pre-padding argument (gcd of chunk and hop) must hold in every reachable buffer position", "anchors": ["audio/dsp/spectral_processor.cc: SpectralProcessor::{Reset,ProcessChunk}"]}
{"id": "C18", "title": "Nelder-Mead search is sound", "statement": "After any number of MinimizeObjective calls, GetMin() equals the objective at GetArgMin(), is no larger than at any initial vertex, never increases, every evaluated point respects the configured bounds, and the call terminates after at most max(d+1, max_evaluations+d+1) objective evaluations.", "quantifier": "all objectives, simplices, dimensions, bounds and call histories", "why_tests_cant": "quantifies over all objective functions", "anchors": ["audio/dsp/nelder_mead_searcher.h: NelderMeadSearcher::MinimizeObjective"]}
{"id": "C19", "title": "FIRFilter streaming equals convolution", "statement": "For every kernel and every way of cutting the input into blocks, concatenated outputs equal the causal convolution of the whole input with the kernel.", "quantifier": "all kernels, block sequences and sample values", "why_tests_cant": "state hand-over at every block boundary, blocks shorter and longer than the kernel", "anchors": ["audio/dsp/signal_vector_util.h: FIRFilter"]}
{"id": "C20", "title": "linear_filters::FirFilter streaming equals convolution per channel", "statement": "For every per-channel kernel and every way of cutting the input into blocks, concatenated outputs equal the causal convolution of each channel with its kernel.", "quantifier": "all kernels, channel counts, block sequences", "why_tests_cant": "spill-over state is moved in overlapping chunks whose sizes depend on the block history", "anchors": ["audio/linear_filters/fir_filter.h: FirFilter::ProcessBlock", "audio/linear_filters/fir_filter.cc"]}
{"id": "C21", "title": "Biquad filters realise their difference equation", "statement": "For every coefficient set with a0 != 0 and every input stream in any block split, the output satisfies a0 y[n] = b0 x[n]+b1 x[n-1]+b2 x[n-2]-a1 y[n-1]-a2 y[n-2] with zero history, in-place or not; after SetSteadyStateCondition(v), constant input v yields the constant DC response.", "quantifier": "all coefficients, inputs and block splits", "why_tests_cant": "direct form 2 state equivalence must hold at every time step", "anchors": ["audio/linear_filters/biquad_filter-inl.h: BiquadFilter::{Init,ProcessSample,SetSteadyStateCondition}", "audio/dsp/portable/biquad_filter.h", "audio/linear_filters/filter_traits.h"]}
{"id": "C22", "title": "Cascade coefficient algebra preserves the transfer function", "statement": "AsPolynomialRatio yields polynomials whose ratio equals the product of the stages; Simplify and AppendBiquad do not change the product transfer function; a cascade filter's output is the composition of its stages.", "quantifier": "all coefficient lists, all evaluation points", "why_tests_cant": "rewriting of arbitrary stage lists", "anchors": ["audio/linear_filters/biquad_filter_coefficients.cc: Convolve, Simplify, AsPolynomialRatio, EvalTransferFunction"]}
{"id": "C23", "title": "IsStable decides stability", "statement": "BiquadFilterCoefficients::IsStable() is true exactly when both poles lie strictly inside the unit circle, and then every bounded input gives bounded output.", "quantifier": "all real coefficient triples with a0 != 0", "why_tests_cant": "a continuum of coefficients, including the boundary", "anchors": ["audio/linear_filters/biquad_filter_coefficients.cc: IsStable, MakeLadderCoefficientsFromTransferFunction"]}
{"id": "C24", "title": "The normalized ladder filter is stable under arbitrary coefficient changes", "statement": "For every order and every (arbitrarily time-varying) sequence of reflection coefficients (including Reset and changes in mid-smoothing) the state energy after a sample is at most the state energy before plus the squared input, so state and output are bounded by the energy of the input; if the input is only bounded in amplitude and the requested reflection coefficients stay below some bound less than one, state and output stay below a bound that depends on neither the length of the input nor the coefficient changes; and once the input is zero the output dies out.", "quantifier": "all orders, coefficient histories, inputs", "why_tests_cant": "quantifies over all time-varying coefficient histories", "anchors": ["audio/linear_filters/ladder_filter-inl.h: LadderFilter::ProcessSample"]}
{"id": "C25", "title": "A ladder filter built from a transfer function realises that transfer function", "statement": "For every numerator and denominator whose reflection coefficients are inside (-1,1), LadderFilter::InitFromTransferFunction followed by processing gives the same output as the direct difference equation.", "quantifier": "all orders, all coefficient vectors, all inputs", "why_tests_cant": "equivalence of two recursions of arbitrary order over unbounded time", "anchors": ["audio/linear_filters/biquad_filter_coefficients.cc: MakeLadderCoefficientsFromTransferFunction", "audio/linear_filters/ladder_filter-inl.h"]}
{"id": "C26", "title": "Changing ladder coefficients ends with exactly the requested filter", "statement": "After ChangeLadderCoeffs and enough processed samples (or Reset), the filter uses exactly the requested coefficients.", "quantifier": "all coefficient changes and sample histories", "why_tests_cant": "the transition runs for hundreds of samples and its end state is only reached after the smoothing counter expires", "anchors": ["audio/linear_filters/ladder_filter-inl.h: ProcessSample (smoothing), Reset"]}
{"id": "C27", "title": "Two-tap FIR and factor-two decimator are block-split invariant", "statement": "For every block split, TwoTapFirFilter's concatenated output is g_now*x[n]+g_prev*x[n-1]; FactorTwoDecimator's concatenated output is the even-indexed frames of the whole stream.", "quantifier": "all gains, inputs and block splits including empty and odd-length blocks", "why_tests_cant": "parity and previous-frame state across arbitrary block splits", "anchors": ["audio/linear_filters/two_tap_fir_filter.h", "audio/linear_filters/filterbanks/factor_two_decimator.h"]}
{"id": "C28", "title": "Filter design keeps its analytic guarantees", "statement": "BilinearTransform evaluates at z as the analog prototype at K(z-1)/(z+1), where K matches the requested frequency; a stable analog denominator gives a stable digital one; the lowpass, highpass, bandpass and bandstop designs are the discretised documented filters, with gain 1 or 0 at DC, Nyquist and centre, and gain Q at the corner; the ranged designs have half power at both band edges.", "quantifier": "all coefficients, frequencies and sample rates (exact values at the corner or centre for frequencies of at least rate/10^7, below which the code uses the limit constant)", "why_tests_cant": "continuum of designs and frequencies", "anchors": ["audio/linear_filters/discretization.cc: BilinearTransform", "audio/linear_filters/biquad_filter_design.cc"]}
{"id": "C29", "title": "Dynamic range control curves follow their documented formulas", "statement": "For all thresholds, ratios and knee widths the computed compressor, limiter, expander and two-way output levels equal the documented piecewise formula, are monotone and continuous in the input, never exceed the documented bounds and change the level in the documented direction.", "quantifier": "all parameter values and all input levels", "why_tests_cant": "continuum of parameters and levels; knee boundaries", "anchors": ["audio/dsp/hifi/dynamic_range_control_functions.h"]}
{"id": "C30", "title": "DynamicRangeControl keeps its configuration over Reset and crossfades on change", "statement": "Reset() returns the processor to the state after Init with the same parameters; after SetDynamicRangeControlParams the next block interpolates linearly between the gains of the old and the new parameters.", "quantifier": "all parameter sets, histories and block sizes", "why_tests_cant": "history: Reset before/after a parameter change", "anchors": ["audio/dsp/hifi/dynamic_range_control.cc", "audio/dsp/hifi/dynamic_range_control.h"]}
{"id": "C31", "title": "DynamicRangeControl without parameter changes is block-split invariant", "statement": "With fixed parameters, cutting the input differently does not change the concatenated output, and the output is the look-ahead-delayed input times the static-curve gain of the detected envelope.", "quantifier": "all block splits, inputs and parameters", "why_tests_cant": "histories of block sizes", "anchors": ["audio/dsp/hifi/dynamic_range_control.h: ProcessBlockWithSidechain", "audio/dsp/hifi/dynamic_range_control.cc"]}
{"id": "C32", "title": "Envelope followers stay within the range of their input", "statement": "With coefficients in [0,1] the attack/release envelope is nonnegative, never exceeds the largest magnitude seen, moves toward the current magnitude and is monotone in the input.", "quantifier": "all inputs and coefficient values", "why_tests_cant": "unbounded sample histories", "anchors": ["audio/dsp/attack_release_envelope.cc", "audio/dsp/envelope_detector.cc"]}
{"id": "C33", "title": "Automatic gain control estimates power as documented", "statement": "During warm-up the power estimate is (1+sum of power samples)/(1+number of samples), afterwards the exponential moving average; it is always positive and between the smallest and largest of 1 and the samples seen, so that the gain is well defined and bounded by power_floor.", "quantifier": "all sample sequences and parameters", "why_tests_cant": "unbounded histories across the warm-up boundary", "anchors": ["audio/dsp/portable/auto_gain_control.h", "audio/dsp/portable/auto_gain_control.c"]}
{"id": "C34", "title": "Background level detector freezes on transients and tracks otherwise", "statement": "Per channel the background estimate only moves between itself and the current envelope, never during a transient's rejection interval after burn-in, counters stay in range, and invalid parameters are rejected by Init.", "quantifier": "all inputs, parameters and histories", "why_tests_cant": "state machine histories", "anchors": ["audio/dsp/loudness/background_level_detector.cc"]}
{"id": "C35", "title": "Mel filterbank stays in bounds and conserves energy between channels", "statement": "For every accepted configuration and spectrum size accepted by Compute, all table accesses are in bounds, channel weights are in [0,1], and each spectral bin between the first and last centre frequency contributes total weight one to adjacent channels.", "quantifier": "all sizes, limits, channel counts and spectra", "why_tests_cant": "index arithmetic over all configurations", "anchors": ["audio/dsp/mfcc/mel_filterbank.cc"]}
{"id": "C36", "title": "MFCC DCT computes the documented transform", "statement": "For every input length the DCT output coefficient i is sqrt(2/N) sum_j x_j cos(pi i (j+1/2)/N), rows of the full transform are orthogonal.", "quantifier": "all lengths and inputs", "why_tests_cant": "orthogonality is a statement about all sizes", "anchors": ["audio/dsp/mfcc/dct.cc"]}
{"id": "C37", "title": "Window sampling is symmetric and in bounds, and the quartic window is nonnegative and unimodal", "statement": "For every window and sample count, symmetric samples are palindromic and evaluate the window at evenly spaced points; periodic samples satisfy w[n]=w[N-n]; every accepted quartic window is nonnegative, at most one and non-increasing in |x|.", "quantifier": "all windows, counts and accepted coefficients", "why_tests_cant": "all sizes / a continuum of coefficients", "anchors": ["audio/dsp/window_functions.cc: ComputeSymmetricSamples, ComputePeriodicSamples, QuarticWindow"]}
{"id": "C38", "title": "ThreeTapSmoother computes its documented convolution", "statement": "For every number of points and coefficient the circular, symmetric and zero-padding modes equal convolution with [s,1-2s,s] under the documented boundary extension; constants are preserved (non zero padding), the sum is preserved (circular) and values stay within the range of the input.", "quantifier": "all lengths, values, coefficients", "why_tests_cant": "all lengths incl. the shortest", "anchors": ["audio/dsp/signal_eigen_util.h: ThreeTapSmoother"]}
{"id": "C39", "title": "The FFT wrapper computes the DFT for every size", "statement": "For every size (including sizes handled by the Bluestein algorithm) the forward transform equals the DFT, the inverse equals its conjugate transform, and inverse(forward(x)) = size * x; the real-transform outputs are the nonnegative-frequency half.", "quantifier": "all sizes, all inputs", "why_tests_cant": "all sizes including primes", "anchors": ["audio/dsp/kiss_fft.cc"]}
{"id": "C40", "title": "FFT based convolution and hard band filters equal their definitions", "statement": "LinearConvolution of two arrays equals direct convolution, and of an array with itself the iterated direct convolution, for all lengths; HardLowpassSpectrum, HardHighpassSpectrum and HardBandpassSpectrum keep exactly the bins whose frequency lies in the closed band and zero the others, in place or not, for all documented band edges; FftHardBandpass and its low- and high-pass forms give the signal whose transform is that of the input in the band and zero outside.", "quantifier": "all lengths, all inputs, all band edges", "why_tests_cant": "all lengths of the inputs and of the padded transform, all band edges including those that fall on a bin", "anchors": ["audio/dsp/kiss_fft_util.cc"]}
{"id": "C41", "title": "Fast log2/exp2/pow/tanh meet their stated accuracy and are monotone", "statement": "For every positive normal float FastLog2 is within 0.003 of log2; for |x|<=126 FastExp2 is within 0.3% of 2^x; both are monotone; FastPow is within 0.5% of x^y for 1e-37 <= x^y <= 1e37; FastTanh is within 0.0008 of tanh and within [-1,1].", "quantifier": "all float inputs in the documented domains", "why_tests_cant": "2^31 inputs and a transcendental reference", "anchors": ["audio/dsp/portable/fast_fun.h", "audio/dsp/portable/fast_fun.c"]}
{"id": "C42", "title": "Phasor rotator and phasor vector generate powers of the rotator", "statement": "After n steps the phasor is rotator^n (renormalisation does not change a unit phasor), so cosine and sine of n*theta are returned for all n.", "quantifier": "all n, all unit rotators", "why_tests_cant": "unbounded time", "anchors": ["audio/dsp/portable/phasor_rotator.h", "audio/dsp/signal_vector_util.h: ComputePhasorVector"]}
{"id": "C43", "title": "Teager energy filter is block-split invariant", "statement": "For every block split the concatenated output is (x[n-1]^2 - x[n-2] x[n]) times the normaliser with zero initial history.", "quantifier": "all inputs and block splits", "why_tests_cant": "two-sample history across arbitrary block boundaries incl. length 1", "anchors": ["audio/dsp/teager_energy_filter.h"]}
{"id": "C44", "title": "Quadratic peak interpolation finds the maximum of the interpolating parabola", "statement": "QuadraticInterpolateMax returns a location within the vector and within one sample of the start index; the value is the maximum over that interval of the parabola through the sample and its neighbours, attained at the location; for samples of a concave parabola it is the exact vertex.", "quantifier": "all vectors and indices", "why_tests_cant": "continuum of values; degenerate curvature", "anchors": ["audio/dsp/signal_vector_util.h: QuadraticInterpolateMax"]}
{"id": "C45", "title": "Vector statistics equal their definitions", "statement": "ComputeSecondOrderStats' one-pass mean and variance equal the textbook definitions and the variance is never negative; ZScoreNormalize yields mean zero and the documented variance; RootMeanSquareError, SumSquaredMagnitudes, ComputeMaxMagnitude (real and complex), FindMaxIndexAndValue (first maximum) and the elementwise operations compute what their names say; invalid sizes are rejected.", "quantifier": "all vectors", "why_tests_cant": "all lengths and values", "anchors": ["audio/dsp/signal_vector_util.h"]}
{"id": "C46", "title": "The crossover filterbank splits the signal consistently", "statement": "With n bands every band is the input filtered by its own cascade of highpass, lowpass and allpass sections, whatever the division into blocks. With Linkwitz-Riley crossovers, at each crossover frequency the two bands that meet there are in phase, the amplitude responses of all bands add up to one at every frequency (so that their sum never amplifies, and is flat for two bands), and all sections are stable. Increasing crossover frequencies inside the band are accepted by Init; after Init no sequence of processing, retuning and Reset makes the filterbank abort, and Reset restores the state after Init.", "quantifier": "all band counts, orders, crossover frequencies, evaluation frequencies, block splits, call histories", "why_tests_cant": "structural induction over band count and over the phase correction loop; all frequencies", "anchors": ["audio/dsp/hifi/multi_crossover_filter.h"]}
{"id": "C47", "title": "Linkwitz-Riley crossovers sum flat", "statement": "For every even order and crossover frequency the sum of the lowpass and highpass transfer functions has unit magnitude at every frequency.", "quantifier": "all even orders, crossover frequencies, evaluation frequencies", "why_tests_cant": "all orders, continuum of frequencies", "anchors": ["audio/linear_filters/crossover.cc: CrossoverFilterDesign", "audio/linear_filters/biquad_filter_design_pole_zero.cc"]}
{"id": "C48", "title": "Lowpass-to-bandpass mapping maps each prototype pole to the two solutions of the band transform", "statement": "For each prototype root p, the produced roots are the two solutions s of s^2 - 2 p s + center^2 = 0.", "quantifier": "all roots, bandwidths and centres", "why_tests_cant": "branch on the sign of the discriminant over a continuum", "anchors": ["audio/linear_filters/biquad_filter_design_pole_zero.cc: ShiftRootsFromBaseband"]}
{"id": "C49", "title": "Portable complex arithmetic is the field arithmetic of the complex numbers", "statement": "The ring operations, Div (nonzero divisor), Abs, Arg, Sqrt, Exp, Log, Cosh, Sinh, Cos, Sin and the inverse functions Acosh, Asinh, Acos and Asin return the mathematical result for all arguments; the multivalued ones return the principal branch, with the branch cuts of the C++ standard library.", "quantifier": "all complex arguments", "why_tests_cant": "continuum, branch cuts", "anchors": ["audio/dsp/portable/complex.h", "audio/dsp/portable/complex.c"]}
{"id": "C50", "title": "Poles-and-zeros coefficients realise the represented system", "statement": "GetCoefficients() yields a cascade whose transfer function equals gain * prod(1 - z_i/z) / prod(1 - p_i/z) for every list of lone and paired roots.", "quantifier": "all root lists, all evaluation points", "why_tests_cant": "pairing of arbitrary root lists", "anchors": ["audio/linear_filters/filter_poles_and_zeros.cc: GetCoefficients"]}
{"id": "C51", "title": "ArithmeticSequence has the documented size and elements", "statement": "ArithmeticSequence(base, step, limit) has elements base + step*i; its size satisfies base + step*(size-1) <= limit + tol < base + step*size (mirrored for negative step) with the documented tolerance, the internal consistency checks never fire, and the last element is base + step*(size-1) up to a few epsilon.", "quantifier": "all finite base, limit and nonzero step", "why_tests_cant": "continuum of arguments, tolerance boundaries", "anchors": ["audio/dsp/number_util.h: ArithmeticSequence", "audio/dsp/number_util.cc: ArithmeticSequence::ArithmeticSequence"]}
{"id": "C52", "title": "TopNPeaks returns the N highest local maxima", "statement": "TopNPeaksNonperiodic and TopNPeaksPeriodic return, highest first, the N highest of the points that are strictly greater than their left and not smaller than their right neighbour (end points: greater than their only neighbour; periodic: neighbours wrap around).", "quantifier": "all containers and N", "why_tests_cant": "plateaus and end points in arbitrary containers", "anchors": ["audio/dsp/batch_top_n.h: TopNPeaksNonperiodic, TopNPeaksPeriodic"]}
{"id": "C53", "title": "WAV writing reports I/O errors", "statement": "For every sink, wherever it stops accepting bytes, WriteWavHeader, WriteWavSamples and WriteWavFile report success exactly when every byte of the header and of the samples was accepted.", "quantifier": "all sinks (every amount of room), channel counts, sample rates, sample arrays", "why_tests_cant": "the failure point ranges over every byte of an unbounded file", "anchors": ["audio/dsp/portable/write_wav_file_generic.c: WriteWavHeaderGeneric, WriteWavSamplesGeneric", "audio/dsp/portable/write_wav_file.c: WriteWavFile"]}
{"id": "C54", "title": "Every resampler configuration that is accepted works", "statement": "Whenever RationalFactorResamplerMake or QResampler::Init accepts its parameters, every later ProcessSamples call stays within its buffers and produces output.", "quantifier": "all accepted sample rates, filter radius factors and maximum denominators", "why_tests_cant": "the failing parameters (a radius factor below 1/2 with strong downsampling, extreme upsampling) are far from the tested ones and the failure is a buffer overrun or a division by zero", "anchors": ["audio/dsp/portable/rational_factor_resampler.c: RationalFactorResamplerMake", "audio/dsp/resampler_q.cc: Init"]}
{"id": "C55", "title": "Perfect reconstruction from spectrogram to waveform", "statement": "If a signal is analysed by Spectrogram with some window and step (at most the window length) and the complex slices are passed to InverseSpectrogram initialised with GenerateSynthesisWindow of the same window and step, and no phase of the window has zero energy, then output sample t equals input sample t for every t from window length minus step up to number-of-frames times step, however both streams are cut into calls.", "quantifier": "all windows, steps, signals and chunkings of samples and slices", "why_tests_cant": "an identity between real-valued signals over all windows and signals; tests use tolerances on samples", "anchors": ["audio/dsp/spectrogram/inverse_spectrogram.cc: InverseSpectrogram::{GenerateSynthesisWindow,Process}", "audio/dsp/spectrogram/spectrogram.cc: Spectrogram::ComputeComplexSpectrogram"]}
{"id": "C56", "title": "Nelder-Mead search keeps its documented contract", "statement": "GetMin() returns the lowest value of the objective seen at any point evaluated by the call; a standard deviation tolerance less than or equal to zero is ignored; SetSimplex applies active bounds to the simplex.", "quantifier": "all objectives, scalar types, simplices, bounds and call histories", "why_tests_cant": "depends on which candidate points every step rejects, for every objective", "anchors": ["audio/dsp/nelder_mead_searcher.h: NelderMeadSearcher::{GetMin,MinimizeObjective,SetSimplex}"]}
{"id": "C57", "title": "Shelf and peaking equaliser designs keep their analytic guarantees", "statement": "For every rate, frequency, Q and gain that passes the checks: the low (high) shelf has gain `gain` at DC (Nyquist), 1 at the other end and their geometric mean at the corner; the parametric peak is 1 + (gain-1) times the bandpass design at every frequency; the symmetric peak designs for gains G and 1/G are inverses of each other; all are stable.", "quantifier": "all sample rates, frequencies, Q, gains, and all evaluation frequencies", "why_tests_cant": "continuum of designs and frequencies", "anchors": ["audio/linear_filters/biquad_filter_design.cc: LowShelfBiquadFilterCoefficients, HighShelfBiquadFilterCoefficients, ParametricPeakBiquadFilterCoefficients, ParametricPeakBiquadFilterSymmetricCoefficients"]}
{"id": "C58", "title": "The allpass design is flat and has the requested phase and group delay at the corner", "statement": "For every configuration that CheckAllPassConfiguration accepts, AllpassBiquadFilterCoefficients returns a stable filter with unit gain at every frequency and exactly the requested phase and group delay at the corner frequency.", "quantifier": "all sample rates, corner frequencies, phases and group delays", "why_tests_cant": "continuum of designs and frequencies; boundary of the accepted set", "anchors": ["audio/linear_filters/biquad_filter_design.cc: AllpassBiquadFilterCoefficients, CheckAllPassConfiguration, MinimumGroupDelayForAllPass"]}
{"id": "C59", "title": "Butterworth filters of every order have the Butterworth response", "statement": "For every order, rate and corner frequency below Nyquist, the lowpass (highpass) returned by ButterworthFilterDesign has power response 1/(1+Omega^(2N)) (1/(1+Omega^(-2N))) with Omega = tan(theta/2)/tan(pi f/rate) at every frequency; both are at half power at the corner and power complementary everywhere.", "quantifier": "all orders, rates, corner frequencies and evaluation frequencies", "why_tests_cant": "every order, continuum of frequencies", "anchors": ["audio/linear_filters/biquad_filter_design_pole_zero.cc: ButterworthFilterDesign, PoleZeroFilterDesign::LowpassCoefficients, HighpassCoefficients"]}
{"id": "C60", "title": "Pole/zero designs are the prototype under the frequency map", "statement": "For every analog prototype, the lowpass, highpass, bandpass and bandstop designs have at every z the value of the prototype at the mapped frequency (bilinear transform with prewarped band edges), and stable prototypes give poles strictly inside the unit circle.", "quantifier": "all prototypes, rates, band edges, evaluation points", "why_tests_cant": "arbitrary root lists, continuum of frequencies", "anchors": ["audio/linear_filters/biquad_filter_design_pole_zero.cc: LowpassCoefficients, HighpassCoefficients, BandpassCoefficients, BandstopCoefficients", "audio/linear_filters/discretization.cc: BilinearTransform"]}
{"id": "C61", "title": "FilterPolesAndZeros::Eval evaluates the represented system", "statement": "Eval returns the value of the transfer function with the stored gain, poles and zeros.", "quantifier": "all root lists and evaluation points", "why_tests_cant": "arbitrary root lists", "anchors": ["audio/linear_filters/filter_poles_and_zeros.cc: Eval"]}
{"id": "C62", "title": "Window Fourier transforms are the Fourier integrals", "statement": "For every radius and frequency, EvalFourierTransform(f) equals the integral over the support of Eval(x) cos(2 pi f x), including at the removable singularities of the closed formulas, also after the radius has been changed.", "quantifier": "all windows, radii, frequencies and call histories", "why_tests_cant": "a continuum of frequencies and singular points; an integral on the right-hand side", "anchors": ["audio/dsp/window_functions.cc: *Window::EvalFourierTransform, MemoizeSamples", "audio/dsp/window_functions.h: set_radius"]}
{"id": "C63", "title": "MFCCs are the truncated DCT of the floored log mel spectrum", "statement": "After a successful Initialize, Compute returns the first dct_coefficient_count coefficients of the DCT of log(max(1e-12, mel spectrum)); an uninitialized object and an unusable frame leave the output alone; parameters cannot change after Initialize.", "quantifier": "all parameters, frames and call histories", "why_tests_cant": "all parameters and frames", "anchors": ["audio/dsp/mfcc/mfcc.cc: Mfcc::Initialize, Compute", "audio/dsp/mfcc/mfcc.h"]}
{"id": "C64", "title": "Vector smoothers are exponential averages", "statement": "ForwardSmoothVector and BackwardSmoothVector are exponential averages of the past and of the future for every state, streamable in blocks, within the range of signal and state, and constant on constants; SmoothVector and HermitianSmoothVector keep the size and the range, and preserve constants; SmootherCoefficientFromScale gives four passes the requested standard deviation; BlockDC subtracts the exponential average, and constants decay to zero geometrically.", "quantifier": "all signals, coefficients, states, scales, block splits", "why_tests_cant": "all lengths and histories; infinite impulse response moments", "anchors": ["audio/dsp/signal_vector_util.h: ForwardSmoothVector, BackwardSmoothVector, SmoothVector, HermitianSmoothVector, SmootherCoefficientFromScale, BlockDC"]}
{"id": "C65", "title": "FIRFilter is streamable convolution", "statement": "For every non-empty impulse response and every way of cutting a signal into chunks, the concatenated results of FIRFilter::Filter are the convolution of the signal with the impulse response; empty impulse responses are rejected.", "quantifier": "all impulse responses, signals, chunkings", "why_tests_cant": "all lengths and chunkings", "anchors": ["audio/dsp/signal_vector_util.h: FIRFilter"]}
{"id": "C66", "title": "FIR designs are windowed ideal filters", "statement": "DesignFirLowpassFilter returns window[i]*factor*sinc(pi*factor*(i-radius)) for every accepted band edge, rate and odd window; symmetric windows give symmetric (linear phase) filters; the highpass complements the lowpass to an impulse; the bandpass is the difference of two lowpasses; other arguments are rejected.", "quantifier": "all band edges, rates, windows", "why_tests_cant": "continuum of parameters, all window sizes", "anchors": ["audio/dsp/signal_vector_util.h: DesignFirLowpassFilter, DesignFirHighpassFilter, DesignFirBandpassFilter"]}
{"id": "C67", "title": "Generated sinusoids are exact and consistent", "statement": "ComputePhasorVector, ComputeSineWaveVector and GenerateSine produce exp(i n step), sin(2 pi f n / rate + phase) and its amplitude-scaled version at every sample; GenerateSineEigen produces the same signal as GenerateSine for the same arguments.", "quantifier": "all lengths, frequencies, rates, amplitudes, phases", "why_tests_cant": "recursive phasors: induction over the sample index; continuum of parameters", "anchors": ["audio/dsp/signal_vector_util.h: ComputePhasorVector, ComputeSineWaveVector", "audio/dsp/signal_generator.h: GenerateSine", "audio/dsp/signal_generator.cc: GenerateSineEigen"]}
{"id": "C68", "title": "Circular averages are the best representative on the circle", "statement": "ComputeCircularAverage and ComputeWeightedCircularAverage accept exactly non-empty values with as many weights and a positive period; the result is in [0, period], is the direction of the weighted sum of the points on the circle, maximises the weighted sum of cosines of angular distances, and equals the common value modulo the period when all values agree.", "quantifier": "all values, weights, periods", "why_tests_cant": "optimality over a continuum", "anchors": ["audio/dsp/signal_vector_util.h: ComputeCircularAverage, ComputeWeightedCircularAverage"]}
{"id": "C69", "title": "FFT resampling evaluates the trigonometric polynomial of the input", "statement": "Upsample and FftPeriodicResample to a larger number of samples evaluate the trigonometric polynomial through the input samples at the output times, so every factor-th output sample of Upsample is an input sample; resampling to fewer samples evaluates the part of that polynomial below half the output rate; resampling up and back gives the input back; every nonempty input and positive rates are accepted.", "quantifier": "all nonempty signals, all factors above one, all pairs of positive sample rates", "why_tests_cant": "all lengths and parities of input and output size, and real identities between transcendental functions", "anchors": ["audio/dsp/kiss_fft_util.cc: Upsample, FftPeriodicResample"]}
{"id": "C70", "title": "Periodic Gaussian convolution multiplies the spectrum by a Gaussian", "statement": "PeriodicGaussianConvolution multiplies bin k of the transform of the input by exp(-2 (pi sigma k / n)^2); it preserves the sum and constants, is the identity for sigma = 0, and composes by adding variances; as documented the result is the sum over all integers n of input[m - n] times a sampled Gaussian of unit DC gain.", "quantifier": "all nonempty signals, all sigma", "why_tests_cant": "all lengths, all sigma; the recursive weights must equal the closed form for every bin", "anchors": ["audio/dsp/kiss_fft_util.cc: PeriodicGaussianConvolution"]}
{"id": "C71", "title": "Multi-band compressor: sum of independently compressed bands", "statement": "After construction and Init, MultibandCompressor::ProcessBlock returns, for every division of the signal into blocks of at most the maximal size, the sum over the bands of the documented dynamic range control of each band (own parameters, own look-ahead) applied to that band of the crossover filterbank, and never aborts; changing the parameters of one stage affects that stage only; Reset and Init keep the configured compression parameters and crossover frequencies.", "quantifier": "all valid parameters of all bands, numbers of bands and channels, sample rates from 1200 Hz, signals and block divisions, and all run histories before Reset", "why_tests_cant": "the output couples a filterbank and one nonlinear gain computer per band over unbounded histories; tests look at a few signals and never compress again after Reset", "anchors": ["audio/dsp/hifi/multiband_compressor.h: MultibandCompressor", "audio/dsp/hifi/multiband_compressor.cc: Init, Reset, ProcessBlock"]}
{"id": "C72", "title": "Poles, peak gain and decay time of a biquad", "statement": "BiquadFilterCoefficients::GetPoles returns the two poles; FindPeakFrequencyRadiansPerSample returns a frequency in [0, pi] at which the gain is maximal over all frequencies, that gain, and the lowest such frequency; after SetPeakGain(g) the largest gain is |g|; EstimateDecayTime is infinite exactly for a pole on or outside the unit circle, and otherwise after that many samples the impulse response has decayed by the requested number of decibels; RealRootsForQuadratic finds all real roots.", "quantifier": "all biquad coefficients; all frequencies; all times after the returned one", "why_tests_cant": "maximum over a continuum of frequencies and a bound for all later times; the failing coefficients lie in a sliver that random tests do not hit", "anchors": ["audio/linear_filters/biquad_filter_coefficients.cc: GetPoles, FindPeakFrequencyRadiansPerSample, EstimateDecayTime", "audio/linear_filters/biquad_filter_coefficients.h: SetGainAtFrequency, SetPeakGain", "audio/dsp/porting.cc: MathUtil::RealRootsForQuadratic"]}
{"id": "C73", "title": "Peak of a filter cascade by grid search and bisection", "statement": "BiquadFilterCascadeCoefficients::FindPeakFrequencyRadiansPerSample returns the frequency at which the gain is maximal and the lowest one if several have the same gain; for a gain with a single peak the frequency is found to the documented precision; the gain returned is the gain at the frequency returned and at least that at every grid point.", "quantifier": "all cascades, all functions with a single maximum", "why_tests_cant": "continuum of frequencies; an unlucky peak between grid points needs a constructed filter", "anchors": ["audio/linear_filters/biquad_filter_coefficients.cc: FindPeakByBisection, BiquadFilterCascadeCoefficients::FindPeakFrequencyRadiansPerSample"]}
{"id": "C74", "title": "Decibel conversions", "statement": "The conversions between amplitude or power ratios and decibels are d = 20 log10(x) and d = 10 log10(x) and their inverses: round trips are the identity, products become sums, larger ratios have more decibels, the power decibels of a square are the amplitude decibels, and the array versions agree with the scalar versions.", "quantifier": "all positive ratios, all decibel values, all arrays", "why_tests_cant": "continuum of arguments", "anchors": ["audio/dsp/decibels.h: AmplitudeRatioToDecibels, DecibelsToAmplitudeRatio, PowerRatioToDecibels, DecibelsToPowerRatio"]}
{"id": "C75", "title": "Perceptual weighting filters", "statement": "PerceptualLoudnessFilterCoefficients returns, for each weighting (A, B, C, D, RLB, K) and sampling rate, a stable cascade that blocks DC and whose response is that of the standard's analog system under the bilinear transform; roots at or above the Nyquist frequency are left out without changing the gain at low frequencies; A, B, C and D have 0 dB at 1 kHz and K has 0 dB at 500 Hz.", "quantifier": "all weightings, sampling rates and frequencies", "why_tests_cant": "continuum of sampling rates and frequencies; which roots are dropped depends on the rate", "anchors": ["audio/linear_filters/perceptual_filter_design.cc: PerceptualLoudnessFilterPolesAndZeros, PerceptualLoudnessFilterCoefficients", "audio/linear_filters/discretization.cc: BilinearTransform"]}
{"id": "C76", "title": "Streaming loudness meter", "statement": "After Init, the values returned by ProcessBlock for any sequence of blocks are, frame by frame, the decibels of the average (by the configured averaging filter) of the weighted sum over channels of the squared K-weighted signal, independent of how the signal is divided into blocks; Reset restores the freshly initialised state; multiplying the signal by g adds 20 log10|g| dB; channels of weight zero do not matter; with the averaging of the recommendation the average is the exponential one with the given time constant and no value is NaN; the strict parameters for mono, stereo and 5.1 have the gains of the recommendation (the LFE channel is not measured) and the time constant 400 ms; ProcessVector is ProcessBlock on the de-interleaved frames; Init fails exactly when the number of weights is not the number of channels.", "quantifier": "all channel counts, weights, sampling rates, averaging filters, signals, divisions into blocks and previous states of the meter", "why_tests_cant": "continuum of signals and all divisions into blocks; NaN occurs only for particular signals", "anchors": ["audio/dsp/loudness/streaming_loudness_1771.h: StreamingLoudnessParams, StreamingLoudness1771::ProcessBlock, ProcessVector", "audio/dsp/loudness/streaming_loudness_1771.cc: Init, Reset"]}
{"id": "C77", "title": "Two-way compressor driven by loudness", "statement": "After Init, any sequence of blocks produces, frame by frame, the input delayed by the look-ahead (rounded to samples) times the gain 'two-way curve at (level + input gain) minus level plus output gain', where the level is that of the attack/release envelope of the averaged loudness power of the undelayed signal; the result is independent of the division into blocks; Reset restores the freshly initialised state; Init returns false exactly for the documented invalid parameters, and then has no effect; a finite signal never disables the compression.", "quantifier": "all channel counts, documented parameters, sampling rates, signals, divisions into blocks and previous states of the object", "why_tests_cant": "continuum of signals, all divisions into blocks and histories before Reset", "anchors": ["audio/dsp/loudness/loudness_1771_two_way_compressor.h: ProcessBlock, ApplyGainToSignal", "audio/dsp/loudness/loudness_1771_two_way_compressor.cc: Init, Reset, ComputeGainFromDetectedSignal"]}
{"id": "C78", "title": "Design of the auditory cascade filterbank", "statement": "Init of the auditory cascade filterbank accepts exactly the documented parameters and designs stages whose pole frequencies start at min(highest pole, fraction of Nyquist) and go down by step_erbs ERBs while above the minimum pole; every stage is a stable discretisation of the documented resonator; before a stage the rate is halved under the documented conditions; the gain from the input to the peak frequency of every channel is one; the channels shown are those selected by the options, with their peaks, bandwidths and rates; Init can be called again.", "quantifier": "all parameters, sampling rates and channel selections", "why_tests_cant": "continuum of parameters; the number of stages is unbounded; the failing cases (Nyquist fraction one, no stages, second Init) are corners", "anchors": ["audio/linear_filters/filterbanks/auditory_cascade_filterbank.cc: CheckParameterValues, ComputeFilterbankCentersAndBandwidths, HandleChannelSelection, DesignFilterbank, DesignFilterbankStage, Init", "audio/linear_filters/filterbanks/auditory_cascade_filterbank_params.proto", "audio/linear_filters/filterbanks/auditory_cascade_filterbank.h: GetFilterbankSize, GetSampleRate, PeakFrequencyHz, BandwidthHz"]}
{"id": "C79", "title": "Output of the auditory cascade filterbank", "statement": "After Init, for any sequence of blocks of any number of microphones, the concatenated output of each channel is the first difference of the output of its stage, the stages being filters with the designed coefficients that each filter the output of the one before (every other sample where the rate is halved); the result does not depend on the division into blocks; Reset restores the behaviour after Init.", "quantifier": "all parameters, microphone counts, signals, divisions into blocks (odd lengths included) and histories before Reset", "why_tests_cant": "continuum of signals and all divisions into blocks at several rates at once", "anchors": ["audio/linear_filters/filterbanks/auditory_cascade_filterbank.cc: ProcessBlock, Reset", "audio/linear_filters/filterbanks/factor_two_decimator.h: Decimate", "audio/linear_filters/filterbanks/auditory_cascade_filterbank.h: FilteredOutput"]}
{"id": "C80", "title": "Coefficients and response of the parametric equalizer", "statement": "After any sequence of AddStage, SetStageEnabled, MutableStageParams, SetGainDb and ClearAllGains, GetCoefficients returns stable stages whose joint response is, at every frequency, the overall gain times the product of the responses of the enabled bands, each a stable digital version of its analog prototype with the gain its settings say at 0 Hz, at half the sampling rate and at its own frequency; settings out of range stop the program; after ClearAllGains the filter returns its input; the number of stages of the filter does not depend on bypass flags.", "quantifier": "all histories of calls, numbers and kinds of bands, settings, sampling rates, frequencies and input signals", "why_tests_cant": "continuum of settings and frequencies, unbounded number of bands and histories; tests check a few responses with tolerances", "anchors": ["audio/linear_filters/parametric_equalizer.h: ParametricEqualizerParams", "audio/linear_filters/parametric_equalizer.cc: GetCoefficients, ClearAllGains, AddStage, SetStageEnabled, GetNumEnabledStages, ParametricEqualizerGainMagnitudeAtFrequencies", "audio/linear_filters/equalizer_filter_params.h: EqualizerFilterParams"]}
{"id": "C81", "title": "Fit of the gains of a parametric equalizer", "statement": "SetParametricEqualizerGainsToMatchMagnitudeResponse changes gains only; the gains it sets come from at most max_iterations least-squares steps (levels in decibels taken proportional to the gains) started at 6 dB, ending early when no gain changes by the threshold; disabled stages are ignored; the fit is a least-squares fit.", "quantifier": "all equalizers, targets, frequencies, iteration limits and thresholds", "why_tests_cant": "continuum of targets and settings; the optimality of each step is a statement about all other gains", "anchors": ["audio/linear_filters/parametric_equalizer.cc: SetParametricEqualizerGainsToMatchMagnitudeResponse, SetGainsFromArray", "audio/linear_filters/parametric_equalizer.h: ConvergenceParams"]}
{"id": "C82", "title": "Fit of all parameters of a parametric equalizer", "statement": "FitParametricEqualizer keeps the kinds, their number and the bypass flags; all frequencies and quality factors it sets are within the bounds; the value returned is the root-mean-square error in decibels of the equalizer it leaves, and is at most the error of the fit of the gains alone at a starting guess within the bounds; the disabled status is ignored and every starting guess within the bounds is accepted.", "quantifier": "all equalizers, starting guesses, targets, bounds, tolerances and evaluation limits", "why_tests_cant": "the search visits a data-dependent sequence of points of unbounded length", "anchors": ["audio/linear_filters/parametric_equalizer.cc: FitParametricEqualizer, SetFrequenciesAndQualityFactorsFromArray, GetLogFrequenciesAndQualityFactors", "audio/linear_filters/parametric_equalizer.h: NelderMeadFitParams"]}
{"id": "C83", "title": "Zero-pole-gain transformations of the C library", "statement": "ZpkInit gives the identity; ZpkEval evaluates the gain times the zeros over the poles at every complex frequency that is no pole; ZpkBilinearTransform substitutes s = 2 fs (z-1)/(z+1), makes the counts of zeros and poles equal, keeps the filter real, turns stable analog filters into stable digital ones and fails for rates that are not positive; the analog prototype transformations substitute s/c, c/s, (s^2+lh)/(s(h-l)) and its reciprocal, keep realness and stability and produce the documented number of poles, failing when more than 15 poles would have to be doubled.", "quantifier": "all filters with any number of roots, cutoffs, rates and complex frequencies", "why_tests_cant": "continuum of roots and frequencies, unbounded number of roots; tests check a few filters with tolerances", "anchors": ["audio/dsp/portable/iir_design.h: Zpk, ZpkInit, ZpkEval, ZpkBilinearTransform, ZpkAnalogPrototypeToLowpass, ZpkAnalogPrototypeToHighpass, ZpkAnalogPrototypeToBandpass, ZpkAnalogPrototypeToBandstop", "audio/dsp/portable/iir_design.c"]}
{"id": "C84", "title": "Sorting of roots and conversion to biquads in the C library", "statement": "ZpkSort succeeds exactly if zeros and poles come in conjugate pairs, whatever the order qsort gives to equal elements, and then only reorders them: real ones first, then conjugate pairs, each by increasing real part. ZpkToBiquads writes ceil(degree/2) biquads whose joint response is the filter's at every frequency and whose poles are the filter's; it fails if the array is NULL or too small. The result depends on the roots of the filter alone.", "quantifier": "all filters with any number of roots, all implementations of qsort, all array sizes and complex frequencies", "why_tests_cant": "qsort is unspecified for ties; continuum of roots; unbounded number of roots", "anchors": ["audio/dsp/portable/iir_design.h: ZpkSort, ZpkToBiquads", "audio/dsp/portable/iir_design.c: RootsSort, ZpkSort, ZpkToBiquads"]}
{"id": "C85", "title": "Butterworth designs of the C library", "statement": "DesignButterworthLowpass, Highpass, Bandpass and Bandstop return ceil(order/2) (band filters: order) biquads, all stable, with power gain 1/(1+w^(2 order)) at every frequency, where w is the frequency mapped to the analog prototype, so half power at the band edges; they return 0 for an order below 1, cutoffs outside the documented range, a NULL array or an array that is too small; no accepted call writes out of bounds.", "quantifier": "all orders, cutoffs, sampling rates, array sizes, contents of uninitialised memory and frequencies", "why_tests_cant": "continuum of cutoffs and frequencies; tests check a few orders and frequencies with tolerances", "anchors": ["audio/dsp/portable/iir_design.h: DesignButterworthLowpass, DesignButterworthHighpass, DesignButterworthBandpass, DesignButterworthBandstop", "audio/dsp/portable/iir_design.c: ButterworthPrototype, DesignLowpass, DesignHighpass, DesignBandpass, DesignBandstop, BilinearPrewarp"]}
{"id": "C86", "title": "Chebyshev designs of the C library", "statement": "The Chebyshev type 1 (type 2) designs return ceil(order/2) (band filters: order) stable biquads whose power gain is that of the type 1 (type 2) prototype: with equal ripple, between -ripple dB and 0 dB in the passband, lower outside (at most -ripple dB in the stopband, higher outside), and exactly -ripple dB at the edges; they return 0 for an order below 1, cutoffs outside the documented range, a NULL array or an array that is too small; no accepted call writes out of bounds.", "quantifier": "all orders, ripples, cutoffs, sampling rates, array sizes, contents of uninitialised memory and frequencies", "why_tests_cant": "continuum of ripples, cutoffs and frequencies; tests check a few orders and frequencies with tolerances", "anchors": ["audio/dsp/portable/iir_design.h: DesignChebyshev1Lowpass, DesignChebyshev1Highpass, DesignChebyshev1Bandpass, DesignChebyshev1Bandstop, DesignChebyshev2Lowpass, DesignChebyshev2Highpass, DesignChebyshev2Bandpass, DesignChebyshev2Bandstop", "audio/dsp/portable/iir_design.c: Chebyshev1Prototype, Chebyshev2Prototype"]}
{"id": "C87", "title": "Second-order Butterworth designs of the C library", "statement": "The C functions that design second-order Butterworth filters return one biquad (lowpass, highpass) or two (bandpass) whose poles are strictly inside the unit circle and whose power gain at every frequency is that of the second-order Butterworth filter warped by the bilinear transform: one half at the corner, or at both band edges, and exactly zero at frequency 0 for highpass and bandpass. They return 0 exactly when the frequencies are out of order, not positive or not below half the sample rate, or the output pointer is NULL. Running a biquad from zeroed state computes the difference equation of its coefficients.", "quantifier": "all corner or band-edge frequencies and sample rates, all frequencies of the response, all input signals", "why_tests_cant": "the tests look at a few corners and a few frequencies; stability and gain have to hold for every design", "anchors": ["audio/dsp/portable/butterworth.h: DesignButterworthOrder2Lowpass, DesignButterworthOrder2Highpass, DesignButterworthOrder2Bandpass", "audio/dsp/portable/butterworth.c", "audio/dsp/portable/biquad_filter.h: BiquadFilterInitZero, BiquadFilterProcessOneSample"]}
{"id": "C88", "title": "Elliptic integrals of the first kind", "statement": "EllipticK(m) is the complete elliptic integral of the first kind, up to one part in 10^24 in exact arithmetic, for every parameter 0 <= m < 1, and infinite at m = 1. EllipticF(phi, m) is the incomplete integral for every real phi with |phi| <= pi/2 and every complex phi with |Re phi| < pi/2, with explicit error bounds: 2^-104 relative on the real line, 2^-52 of the integral of the modulus in the complex strip, |phi|^5 below 10^-3. The Landen iteration converges in at most ten entries for every double parameter below 1. The C and the C++ library agree.", "quantifier": "all parameters in [0, 1) up to the largest double below 1, all real and complex amplitudes in the documented strip", "why_tests_cant": "the tests compare a few values with a table; the accuracy has to hold for every parameter and complex amplitude", "anchors": ["audio/dsp/elliptic_functions.h: EllipticK, EllipticF", "audio/dsp/elliptic_functions.cc", "audio/dsp/portable/elliptic_fun.h: EllipticK, EllipticF", "audio/dsp/portable/elliptic_fun.c"]}
{"id": "C89", "title": "The Jacobi amplitude inverts the elliptic integral", "statement": "JacobiAmplitude(EllipticF(phi, m), m) = phi for every complex phi with |Re phi| < pi/2 (and |phi| >= 10^-3, where EllipticF switches to a polynomial); EllipticF(JacobiAmplitude(u, m), m) = u for every real |u| <= K(m); and for those u the amplitude is a real number in [-pi/2, pi/2] whose integral is u up to 2^-104. Violated outside |u| <= K(m): the result never leaves [-pi/2, pi/2] for real u, so that cos(JacobiAmplitude(u, m)) is not cn(u|m) there.", "quantifier": "all parameters in [0, 1), all complex amplitudes in the strip, all real arguments", "why_tests_cant": "the tests check the inversion at random samples; it has to hold for all of them", "anchors": ["audio/dsp/elliptic_functions.h: JacobiAmplitude, EllipticF", "audio/dsp/elliptic_functions.cc", "audio/dsp/portable/elliptic_fun.h: JacobiAmplitude", "audio/dsp/portable/elliptic_fun.c"]}
{"id": "C90", "title": "The modified Bessel functions are accurate to 1e-15 for every argument", "statement": "BesselI0(x) and BesselI1(x) return the modified Bessel functions of the first kind I_0(x) and I_1(x) with the documented relative error of at most 1e-15 for every real x, in both the power-series range and the asymptotic range; below 21 the error is two units in the last place. BesselI0 is even, BesselI1 is odd, the values between 0 and 21 do not decrease and are at least one, and the recursion documented for higher orders holds of the functions being approximated. The BesselI0 of the C resampler has the same accuracy below 21. The Kaiser window built with BesselI0 is a window and is within 3e-15 of the ideal Kaiser window for every beta.", "quantifier": "every real argument (unbounded), both orders, every Kaiser beta and radius", "why_tests_cant": "The bound is over a continuum and both truncation rules (stop when a term is below epsilon times the sum, at most 40 terms) depend on the argument; tests compare a few tabulated values.", "anchors": ["audio/dsp/bessel_functions.h: BesselI0, BesselI1", "audio/dsp/bessel_functions.cc: BesselISeries, BesselIAsymptotic", "audio/dsp/portable/rational_factor_resampler_kernel.c: BesselI0", "audio/dsp/window_functions.cc: KaiserWindow"]}
{"id": "C91", "title": "The deprecated resampler gives the interpolation formula for every block split, like QResampler", "statement": "RationalFactorResampler, for every kernel, factor a/b and filter radius r with a/b at most 2r+1: ProcessSamples and Flush do exactly what QResampler does with the same kernel, from every state; after construction or Reset, however the input is cut into blocks (empty ones included), output m is sum_n x[n] h(m a/b - n) and is produced exactly when the input it needs has arrived; Flush produces all remaining nonzero outputs and leaves the resampler as constructed; after ResetFullyPrimed the output is delayed by r samples and blocks of a multiple of the reduced numerator give exactly n b/a samples. ProcessSamplesEigen gives the same output and state. Findings: ProcessSamplesEigen leaves the samples of an earlier call in the output vector if too few samples are available; a radius small against the factor is accepted and fails in ProcessSamples.", "quantifier": "every kernel function, factor, radius, stream and partition into blocks; samples in any module over the coefficients (real or complex)", "why_tests_cant": "Quantifies over all streams, partitions and kernels; the code splits each call in a straddling and a plain part with an index that may jump over either.", "anchors": ["audio/dsp/resampler_rational_factor.h: RationalFactorResampler", "audio/dsp/resampler.h: Resampler"]}
{"id": "C92", "title": "The deprecated resampler's kernel and construction, and migration to QResampler", "statement": "DefaultResamplingKernel is valid exactly for positive parameters with cutoff at most the input Nyquist rate, is even, vanishes outside its radius and is the Kaiser-windowed sinc with error at most 5e-15 of its value at 0 (so is the kernel of QResampler and of the C resampler for beta below 21). The constructor with a factor uses the reduced fraction and is valid exactly for positive numbers and a valid kernel; the other uses a closest fraction. With the documented conversion of parameters QResampler's kernel has the same radius and differs by at most 1e-14 of the value at 0, so that both resamplers give as many outputs and outputs that agree to near machine precision. Findings: the conversion is rejected if the cutoff is above the output Nyquist rate; upsampling by more than twice max_denominator is accepted with factor 0 and divides by zero.", "quantifier": "every sample rate, radius, cutoff, beta, factor, bounded input and partition into blocks", "why_tests_cant": "The accuracy and equivalence claims range over real parameters and all signals.", "anchors": ["audio/dsp/resampler_rational_factor.cc: DefaultResamplingKernel", "audio/dsp/resampler_rational_factor.h: RationalFactorResampler constructors", "audio/dsp/resampler_q.h: conversion from RationalFactorResampler kernel params", "audio/dsp/portable/rational_factor_resampler_kernel.c: RationalFactorResamplerKernelEval"]}
{"id": "C93", "title": "WAV data written into a string", "statement": "WriteWavToString for 16-bit samples produces exactly the bytes WriteWavFile produces for the same arguments, and they are read back unchanged. For float samples the string is the one for the samples quantized to 16 bits (scaled, truncated towards zero, saturated, infinities included), whatever the number of samples relative to the internal block size; within full scale the error is less than one step and never away from zero. Findings: NaN samples become -32768 instead of 0; arguments are not checked; the size fields wrap for 2^31 samples or more while success is reported.", "quantifier": "every sample sequence, channel count, sample rate, every float value including infinities and NaN", "why_tests_cant": "block handling must be right for every length and the conversion for every float; tests use a few values", "anchors": ["audio/dsp/portable/write_wav_string.cc: WriteWavToString (both), FloatSamplesToInt"]}
{"id": "C94", "title": "Whole WAV files read into memory", "statement": "ReadWavFile and Read16BitWavFile return, for every well-formed file, the channel count and sample rate of the header and exactly the announced samples that are present, in whole frames: as 16-bit integers, or on the 32-bit scale (16-bit and mu-law times 2^16, 24-bit times 2^8, floats quantized to 32 bits with NaN as 0). Anything else than a well-formed file (or one cut inside the data chunk's header) gives NULL, as do failing allocations and a failing close; ReadWavFile never aborts. What the library writes is read back. Findings: a float sample of 1.0 or more makes the float-to-integer conversion undefined, because the clipping bound INT32_MAX rounds to 2^31; Read16BitWavFile aborts the program on any other encoding.", "quantifier": "every byte string, every allocation and close outcome, every previous memory contents", "why_tests_cant": "the set of files is unbounded and includes truncated ones", "anchors": ["audio/dsp/portable/read_wav_file.c: ReadWavFile, Read16BitWavFile, InPlaceFloatToInt32Conversion"]}
{"id": "C95", "title": "C++ Chebyshev designs and band designs have exactly the classical response and are stable", "statement": "For every order of at least 1, positive ripple, sampling rate and edge frequencies between 0 and the Nyquist frequency, ChebyshevType1FilterDesign and ChebyshevType2FilterDesign return ceil(order/2) (lowpass, highpass) or order (bandpass, bandstop) biquads, all stable, whose cascade has exactly the Chebyshev power response at the prewarped frequency: the gain stays within the ripple in the passband (type 1) or below it in the stopband (type 2) and crosses exactly at the edges. ButterworthFilterDesign band designs have half power at both edges.", "quantifier": "all orders, ripples, sampling rates, edge frequencies and response frequencies", "why_tests_cant": "The unit tests check a few orders and frequencies with tolerances; the response has to hold for every order, ripple and edge at every frequency, and stability for every filter that can be designed.", "anchors": ["audio/linear_filters/biquad_filter_design_pole_zero.cc: ChebyshevType1FilterDesign, ChebyshevType2FilterDesign, ButterworthFilterDesign", "audio/linear_filters/filter_poles_and_zeros.cc"]}
{"id": "C96", "title": "Spectral properties of a window are those of its sampled spectrum", "statement": "ComputeSpectralProperties returns, for every window and radius, twice the first frequency (of a 1/200 Hz grid) where the energy spectrum is not above half its value at 0, the share of the energy up to the end of the main lobe, and the highest sidelobe beyond it in dB; the width is within 1/100 Hz of the true width at half maximum; it aborts only if no main lobe exists.", "quantifier": "all windows, radii, Fourier transforms, roundings to float", "why_tests_cant": "Depends on the spectrum of every window at every radius; tests use radius 1.", "anchors": ["audio/dsp/window_functions.cc: ComputeSpectralProperties", "audio/dsp/window_functions.h: SpectralProperties"]}
{"id": "C97", "title": "Elliptic filter designs have the elliptic response within both ripples", "statement": "EllipticFilterDesign aborts exactly for non-positive orders, non-positive passband ripple or a passband ripple not below the stopband ripple; otherwise the prototype has all poles in the left half plane and the power response 1/(1+eps^2 R^2) of the elliptic rational function R whose modulus solves the degree equation, so the gain is within the passband ripple exactly up to the corner and below the stopband attenuation exactly beyond the stopband edge; the lowpass, highpass, bandpass and bandstop filters are stable with the documented number of stages and this response at the warped frequency.", "quantifier": "all orders, ripples, sampling rates, corner frequencies and band edges, all frequencies", "why_tests_cant": "The response must hold at every frequency for every order and pair of ripples; tests sample a few designs.", "anchors": ["audio/linear_filters/biquad_filter_design.h: EllipticFilterDesign", "audio/linear_filters/biquad_filter_design_pole_zero.cc: EllipticFilterDesign::GetAnalogPrototype"]}
{"id": "C98", "title": "Elliptic designs of the C library", "statement": "DesignEllipticLowpass/Highpass/Bandpass/Bandstop return 0 exactly for a wrong order, frequency or output array; otherwise the prototype is a real filter with all poles in the left half plane, zeros on the imaginary axis and the power response 1/(1+eps^2 R^2) of the elliptic rational function whose modulus solves the degree equation, and the biquads (ceil(order/2) or order) are stable with this response at the warped frequency: within the passband ripple exactly in the passband and at most -stopband_ripple_db exactly in the stopband; the two ripples are independently adjustable", "quantifier": "all orders, all ripples, all cutoffs or edges and sampling rates, all frequencies, all sorting functions", "why_tests_cant": "the response must hold at every frequency for every order and pair of ripples; tests compare a few filters with reference coefficients", "anchors": ["audio/dsp/portable/iir_design.c: EllipticAnalogPrototype, SolveEllipticDegreeEquation, DesignEllipticLowpass, DesignEllipticHighpass, DesignEllipticBandpass, DesignEllipticBandstop", "audio/dsp/portable/iir_design.h"]}
{"id": "C99", "title": "The phasor rotator keeps its amplitude for ever in floating point", "statement": "In IEEE single precision, with rounding to nearest and gradual underflow, and whichever multiplications and additions the compiler fuses, the oscillator started at any frequency stays within 1/4000 of the unit circle after any number of steps, and the cosine and sine it returns after n steps differ from cos and sin of 2 pi n frequency / rate by at most 1/4000 + n/10^6.", "quantifier": "all frequencies up to the sample rate, all sample rates of at least 1 Hz, all numbers of steps, all admissible contractions of the arithmetic", "why_tests_cant": "round-off accumulates over unbounded runs; a test runs one frequency for some seconds on one compiler", "anchors": ["audio/dsp/portable/phasor_rotator.h: PhasorRotatorNext, PhasorRotatorCos, PhasorRotatorSin", "audio/dsp/portable/phasor_rotator.c: PhasorRotatorInit, PhasorRotatorRenormalize"]}
{"id": "C100", "title": "Rounding errors of biquad filters and cascades stay bounded for ever", "statement": "For every stable biquad filter and every stable cascade, in C++ and in C, with every operation rounded and whichever multiplications and additions the compiler fuses, the output for a bounded input differs from the exact response of the stored coefficients by at most a constant times the rounding error of one sample, at every time; the constant and the precision that is needed depend only on the poles and coefficients and are given explicitly for one filter.", "quantifier": "all stable filters and cascades, all bounded input signals, all times, all roundings of sufficient precision, all admissible contractions", "why_tests_cant": "feedback could accumulate or amplify round-off over unbounded time; a test runs finitely many samples of a few filters", "anchors": ["audio/linear_filters/biquad_filter-inl.h: BiquadFilter::ProcessSample, BiquadFilterCascade::ProcessBlock", "audio/dsp/portable/biquad_filter.h: BiquadFilterProcessOneSample"]}
{"id": "C101", "title": "Cutting a stream into blocks does not change a single bit of the output", "statement": "In every arithmetic, in particular with rounded and not associative operations, the C resampler, the multichannel biquad filter, biquad cascades, the block FIR filter, the two-tap FIR filter and the sample-wise FIR filter give the same output samples and the same state however the stream is cut into blocks. QResampler does so in exact arithmetic.", "quantifier": "all arithmetics (arbitrary functions for addition, subtraction, multiplication or multiply-accumulate), all filters and factors, all streams, all ways of cutting them into blocks", "why_tests_cant": "the order of the additions could depend on the block boundaries and change the last bit for some input and some cut only", "anchors": ["audio/dsp/portable/rational_factor_resampler.c: RationalFactorResamplerProcessSamples", "audio/dsp/resampler_q.h: QResampler::ProcessSamples", "audio/linear_filters/biquad_filter-inl.h: BiquadFilter, BiquadFilterCascade::ProcessBlock", "audio/linear_filters/fir_filter.h: FirFilter::ProcessBlock", "audio/linear_filters/two_tap_fir_filter.h: TwoTapFirFilter::ProcessBlock"]}
{"id": "C102", "title": "The resamplers stay accurate in floating point", "statement": "For every factor, filter, input and cutting into blocks, the resamplers with every operation rounded, with or without fused multiply-add and, in C++, in whatever order the sums of a filter are evaluated, produce an output exactly when the exact resampler does, and each output differs from the exact one by at most ((1 + u)^(2 r + 2) - 1) times the sum of the absolute values of its products, and a term for underflow.", "quantifier": "all factors, filters, inputs, cuttings into blocks, roundings and orders of summation", "why_tests_cant": "the error depends on the order of the sums, which differs per platform, block size and compiler; a test compares with a tolerance on a few signals", "anchors": ["audio/dsp/portable/rational_factor_resampler.c: RationalFactorResamplerProcessSamples", "audio/dsp/resampler_q.h: QResampler::ProcessSamples"]}
{"id": "C103", "title": "The block FIR filter stays accurate in floating point", "statement": "For every kernel per channel, every input and every cutting into blocks, FirFilter with every operation rounded accesses no element outside its arrays, gives one output per input, and each output of a channel differs from the exact convolution with the kernel of that channel by at most ((1 + u)^(n + 1) - 1) times the convolution of the absolute values, n being the length of the kernel, and a term for underflow.", "quantifier": "all kernels, inputs, cuttings into blocks, channels and roundings", "why_tests_cant": "an output sample is added up over several blocks in the state and in the output; the error could grow with the number of blocks", "anchors": ["audio/linear_filters/fir_filter.h: FirFilter::ProcessBlock"]}
{"id": "C104", "title": "Automatic gain control stays accurate in floating point", "statement": "For every sequence of nonnegative power samples the automatic gain control computed in single precision, with or without fused multiply-add, keeps a nonnegative power estimate; the estimate differs from the exact one at most by a factor of 1 + 5 u per sample of age in the weights, so by at most 10 u (w + 1 + 1/c) M for samples up to M, for ever; and the gain returned by GetGain, computed with FastPow at the level of bits, exists, is positive, is at most 1.0051 power_floor^exponent, and is within 0.51% and the error of the estimate of the documented power.", "quantifier": "all histories of nonnegative samples, all times, all coefficients between 10 u and 1/2, all warm-ups up to 1/(10 u) samples, all admissible contractions", "why_tests_cant": "the recursion runs for ever and could drift, go negative (then FastPow is undefined) or stall", "anchors": ["audio/dsp/portable/auto_gain_control.h: AutoGainControlProcessSample", "audio/dsp/portable/auto_gain_control.c: AutoGainControlWarmUpProcess, AutoGainControlGetGain", "audio/dsp/portable/fast_fun.h: FastPow"]}
{"id": "C105", "title": "The attack/release envelope stays within the range of the signal in floating point", "statement": "In single precision, with the smoothing filter's coefficients stored as float and whichever multiplications and additions the compiler fuses, after every history of samples, changes of the time constants and resets, no call fails, the envelope is nonnegative and at most the largest magnitude seen, and each output lies between the previous output and the magnitude of the sample; for every interpolation rate and all time constants that the constructor accepts.", "quantifier": "all histories of calls, all float samples, all attack and release times, all interpolation rates, all admissible contractions", "why_tests_cant": "a rounding error or a coefficient outside [0, 1] for some setting and some time would let the envelope overshoot or become negative; it depends on the compiler and on the whole history", "anchors": ["audio/dsp/attack_release_envelope.cc: AttackReleaseEnvelope", "audio/dsp/attack_release_envelope.h: Reset", "audio/linear_filters/biquad_filter-inl.h: BiquadFilter::Init, SetSteadyStateCondition, ProcessSample", "audio/dsp/envelope_detector.cc: Init"]}
{"id": "C106", "title": "WAV files with additional chunks laid out as RIFF demands are read", "statement": "For every RIFF file that contains a usable fmt chunk, a data chunk and any other chunks of any contents and any length in front of the data (each padded to an even number of bytes, as the RIFF specification to which the reader refers demands), ReadWavHeader succeeds, reports the format of the fmt chunk and the number of samples of the data chunk, and leaves the reader at the first byte of the audio.", "quantifier": "all sequences of additional chunks, all formats, all audio, seekable or not", "why_tests_cant": "the files that other programs write contain arbitrary further chunks; a test has a few of them, and with even lengths the padding never shows", "anchors": ["audio/dsp/portable/read_wav_file_generic.c: ReadWavHeaderGeneric"]}
{"id": "C107", "title": "The ladder filter stays bounded and accurate in floating point", "statement": "In the machine's arithmetic, with every operation rounded (or contracted to fused multiply-adds), a ladder filter whose input is bounded and whose reflection coefficients are bounded by kappa < 1, but may change with every sample, keeps its state within a bound that does not grow with time, and its output stays within a multiple of the machine precision of the output of the ideal filter, provided the precision suffices for the order and kappa.", "quantifier": "all roundings of a given precision, orders, coefficient sequences, tap gains, inputs, numbers of samples", "why_tests_cant": "rounding errors could accumulate over arbitrarily long runs and adversarial coefficient sequences", "anchors": ["audio/linear_filters/ladder_filter-inl.h: LadderFilter::ProcessSample, GetScatteringCoefficients, ForceStability"]}
{"id": "C108", "title": "Vector statistics in floating point", "statement": "With every operation rounded, in a precision of which the container is not too long, and for every contraction the compiler chooses: Sum, SumSquaredMagnitudes and RealDotProduct differ from the exact sum by at most a number of rounding units proportional to the length, relative to the sum of absolute values; ComputeSecondOrderStats returns the mean that accurately relative to the mean absolute value and the variance relative to the mean square; RootMeanSquareError is a number and accurate relative to itself; ZScoreNormalize leaves finite numbers for every container when its floor is positive.", "quantifier": "all containers of real numbers, lengths, roundings of a given precision, contraction choices, positive floors", "why_tests_cant": "the error of a sum depends on every element and partial sum, and cancellation only shows for particular bit patterns", "anchors": ["audio/dsp/signal_vector_util.h: Sum, ComputeSecondOrderStats, SumSquaredMagnitudes, RootMeanSquareError, ZScoreNormalize, RealDotProduct"]}
{"id": "C109", "title": "Oscillator vectors in floating point", "statement": "With every operation rounded to double, an accurate C library, and any contraction the compiler chooses: sample k of ComputePhasorVector, ComputeSineWaveVector and GenerateSine differs from exp(i k step), sin(2 pi f k / rate + phase) and amplitude sin(2 pi f k / rate + phase) by at most k + 1 times a few rounding units (relative to the amplitude), plus the error of the conversion to the type of the elements: the repeated multiplication neither decays nor grows. GenerateSineEigen has an error proportional to k in float.", "quantifier": "all frequencies up to the sample rate, phases, amplitudes, numbers of samples up to 2^40, element types, contraction choices, libraries of the stated accuracy", "why_tests_cant": "rounding errors accumulate over arbitrarily long vectors", "anchors": ["audio/dsp/signal_vector_util.h: ComputePhasorVector, ComputeSineWaveVector", "audio/dsp/signal_generator.h: GenerateSine", "audio/dsp/signal_generator.cc: GenerateSineEigen"]}
{"id": "C110", "title": "Vector smoothers in floating point", "statement": "In float, for every contraction the compiler chooses: ForwardSmoothVector, BackwardSmoothVector and SmoothVector differ from exact smoothing by at most a number of rounding units inversely proportional to the coefficient, however long the container is; the smoothed values never leave a range that contains the elements and the state (for SmoothVector: and zero); with the coefficient 1, which stands for negligible smoothing, the signal is returned unchanged.", "quantifier": "all containers, lengths, states, coefficients in (0, 1], contraction choices", "why_tests_cant": "recursive rounding errors over arbitrarily long containers; overshoot by one rounding error only shows for particular bit patterns", "anchors": ["audio/dsp/signal_vector_util.h: ForwardSmoothVector, BackwardSmoothVector, SmoothVector, SmootherCoefficientFromScale"]}
{"id": "C111", "title": "The custom chunk callback of the WAV reader sees exactly the unknown chunks of the file", "statement": "If a WavReader has a custom_chunk_fun, ReadWavHeaderGeneric calls it exactly once for every chunk in front of the data chunk that is neither the format nor the fact chunk, in the order of the file, with the id, the length and the contents of that chunk; it does not call it for anything that is not in the file; and apart from the calls, the header is read or rejected exactly as without a callback.", "quantifier": "all byte strings, truncated anywhere or not; readers with and without seek_fun; all contents of uninitialised memory and all outcomes of malloc", "why_tests_cant": "Files are cut at arbitrary places and contain arbitrary chunks; what the callback is given after a short read depends on uninitialised memory, which a test happens to find in one state.", "anchors": ["audio/dsp/portable/read_wav_file_generic.c:ReadWavHeaderGeneric", "audio/dsp/portable/read_wav_file_generic.h:WavReader::custom_chunk_fun"]}
{"id": "C112", "title": "The mel filterbank stays in bounds and is accurate in double arithmetic", "statement": "For every configuration that MelFilterbank::Initialize accepts, with all arithmetic rounded to doubles: Initialize and Compute access nothing out of bounds, the bins used are those between the limits up to the rounding of the comparisons, and every output differs from the exact sum of the magnitudes under the triangles by no more than a few rounding errors per bin.", "quantifier": "all sample rates, FFT sizes, channel counts, limits and spectra; all roundings with relative error u and logarithms with relative error v", "why_tests_cant": "Whether a bin that lies on the upper limit is assigned a channel past the last one depends on the last bit of a quotient; about two percent of the usual configurations are affected and tests use a handful.", "anchors": ["audio/dsp/mfcc/mel_filterbank.cc:MelFilterbank::Initialize", "audio/dsp/mfcc/mel_filterbank.cc:MelFilterbank::Compute", "audio/dsp/mfcc/mel_filterbank.cc:MelFilterbank::FreqToMel"]}
{"id": "C113", "title": "The arithmetic sequence has the intended number of elements in double arithmetic", "statement": "If the arguments base, step and limit of an ArithmeticSequence are each within 4 epsilon relative difference of intended values for which limit' = base' + (N-1) step' with N from 1 to INT_MAX, then the constructor, computing in doubles, produces exactly N elements and every element is within 6 epsilon of the intended one, relative to the magnitude of the sequence. For arbitrary arguments the documented inequality base + step (size-1) <= limit + tol < base + step size holds up to rounding. The constructor never aborts the program for finite arguments with a non-zero step.", "quantifier": "all real (in particular all double) arguments and all intended sequences of up to 2^31 - 1 elements, both signs of the step", "why_tests_cant": "Whether the floor of a rounded quotient is off by one depends on the last bits of three doubles; a test covers a handful of sequences such as 3.1, 0.1, 3.3, while the claim is for all arguments and all sizes up to two billion.", "anchors": ["audio/dsp/number_util.h: ArithmeticSequence", "audio/dsp/number_util.cc: ArithmeticSequence::ArithmeticSequence"]}
{"id": "C114", "title": "The C resampler's 32-bit size arithmetic never overflows and its output buffer is always large enough", "statement": "For every resampling factor, kernel radius and max_input_size that RationalFactorResamplerMake accepts, no int computation of Make, NextOutputSize or ProcessSamples overflows, the output buffer has room for the largest output of a block of max_input_size samples, and for every sequence of blocks of any sizes the results are those of computation with unbounded integers.", "quantifier": "all factors, radii, maximum input sizes, outcomes of malloc, and sequences of blocks", "why_tests_cant": "The sizes at which int arithmetic overflows are in the billions; no test allocates such inputs, and the overflow occurs already with a small block if only max_input_size is large.", "anchors": ["audio/dsp/portable/rational_factor_resampler.c: RationalFactorResamplerMake, RationalFactorResamplerNextOutputSize, RationalFactorResamplerProcessSamples"]}
{"id": "C115", "title": "Filtering in place gives the same output as filtering to another buffer", "statement": "For BiquadFilter, BiquadFilterCascade, LadderFilter, TwoTapFirFilter and FIRFilter, ProcessBlock (Filter) with the output buffer equal to the input buffer writes exactly the output and leaves exactly the state that the filter has with separate buffers, for every channel, also while the ladder filter smooths a change of coefficients; no sample outside the output buffer changes. The same holds when the output starts before the input.", "quantifier": "all coefficients, states, numbers of channels and frames, contents of the memory, and positions of the two buffers for which no input is overwritten before it is read", "why_tests_cant": "A read after an overwrite depends on the order of reads and writes for each number of channels and frames; tests run a few shapes in place.", "anchors": ["audio/linear_filters/biquad_filter-inl.h: BiquadFilter::ProcessSample, BiquadFilterCascade::ProcessBlock", "audio/linear_filters/filter_traits.h: ProcessBlock", "audio/linear_filters/ladder_filter-inl.h: LadderFilter::ProcessSample", "audio/linear_filters/two_tap_fir_filter.h: ProcessBlock", "audio/dsp/signal_vector_util.h: FIRFilter::Filter"]}
{"id": "C116", "title": "DCT in double precision", "statement": "After every successful Initialize, the coefficients returned by Compute are those of the exact DCT of the input (zero-padded or truncated to the initialised length n), up to 30 n roundings and one error of the cosine function, relative to the sum of the magnitudes of the input times the normalisation; whether or not multiplications and additions are fused; Compute never fails, and Initialize accepts the same sizes as in exact arithmetic.", "quantifier": "all sizes, inputs (of any length), previous states, roundings and cosine functions of a given accuracy, and contractions", "why_tests_cant": "the rounding errors of the table and of the sum depend on every input and on the accuracy of the C library", "anchors": ["audio/dsp/mfcc/dct.cc: Dct::Initialize, Dct::Compute"]}
{"id": "C117", "title": "MFCCs in double precision", "statement": "After Initialize, the MFCCs returned by Compute are those of the exact floored log-mel spectrum, up to the error of the filterbank relative to each of its outputs (or to the floor), the errors of the logarithm and the cosine and 30 n roundings; nothing is accessed out of bounds.", "quantifier": "all configurations, power spectra, roundings, logarithms and cosine functions of a given accuracy", "why_tests_cant": "the errors depend on every bin, and the logarithm magnifies them without bound near zero except for the floor", "anchors": ["audio/dsp/mfcc/mfcc.cc: Mfcc::Initialize, Mfcc::Compute", "audio/dsp/mfcc/mel_filterbank.cc: MelFilterbank::Compute", "audio/dsp/mfcc/dct.cc: Dct::Compute"]}
{"id": "C118", "title": "QResampler's size functions in 32-bit arithmetic", "statement": "For every resampler and every state, NextNumOutputFrames(n) is the number of frames that ProcessSamples makes from n frames and is at most MaxOutputFrames(n); NextNumInputFramesToProduce(m) is the least n with NextNumOutputFrames(n) at least m and is at most MaxInputFramesToProduce(m); none of these computations overflows int.", "quantifier": "all factors, radii, states and non-negative int arguments", "why_tests_cant": "the sizes at which 32-bit arithmetic fails are in the hundreds of millions of frames, and the relations involve every state and size", "anchors": ["audio/dsp/resampler_q.h: QResampler::NextNumOutputFrames, QResampler::NextNumInputFramesToProduce, QResamplerFilters::MaxOutputFrames, QResamplerFilters::MaxInputFramesToProduce"]}
{"id": "C119", "title": "Files are closed and memory is freed exactly once", "statement": "When Read16BitWavFile, ReadWavFile or WriteWavFile returns, it has closed the file that it opened exactly once, and it has freed everything that it allocated except for the samples that it returns, whichever of fopen, malloc, reading, writing and fclose fails. RationalFactorResamplerMake frees everything when it returns NULL, and Make followed by Free releases every block exactly once.", "quantifier": "all file contents, arguments, and outcomes of fopen, malloc, fclose and of every write", "why_tests_cant": "each failure of the operating system takes another path through the clean-up code, and tests cannot make fclose fail or a disk run full at a given byte", "anchors": ["audio/dsp/portable/read_wav_file.c: Read16BitWavFile, ReadWavFile", "audio/dsp/portable/write_wav_file.c: WriteWavFile", "audio/dsp/portable/rational_factor_resampler.c: RationalFactorResamplerMake, RationalFactorResamplerFree"]}
{"id": "C120", "title": "DynamicRangeControl may be initialised again at any time", "statement": "After any history of Init, SetDynamicRangeControlParams, blocks and Reset, a call of Init makes the object behave like one newly constructed with the parameters that were set last, at the new sample rate and block size.", "quantifier": "all parameters, histories of calls, sample rates, block sizes and later signals", "why_tests_cant": "the outcome depends on where Init falls in the history: before or after a pending parameter change has taken effect", "anchors": ["audio/dsp/hifi/dynamic_range_control.cc: DynamicRangeControl::Init, DynamicRangeControl::SetDynamicRangeControlParams, DynamicRangeControl::Reset, DynamicRangeControl::ComputeGainFromDetectedSignal"]}
{"id": "C121", "title": "The auditory filterbank's poles in double arithmetic", "statement": "Init of AuditoryCascadeFilterbank places its poles in finitely many steps for every accepted parameter set; the pole frequencies decrease strictly, and in spite of rounding frequencies, bandwidths and number of stages are those of the documented ERB scale.", "quantifier": "all accepted parameters, sampling rates and numbers of stages; with and without contraction to fused multiply-add", "why_tests_cant": "the loop condition depends on rounded subtraction; the number of iterations is unbounded", "anchors": ["audio/linear_filters/filterbanks/auditory_cascade_filterbank.cc:ComputeFilterbankCentersAndBandwidths"]}
{"id": "C122", "title": "The resampling factor of two sample rates is recovered exactly in spite of floating-point rounding", "statement": "RationalApproximation maps every double within a relative distance of 2^-52 of a fraction a/b in lowest terms to exactly (a, b), and its negative to (-a, b), when max_denominator is at least b; consequently a resampler made for two sample rates whose ratio is a/b with b <= max_denominator represents the factor exactly, as resampler_q.h promises, although the ratio of the rates is rounded to a double and every subtraction and reciprocal of the continued fraction is rounded. Integer rates m and n give (m/gcd, n/gcd). With the default max_denominator = 1000 the only further condition is that a is below 2^31 - 1. Beyond the stated range the promise fails: from 1 Hz to 2^30 Hz with max_denominator = 2^30 the factor is 0/1.", "quantifier": "every fraction a/b in lowest terms, every max_denominator up to 4*10^8 with b <= max_denominator, a*max_denominator <= 2^45 and a <= 2^31 - 2, every double near a/b, all roundings of the continued fraction to the nearest double", "why_tests_cant": "tests try a few common pairs of rates; the errors of the reciprocals grow with the square of the denominators and the floor of a value just below an integer is off by one, which happens only for particular fractions", "anchors": ["audio/dsp/portable/number_util.c: RationalApproximation, AppendContinuedFractionTerm", "audio/dsp/number_util.cc: RationalApproximation", "audio/dsp/portable/rational_factor_resampler_kernel.c: RationalFactorResamplerKernelInit", "audio/dsp/resampler_q.cc: QResamplerFilters::Init"]}
{"id": "C123", "title": "RationalApproximation in double arithmetic is as good as the best fraction", "statement": "For every double and every max_denominator from 1 to 4*10^8, RationalApproximation, computed with rounded operations, overflows no int and returns a fraction in lowest terms with 1 <= b <= max_denominator, and no fraction a'/b' with b' <= max_denominator and |a'| <= INT_MAX is closer to the value by more than 2^-45 + 2^-51 |value|. Hence the error of a resampling factor is at most 0.5/max_denominator up to that rounding error, as resampler_q.h promises, if the factor times max_denominator is an int; without that condition the promise fails: from 2^32 Hz to 1 Hz the factor is 2^31 - 1.", "quantifier": "every double, every max_denominator from 1 to 4*10^8, every competing fraction, all roundings to the nearest double", "why_tests_cant": "the rounded reciprocals drift away from the exact continued fraction; whether the terms found still belong to a value near the argument cannot be seen from examples", "anchors": ["audio/dsp/portable/number_util.c: RationalApproximation, AppendContinuedFractionTerm", "audio/dsp/number_util.cc: RationalApproximation", "audio/dsp/resampler_q.h: QResamplerParams"]}
{"id": "C124", "title": "Quadratic interpolation of a maximum keeps its guarantees in float arithmetic", "statement": "With every operation rounded to float (with or without fused multiply-adds), QuadraticInterpolateMax on a signal of up to 2^24 float samples returns a location in [0, size - 1] at most one sample from the start index, and a value not below the start sample; at the ends and next to nearly equal neighbours it returns the sample itself, and elsewhere the maximum of the parabola through the sample and its neighbours on [x0 - 1, x0 + 1], and its location, up to a stated multiple of the rounding of the largest sample and of the index. (For longer signals the documented guarantee fails: the index is rounded when it is converted to float.)", "quantifier": "all lists of floats, all indices in them, both ways of contracting each product and sum", "why_tests_cant": "Rounding makes the sign of the curvature, the quotient, its clamping and the sum with the index inexact; the guarantee has no tolerance, so it must hold for every triple of floats and every index; tests use short signals and a tolerance.", "anchors": ["audio/dsp/signal_vector_util.h: QuadraticInterpolateMax"]}
{"id": "C125", "title": "Which bins the hard band-pass filters pass, in float arithmetic", "statement": "With every operation rounded to float, HardBandpassSpectrum on up to 2^24 bins accepts the documented parameters, leaves every bin in the closed band unchanged, sets every bin outside it by more than about one rounding to zero, and every other bin to one of the two. FftHardBandpass accepts the documented band edges for up to 2^22 samples and does the same with a relative margin of 2^-22 on both sides of the edges. (A bin strictly outside the band can pass; a bin exactly on an edge, even at the Nyquist frequency, can be removed by the functions on signals; and FftHardHighpass fails for 2^24 samples or more.)", "quantifier": "all spectra, band edges, bin widths, sample rates and signal lengths in range, in place or not", "why_tests_cant": "The quotients that select the bins are rounded before ceil and floor, so that a bin at an edge may fall on either side; which combinations of size, rate and edge are affected is a number-theoretic accident no sample of tests shows.", "anchors": ["audio/dsp/kiss_fft_util.cc: HardBandpassSpectrum", "audio/dsp/kiss_fft_util.cc: FftHardBandpass", "audio/dsp/kiss_fft_util.cc: FftHardLowpass", "audio/dsp/kiss_fft_util.cc: FftHardHighpass"]}
{"id": "C126", "title": "Output size of the FFT resampler and weights of the Gaussian convolution in float arithmetic", "statement": "With every operation rounded to float, FftPeriodicResample of up to 2^24 samples gives n * out / in samples, rounded to an integer, up to a relative error of about two roundings, and exactly that many if this is an integer of at most 2^21 (for longer signals the number can be wrong, also when the rates are equal). The weights of PeriodicGaussianConvolution are nonnegative, never increase and are accurate up to k^2 roundings of the first.", "quantifier": "all numbers of samples, all pairs of sample rates, all initial weights and ratios in [0, 1], all iterations", "why_tests_cant": "The size is a rounded product with a rounded quotient, and the weights come from a recursion in which rounding errors accumulate; tests use short signals at a few rates.", "anchors": ["audio/dsp/kiss_fft_util.cc: FftPeriodicResample", "audio/dsp/kiss_fft_util.cc: PeriodicGaussianConvolution"]}
{"id": "C127", "title": "A duration in seconds becomes the intended number of samples", "statement": "For every sample rate and every number k of at most 2^21 samples, the float nearest to k / rate seconds, given as look-ahead to DynamicRangeControl or Loudness1771TwoWayCompressor or as time constant to AutoGainControlInit, results in a delay or warm-up of exactly k samples; for every duration the look-ahead is the product with the sample rate up to half a sample and one rounding.", "quantifier": "all sample rates up to 2^100, all k up to 2^21, all durations, with or without fused multiply-adds", "why_tests_cant": "The duration is rounded to float, and its product with the rate again; tests try a few durations at a few rates, and an error of one sample would appear only for unlucky pairs.", "anchors": ["audio/dsp/hifi/dynamic_range_control.cc: DynamicRangeControl::Init", "audio/dsp/loudness/loudness_1771_two_way_compressor.cc: Loudness1771TwoWayCompressor::Init", "audio/dsp/portable/auto_gain_control.c: AutoGainControlInit"]}
{"id": "C128", "title": "The compression curves in float arithmetic", "statement": "OutputLevelCompressor, OutputLevelLimiter and OutputLevelExpander, as computed in float, follow the curves documented beside them to within a few rounding errors of the levels involved. Levels below the knee pass through a compressor and a limiter unchanged bit for bit, and levels above the threshold pass through a hard-knee expander unchanged bit for bit. Rounding never makes a compressor, a limiter or a hard-knee expander raise a level, and a limiter's output never exceeds its threshold.", "quantifier": "all levels and thresholds, ratios of at least one, knee widths of zero or from 2^-20 to 2^100 dB, with or without contraction of products and sums", "why_tests_cant": "Cancellation between the level and the threshold depends on their bits; a test compares a few levels with a tolerance and does not check that the identity part is exact or that no level is raised.", "anchors": ["audio/dsp/hifi/dynamic_range_control_functions.h: SmoothReLU, OutputLevelCompressor, OutputLevelLimiter, OutputLevelExpander"]}
{"id": "C129", "title": "The two-way compression curve in float arithmetic", "statement": "OutputLevelTwoWayCompressor, as computed in float, differs from the exact two-way curve by at most L / 2^15 times the product of the ratios of the expander and the upwards compressor, where L is at least one and bounds the level, the thresholds and the knee widths in dB. With knees of width zero this is the distance from the piecewise linear curve documented with the parameters.", "quantifier": "all levels and thresholds up to L in size, all accepted ratios with a soft ratio of at least one, knee widths of zero or from 2^-20 to L, with or without contraction of products and sums", "why_tests_cant": "Four curves are applied one after the other with derived thresholds and ratios, so that rounding errors add up and are multiplied by the slopes; tests compare a few curves with a tolerance.", "anchors": ["audio/dsp/hifi/dynamic_range_control_functions.h: OutputLevelTwoWayCompressor, ComputeAdjustedRatio", "audio/dsp/hifi/dynamic_range_control_functions.cc: VerifyParams"]}
