import Verif.Theorems.CircularBuffer
import Verif.Theorems.FixedDelayLine
import Verif.Theorems.Biquad
import Verif.Theorems.Fir
import Verif.Theorems.BiquadCascade
import Verif.Theorems.Ladder
import Verif.Theorems.LadderResponse
import Verif.Theorems.Serialize
import Verif.Theorems.NumberUtil
import Verif.Theorems.Combinations
import Verif.Theorems.CrossProduct
import Verif.Theorems.ArithmeticSequence
import Verif.Theorems.RationalApproximation
import Verif.Theorems.BatchTopN
import Verif.Theorems.Wav
import Verif.Theorems.Resampler
import Verif.Theorems.Spectrogram
import Verif.Theorems.SpectralProcessor
import Verif.Theorems.NelderMead
import Verif.Theorems.FilterDesign
import Verif.Theorems.Allpass
import Verif.Theorems.PoleZero
import Verif.Theorems.Butterworth
import Verif.Theorems.Crossover
import Verif.Theorems.DrcCurves
import Verif.Theorems.Envelope
import Verif.Theorems.Drc
import Verif.Theorems.PortableComplex
import Verif.Theorems.Phasor
import Verif.Theorems.Agc
import Verif.Theorems.FastFun
import Verif.Theorems.Windows
import Verif.Theorems.WindowFourier
import Verif.Theorems.Dct
import Verif.Theorems.Mfcc
import Verif.Theorems.VectorStats
import Verif.Theorems.QuadraticInterpolate
import Verif.Theorems.Smoothers
import Verif.Theorems.VectorFir
import Verif.Theorems.Sinusoids
import Verif.Theorems.ThreeTapSmoother
import Verif.Theorems.Fft
import Verif.Theorems.FftUtil
import Verif.Theorems.FftResample
import Verif.Theorems.FftGaussian
import Verif.Theorems.BackgroundLevel
import Verif.Theorems.MultiCrossover
import Verif.Theorems.MultibandCompressor
import Verif.Theorems.BiquadAnalysis
import Verif.Theorems.Decibels
import Verif.Theorems.PerceptualFilter
import Verif.Theorems.Loudness
import Verif.Theorems.LoudnessCompressor
import Verif.Theorems.AuditoryFilterbank
import Verif.Theorems.ParametricEqualizer
import Verif.Theorems.IirDesign
import Verif.Theorems.IirDesignFilters
import Verif.Theorems.PortableButterworth
import Verif.Theorems.Elliptic
import Verif.Theorems.Bessel
import Verif.Theorems.RationalFactorResampler
import Verif.Theorems.WavString
import Verif.Theorems.ChebyshevDesign
import Verif.Theorems.SpectralProperties
import Verif.Theorems.EllipticDesign
import Verif.Theorems.IirDesignBand
import Verif.Theorems.IirElliptic
import Verif.Theorems.FloatPhasor
import Verif.Theorems.FloatBiquad
import Verif.Theorems.BitExact
import Verif.Theorems.FloatResampler
import Verif.Theorems.FloatFir
import Verif.Theorems.FloatAgc
import Verif.Theorems.FloatEnvelope
import Verif.Theorems.WindowQuadrature
import Verif.Theorems.Riff
import Verif.Theorems.LadderBounded
import Verif.Theorems.FloatLadder
import Verif.Theorems.FloatLadderHistory
import Verif.Theorems.FloatVector
import Verif.Theorems.FloatSinusoids
import Verif.Theorems.FloatSmoothers
import Verif.Theorems.WavCallback
import Verif.Theorems.FloatMel
import Verif.Theorems.FloatArithmeticSequence
import Verif.Theorems.IntResampler
import Verif.Theorems.InPlace
import Verif.Theorems.FloatMfcc
import Verif.Theorems.IntQResampler
import Verif.Theorems.Resources
import Verif.Theorems.DrcReinit
import Verif.Theorems.FloatAuditory
import Verif.Theorems.FloatRational
import Verif.Theorems.FloatRationalBest
import Verif.Theorems.FloatQuadratic
import Verif.Theorems.FloatFftUtil
import Verif.Theorems.FloatFftResample
import Verif.Theorems.FloatDurations
import Verif.Theorems.FloatDrcCurves
import Verif.Theorems.FloatTwoWay
