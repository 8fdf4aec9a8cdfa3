import Verif.Lemmas.Base
import Verif.Lemmas.Binary
import Verif.Lemmas.BinaryBounds
import Verif.Lemmas.BinaryMono
import Verif.Lemmas.BinaryRounded
import Verif.Lemmas.BinaryUnits
import Verif.Lemmas.Biquad
import Verif.Lemmas.Butterfly
import Verif.Lemmas.CordicTable
import Verif.Lemmas.DFT
import Verif.Lemmas.Delay
import Verif.Lemmas.Deque
import Verif.Lemmas.Digits
import Verif.Lemmas.Endless
import Verif.Lemmas.Estimators
import Verif.Lemmas.FFT
import Verif.Lemmas.FFTInd
import Verif.Lemmas.Ieee
import Verif.Lemmas.IeeeRound
import Verif.Lemmas.IntRound
import Verif.Lemmas.Interpolate
import Verif.Lemmas.LMSRounded
import Verif.Lemmas.Loops
import Verif.Lemmas.MedianBounds
import Verif.Lemmas.MovExt
import Verif.Lemmas.NearFFT
import Verif.Lemmas.Piecewise
import Verif.Lemmas.PolyBound
import Verif.Lemmas.PolyDeriv
import Verif.Lemmas.Quick
import Verif.Lemmas.QuickDepth
import Verif.Lemmas.QuickMap
import Verif.Lemmas.RangeFFT
import Verif.Lemmas.Recursion
import Verif.Lemmas.Rel
import Verif.Lemmas.RelSize
import Verif.Lemmas.Rotation
import Verif.Lemmas.RoundedSum
import Verif.Lemmas.SMA
import Verif.Lemmas.SWA
import Verif.Lemmas.Shift
import Verif.Lemmas.SquareWave
import Verif.Lemmas.Stack
import Verif.Lemmas.UnitCircle
import Verif.Lemmas.Wav
import Verif.Lemmas.WavFile
import Verif.Lemmas.WavSamples
import Verif.Lemmas.Window
import Verif.Model.AtanIeee
import Verif.Model.AtanRounded
import Verif.Model.Base
import Verif.Model.Binary
import Verif.Model.BinaryOrder
import Verif.Model.BinarySqrt
import Verif.Model.BipBuffer
import Verif.Model.Calculus
import Verif.Model.CascadeCutoff
import Verif.Model.CoeffsRounded
import Verif.Model.Complex
import Verif.Model.Cordic
import Verif.Model.Delay
import Verif.Model.Demod
import Verif.Model.DemodIeee
import Verif.Model.DemodRounded
import Verif.Model.Deque
import Verif.Model.Elementary
import Verif.Model.ElementaryRounded
import Verif.Model.Endless
import Verif.Model.Estimators
import Verif.Model.ExpIeee
import Verif.Model.FFT
import Verif.Model.FFTBinary
import Verif.Model.FFTIeee
import Verif.Model.Filters
import Verif.Model.FirRounded
import Verif.Model.HalfComplexRounded
import Verif.Model.Hilbert
import Verif.Model.HilbertIeee
import Verif.Model.HilbertRounded
import Verif.Model.Ieee
import Verif.Model.Kahan
import Verif.Model.LMS
import Verif.Model.LMSRounded
import Verif.Model.MovExt
import Verif.Model.PhasorIeee
import Verif.Model.PhasorRounded
import Verif.Model.Pnm
import Verif.Model.Quick
import Verif.Model.QuickWork
import Verif.Model.Regression
import Verif.Model.Resampler
import Verif.Model.ResamplerClock
import Verif.Model.ResamplerIeee
import Verif.Model.ResamplerRounded
import Verif.Model.SMA
import Verif.Model.SWA
import Verif.Model.SamplesIeee
import Verif.Model.Spline
import Verif.Model.SplineIeee
import Verif.Model.SplineRounded
import Verif.Model.Stack
import Verif.Model.Stream
import Verif.Model.Trigger
import Verif.Model.UnitCircle
import Verif.Model.UnitCircleIeee
import Verif.Model.Utils
import Verif.Model.UtilsIeee
import Verif.Model.Wav
import Verif.Model.Window
import Verif.Model.WindowIeee
import Verif.Model.WindowRounded
import Verif.Props.AMD
import Verif.Props.AMDBridge
import Verif.Props.AMDError
import Verif.Props.Atan
import Verif.Props.AtanError
import Verif.Props.AtanSpecial
import Verif.Props.Biquad
import Verif.Props.BlockDC
import Verif.Props.Bridge
import Verif.Props.Butterworth
import Verif.Props.CDC
import Verif.Props.CDCError
import Verif.Props.CDCSpecial
import Verif.Props.CLMSError
import Verif.Props.Calculus
import Verif.Props.CalculusError
import Verif.Props.CascadeCutoff
import Verif.Props.CoeffsError
import Verif.Props.Complex
import Verif.Props.ComplexRounding
import Verif.Props.Constants
import Verif.Props.Containers
import Verif.Props.Convolution
import Verif.Props.Cordic
import Verif.Props.CordicChar
import Verif.Props.Decibel
import Verif.Props.DecibelError
import Verif.Props.DecibelInverse
import Verif.Props.DecibelSpecial
import Verif.Props.DemodSpecial
import Verif.Props.DesignBinary
import Verif.Props.DesignError
import Verif.Props.EMA
import Verif.Props.EMACascade
import Verif.Props.EstimatorError
import Verif.Props.Estimators
import Verif.Props.Exact
import Verif.Props.ExactComplex
import Verif.Props.Exp
import Verif.Props.ExpError
import Verif.Props.ExpSpecial
import Verif.Props.FDZP
import Verif.Props.FDZPError
import Verif.Props.FDZPSizes
import Verif.Props.FFT
import Verif.Props.FFTBinary
import Verif.Props.FFTEnergy
import Verif.Props.FFTError
import Verif.Props.FFTSpecial
import Verif.Props.FMD
import Verif.Props.FMDBridge
import Verif.Props.FMDError
import Verif.Props.FMDSpecial
import Verif.Props.FastConvolution
import Verif.Props.FilterError
import Verif.Props.Fir
import Verif.Props.FirError
import Verif.Props.FirSineError
import Verif.Props.Fresh
import Verif.Props.GaussError
import Verif.Props.HalfComplex
import Verif.Props.HalfComplexError
import Verif.Props.HalfComplexSpecial
import Verif.Props.HermiteSpline
import Verif.Props.HermiteSplineApprox
import Verif.Props.HermiteSplineError
import Verif.Props.Hilbert
import Verif.Props.HilbertError
import Verif.Props.HilbertResponse
import Verif.Props.HilbertSpecial
import Verif.Props.Kahan
import Verif.Props.KahanError
import Verif.Props.Kaiser
import Verif.Props.KaiserError
import Verif.Props.KaiserSpecial
import Verif.Props.KaiserWindow
import Verif.Props.LMS
import Verif.Props.LMSError
import Verif.Props.LMSNonfinite
import Verif.Props.Memory
import Verif.Props.Modulation
import Verif.Props.MovExt
import Verif.Props.NaturalSpline
import Verif.Props.NaturalSplineApprox
import Verif.Props.NaturalSplineError
import Verif.Props.NaturalSplineSmooth
import Verif.Props.NaturalSplineStable
import Verif.Props.Nonfinite
import Verif.Props.NormalizeError
import Verif.Props.NormalizeIQ
import Verif.Props.Phasor
import Verif.Props.PhasorError
import Verif.Props.PhasorSpecial
import Verif.Props.PixelsAccuracy
import Verif.Props.PixelsSpecial
import Verif.Props.Pnm
import Verif.Props.PnmPixels
import Verif.Props.Polar
import Verif.Props.Quick
import Verif.Props.QuickDepth
import Verif.Props.QuickSpecial
import Verif.Props.Range
import Verif.Props.Regression
import Verif.Props.RegressionCrossing
import Verif.Props.RegressionError
import Verif.Props.RegressionSpecial
import Verif.Props.Resampler
import Verif.Props.Resampler2
import Verif.Props.ResamplerBlockError
import Verif.Props.ResamplerBlockSpecial
import Verif.Props.ResamplerClock
import Verif.Props.ResamplerDesign
import Verif.Props.ResamplerError
import Verif.Props.ResamplerKernel
import Verif.Props.ResamplerOldest
import Verif.Props.ResamplerSpecial
import Verif.Props.Responses
import Verif.Props.SMA
import Verif.Props.SMADrift
import Verif.Props.SMAError
import Verif.Props.SWA
import Verif.Props.SamplesSpecial
import Verif.Props.Silence
import Verif.Props.SplineSpecial
import Verif.Props.Trigger
import Verif.Props.UnitCircle
import Verif.Props.UnitCircleError
import Verif.Props.UnitCircleRelative
import Verif.Props.UnitCircleSpecial
import Verif.Props.UnitCircleSymmetry
import Verif.Props.Utils
import Verif.Props.UtilsSpecial
import Verif.Props.Wav
import Verif.Props.WavBinary
import Verif.Props.WavHeader
import Verif.Props.WavSamples
import Verif.Props.Window
import Verif.Props.WindowError
import Verif.Props.WindowSpecial
import Verif.Spec.Angle
import Verif.Spec.Bessel
import Verif.Spec.Circle
import Verif.Spec.Circular
import Verif.Spec.Containers
import Verif.Spec.Convolution
import Verif.Spec.Cookbook
import Verif.Spec.DFT
import Verif.Spec.Fir
import Verif.Spec.KaiserWindow
import Verif.Spec.Kernel
import Verif.Spec.Memory
import Verif.Spec.Order
import Verif.Spec.Pnm
import Verif.Spec.Prototype
import Verif.Spec.Recursive
import Verif.Spec.Resample
import Verif.Spec.Robust
import Verif.Spec.Rounding
import Verif.Spec.Sinusoid
import Verif.Spec.Spline
import Verif.Spec.Srgb
import Verif.Spec.Taper
import Verif.Spec.Wav
import Verif.Spec.Window
