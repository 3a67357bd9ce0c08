import Verif.Numpy
import Verif.NumpyLemmas
import Verif.Indexing
import Verif.IndexingProps
import Verif.Signal
import Verif.SignalProps
import Verif.SignalAlgebra
import Verif.SignalAlgebraProps
import Verif.SignalLawsProps
import Verif.Spectrum
import Verif.SpectrumProps
import Verif.Cube
import Verif.Spectrogram
import Verif.SpectrogramProps
import Verif.Dft
import Verif.Fft
import Verif.Convolution
import Verif.ConvolutionProps
import Verif.ConvolutionSpectrumProps
import Verif.Concatenate
import Verif.ConcatenateProps
import Verif.ConcatenateSpectrogramProps
import Verif.Merge
import Verif.MergeIndexProps
import Verif.MergeProps
import Verif.MultiInput
import Verif.MultiInputProps
import Verif.Jack
import Verif.JackProps
import Verif.RudinShapiro
import Verif.RudinShapiroProps
import Verif.EnergyDecay
import Verif.EnergyDecayProps
import Verif.Fade
import Verif.FadeProps
import Verif.Text
import Verif.Mls
import Verif.MlsProps
import Verif.TextProps
import Verif.PyRange
import Verif.Windows
import Verif.WindowsProps
import Verif.WindowsOverlapProps
import Verif.WindowsFlatnessProps
import Verif.Interpolation
import Verif.InterpolationProps
import Verif.Reverberation
import Verif.ReverberationProps
import Verif.TermSound
import Verif.TermPlain
import Verif.Term
import Verif.TermOperators
import Verif.TermExpression
import Verif.TermProps
import Verif.Filter
import Verif.FilterProps
import Verif.TermJson
import Verif.TermJsonProps
import Verif.RolloffMath
import Verif.Rolloff
import Verif.RolloffSections
import Verif.RolloffProps
import Verif.BesselProps
import Verif.Chebyshev2Props
import Verif.Weighting
import Verif.WeightingProps
import Verif.PyDict
import Verif.BandsFilter
import Verif.BandsProps
import Verif.BandsTable
import Verif.BandsTableProps
import Verif.Persistence
import Verif.PersistenceProps
import Verif.AudioFile
import Verif.AudioFileProps
import Verif.Table
import Verif.Container
import Verif.ContainerProps
import Verif.TableProps
import Verif.Fourier
import Verif.FourierProps
import Verif.Blockwise
import Verif.BlockwiseProps
import Verif.Stft
import Verif.StftProps
import Verif.SweepProps
import Verif.Sweep
import Verif.Harmonic
import Verif.HarmonicProps
import Verif.Level
import Verif.LevelProps
import Verif.SpectrogramMixedProps
import Verif.SpectrogramMixed
import Verif.WindowsScipy
import Verif.WindowsScipyProps
import Verif.WindowsDecayProps
import Verif.WindowsShapeProps
import Verif.WindowMeasures
import Verif.WindowMeasuresProps
import Verif.WavesProps
import Verif.Waves
import Verif.SpectrogramMore
import Verif.SpectrogramShiftProps
import Verif.SpectrumSliceProps
import Verif.SpectrumLevel
import Verif.SpectrumLevelProps
import Verif.ComplexParts
import Verif.ComplexPartsProps
import Verif.AxesProps
import Verif.Inverse
import Verif.InverseProps
import Verif.FilterApply
import Verif.FilterApplyProps
import Verif.Statistics
import Verif.StatisticsProps
import Verif.JackConnections
import Verif.JackConnectionsProps
import Verif.Regex
import Verif.BandsText
import Verif.BandsTextProps
import Verif.AudioRates
import Verif.AudioRatesProps
import Verif.Noise
import Verif.NoiseProps
import Verif.ConvolutionOther
import Verif.ConvolutionOtherProps
import Verif.PyExprParse
import Verif.PyExpr
import Verif.TermRepr
import Verif.PyExprLex
import Verif.TermReprText
import Verif.TermReprProps
import Verif.DataRepr
import Verif.DataReprProps
import Verif.StabilityProps
import Verif.ConvolutionLawsProps
import Verif.FourierLawsProps
import Verif.JoinProps
import Verif.PowMod
import Verif.PowModProps
import Verif.FilterLawsProps
import Verif.EvaluationLawsProps
import Verif.SpectraProps
import Verif.MlsRegister
import Verif.MlsLfsr
import Verif.MlsPeriodProps
import Verif.CrestProps
import Verif.Files
import Verif.FilesProps
import Verif.WindowsChebyshev
import Verif.WindowsChebyshevProps
import Verif.WindowsSlepian
import Verif.WindowsSlepianProps
import Verif.WindowsSlepianOptimalProps
import Verif.BesselDelayProps
import Verif.SweepHarmonicsProps
import Verif.WindowsUnimodalProps
import Verif.ChebyshevOptimalProps
import Verif.StftLawsProps
import Verif.InterpolationLawsProps
import Verif.JoinLawsProps
import Verif.SlopeProps
import Verif.JackSession
import Verif.JackSessionProps
import Verif.HarmonicLawsProps
import Verif.Describe
import Verif.DescribeProps
import Verif.HermitianProps
import Verif.OrderLimitProps
import Verif.BandsAlgebraProps
import Verif.FadeLawsProps
import Verif.JackMeasurementProps
import Verif.DeconvolutionProps
import Verif.TermDifferenceProps
import Verif.CorrelationLawsProps
import Verif.WeightingShapeProps
import Verif.SynthesisProps
import Verif.FilterLevelProps
import Verif.WeightingTable
import Verif.WeightingTableProps
import Verif.FilterWaveProps
import Verif.FilterPhase
import Verif.FilterPhaseProps
import Verif.CrossoverProps
import Verif.StepSlice
import Verif.StepSliceProps
import Verif.ConvolutionBoundsProps
import Verif.TestSignalStatisticsProps
import Verif.TermArrays
import Verif.TermArraysProps
import Verif.Rounding
import Verif.RoundingProps
import Verif.Memory
import Verif.MemorySim
import Verif.MemoryProps
import Verif.RoundedSamplesSums
import Verif.RoundedSamples
import Verif.RoundedSamplesProps
import Verif.JackThreads
import Verif.JackThreadsSpec
import Verif.JackThreadsInv
import Verif.JackThreadsProps
import Verif.DataTypes
import Verif.DataTypesProps
import Verif.DataTypesSpectrogramProps
import Verif.CachingProps
import Verif.Caching
import Verif.Numbers
import Verif.NumbersProps
import Verif.MlsMeasurementProps
import Verif.EmptyProps
import Verif.SweepRangeProps
import Verif.RolloffHighpassProps
import Verif.StftLeastSquaresProps
import Verif.LocalityProps
import Verif.MemorySpectrum
import Verif.MemorySpectrumProps
import Verif.TimeShiftProps
import Verif.UnitsFilterProps
import Verif.UnitsProps
import Verif.PiecesProps
import Verif.StatisticsPartsProps
import Verif.ReversalProps
import Verif.ComplexLawsProps
