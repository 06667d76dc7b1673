import Verif.Common.Err
import Verif.Spectra.Model
import Verif.Spectra.Lemmas
import Verif.Spectra.Props
import Verif.Spectra.Props2
import Verif.Grf.Iternorm
import Verif.Grf.IternormLemmas
import Verif.Grf.IternormProps
import Verif.Grf.Cls2cov
import Verif.Grf.Generate
import Verif.Grf.GenerateProps
import Verif.Grf.Transformations
import Verif.Grf.TransformationsProps
import Verif.Grf.GaussMoments
import Verif.Grf.FieldMomentsProps
import Verif.Grf.Solver
import Verif.Grf.SolverProps
import Verif.Numerics.Model
import Verif.Numerics.Lemmas
import Verif.Numerics.Spec
import Verif.Numerics.IntegralProps
import Verif.Shells.Model
import Verif.Shells.WindowLemmas
import Verif.Shells.WindowProps
import Verif.Shells.RestrictProps
import Verif.Shells.ShellProps
import Verif.Points.Model
import Verif.Points.SampleLemmas
import Verif.Points.SampleProps
import Verif.Points.SphereProps
import Verif.Lensing.Model
import Verif.Lensing.PlaneProps
import Verif.Lensing.MatrixProps
import Verif.Lensing.ConvergenceProps
import Verif.Common.NdArray
import Verif.Algorithm.Model
import Verif.Algorithm.NnlsProps
import Verif.Algorithm.ClipLemmas
import Verif.Algorithm.ClipProps
import Verif.Algorithm.NearcorrProps
import Verif.Common.NdLemmas
import Verif.Arrays.Model
import Verif.Arrays.BroadcastProps
import Verif.Galaxies.Model
import Verif.Galaxies.RedshiftProps
import Verif.Galaxies.NzProps
import Verif.Galaxies.BinsProps
import Verif.Galaxies.ShearProps
import Verif.Arrays.FitLemmas
import Verif.Galaxies.PhzProps
import Verif.Shapes.Model
import Verif.Shapes.TriaxialProps
import Verif.Shapes.GaussianProps
import Verif.Shapes.RydenProps
import Verif.Shapes.ResampleProps
import Verif.Observations.Model
import Verif.Observations.ZbinsProps
import Verif.Observations.TomoProps
import Verif.Observations.NzLemmas
import Verif.Observations.NzProps
import Verif.Observations.VmapProps
import Verif.User.Model
import Verif.User.Props
import Verif.Rng.Model
import Verif.Rng.KeyProps
import Verif.Rng.ShapeProps
import Verif.Algorithm.NnlsGram
import Verif.Shells.Partition
import Verif.Shells.PartitionLemmas
import Verif.Shells.PartitionProps
import Verif.Shells.RecoverProps
import Verif.Shells.RecoverWindows
import Verif.Shells.PartitionNnlsProps
import Verif.Shells.PartitionNnlsStuck
import Verif.Shells.DispatchProps
import Verif.Grf.Gaussian
import Verif.Grf.GaussianProps
import Verif.Spectra.Regularise
import Verif.Spectra.RegulariseProps
import Verif.Compat.Fallback
import Verif.Compat.FallbackProps
import Verif.Shells.Weights
import Verif.Shells.WeightsProps
import Verif.Grf.MapStatistics
import Verif.Grf.RequestedStatistics
import Verif.Grf.Wrappers
import Verif.Grf.WrappersProps
import Verif.Points.Populations
import Verif.Points.PopulationsProps
import Verif.Rng.Wrapper
import Verif.Rng.WrapperProps
import Verif.Sampling.Rejection
import Verif.Sampling.Ideal
import Verif.Sampling.Disc
import Verif.Sampling.Combine
import Verif.Shapes.SamplingProps
import Verif.Sampling.Sources
import Verif.Shapes.RydenLaw
import Verif.Shapes.IntnormLaw
import Verif.Galaxies.PhzLaw
import Verif.Algorithm.NnlsTermination
import Verif.Grf.SolverTermination
import Verif.Algorithm.Nearest
import Verif.Points.CountLaw
import Verif.Points.UniformLaw
import Verif.Galaxies.NzLaw
import Verif.Points.Clustering
import Verif.Lensing.Statistics
import Verif.Shells.ZeffProps
import Verif.Lensing.PlaneErrors
import Verif.Grf.Singular
import Verif.Grf.NcorrProps
import Verif.Arrays.Reduce
import Verif.Lensing.WeightAxes
import Verif.Points.WeightAxes
import Verif.Shells.SpacingProps
import Verif.Shells.DistributeLaw
import Verif.Shells.CombineAxes
import Verif.Galaxies.ShearVec
import Verif.Arrays.InterpAxis
import Verif.Shells.ErrorKinds
import Verif.Points.DeflectDirection
import Verif.Arrays.Elementwise
import Verif.Points.DisplaceArrays
import Verif.Spectra.FloatLabels
import Verif.Arrays.TrapezoidAxis
import Verif.Compat.Additions
import Verif.Lensing.ShearStatistics
import Verif.Grf.Prefix
import Verif.Shells.FloatGrid
import Verif.Grf.FloatIternorm
import Verif.Galaxies.ShearMean
import Verif.Galaxies.ShapeVariance
import Verif.Lensing.GalaxyLensing
import Verif.Galaxies.PhzTomo
import Verif.Galaxies.ShellSampling
import Verif.Galaxies.FloatSampling
import Verif.Shells.Requirements
import Verif.Lensing.LineOfSight
import Verif.Grf.Local
import Verif.Points.Monopole
import Verif.Lensing.ShearEndToEnd
import Verif.Galaxies.ShapeNoise
import Verif.Lensing.ShearCorrelation
import Verif.Galaxies.ShearCorrelation
import Verif.Shapes.FloatTriaxial
import Verif.Numerics.Finite
import Verif.Shapes.FloatIntnorm
import Verif.Shells.FloatDistribute
import Verif.Numerics.Gradual
import Verif.Observations.FloatNz
import Verif.Lensing.FloatPlanes
import Verif.Lensing.ModeFactors
import Verif.Points.FloatSphere
import Verif.Points.FloatDisplacement
import Verif.Galaxies.FloatShear
import Verif.Shells.FloatAverages
import Verif.Shells.FloatWindows
import Verif.Lensing.PlaneTypes
import Verif.Shells.FloatProducts
import Verif.Observations.FloatBins
import Verif.Spectra.FloatEffective
import Verif.Observations.FloatTomo
import Verif.Grf.FloatCorr
import Verif.Grf.FloatFields
import Verif.Points.FloatBias
import Verif.Grf.FloatHilbert
import Verif.Shapes.FloatGaussian
import Verif.Spectra.FloatDiscretized
import Verif.Shells.FloatAlignment
import Verif.Shells.FloatWeights
import Verif.Spectra.FloatMultalm
import Verif.Grf.FloatCov
import Verif.Galaxies.FloatPhz
