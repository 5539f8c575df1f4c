import Verif.Props.Quat
import Verif.Props.Laue
import Verif.Props.Fz
import Verif.Props.Knn
import Verif.Props.Covmat
import Verif.Props.Factorize
import Verif.Props.Experiment
import Verif.Props.Master
import Verif.Props.Indexing
import Verif.Props.Orient
import Verif.Props.AxisAngle
import Verif.Props.Sphere
import Verif.Props.SE3
import Verif.Props.Geometry
import Verif.Props.Utils
import Verif.Props.MonteCarlo
import Verif.Props.Wigner
import Verif.Props.EllipticCurve
import Verif.Props.Binning
import Verif.Props.Groups
import Verif.Props.Cell
import Verif.Props.Reflections
import Verif.Props.Numerics
import Verif.Props.Sht
import Verif.Props.Cubo
import Verif.Props.Sampling
import Verif.Props.LocalGrid
import Verif.Props.Rfz
import Verif.Props.Blur
import Verif.Props.MutualInfo
import Verif.Props.MiBounds
import Verif.Props.MiSelf
import Verif.Props.Clahe
import Verif.Props.Nlpar
import Verif.Props.Refine
import Verif.Props.RefineBatch
import Verif.Props.RefineFails
import Verif.Props.RefineGrad
import Verif.Props.S2Zone
import Verif.Props.S2ToFz
import Verif.Props.KVecMaps
import Verif.Props.KVecCover
import Verif.Props.KVecHex
import Verif.Props.Pca
import Verif.Props.MasterIntensity
import Verif.Props.CellInit
import Verif.Props.FittingExamples
import Verif.Props.CmifExamples
import Verif.Props.Hrebsd
import Verif.Props.Tighten4
import Verif.Props.Constants
import Verif.Props.Atoms
import Verif.Props.AtomAverages
import Verif.Props.ShtFull
import Verif.Props.ShtReal
import Verif.Props.ShtCcReal
import Verif.Props.HoAccuracy
import Verif.Props.Tighten5
import Verif.Props.Color
import Verif.Props.SampleAngle
import Verif.Props.Scatter
import Verif.Props.ScatterZero
import Verif.Props.ScatterLimit
import Verif.Props.ScatterCalls
import Verif.Props.ScatterRih
import Verif.Props.ColorHue
import Verif.Props.ScatterDiverge
import Verif.Props.ScatterEi
import Verif.Props.Convert
import Verif.Props.Lfsr
import Verif.Props.McKernel
import Verif.Props.McPhysics
import Verif.Props.McSim
import Verif.Props.ScatMatrix
import Verif.Props.Clean
import Verif.Props.ReadMaster
import Verif.Props.KnnInexact
import Verif.Props.FzMetric
import Verif.Props.Downsample
import Verif.Props.CellPlace
import Verif.Props.InvF
import Verif.Props.FloatBasics
import Verif.Props.Rounded
import Verif.Props.RoundedApply
import Verif.Props.RoundedAngle
import Verif.Props.RoundedDisori
import Verif.Props.RoundedFails
import Verif.Props.ScatterOptical
import Verif.Props.ScatterWave
import Verif.Props.ScatterGrid
import Verif.Props.ScatterNodes
import Verif.Props.NlparFormula
import Verif.Props.Fourier
import Verif.Props.EcmGroup
import Verif.Props.FittingRange
import Verif.Props.SamplingSpiral
import Verif.Props.RoundedOrient
import Verif.Props.RoundedAxis
import Verif.Props.FittingMi
import Verif.Props.IndexRecover
import Verif.Props.GridSample
import Verif.Props.Rays
import Verif.Props.SphereArea
import Verif.Props.CuboVolume
import Verif.Props.HoVolume
import Verif.Props.ScatterNuclear
import Verif.Props.ScatterQuad
import Verif.Props.ScatterEiLarge
import Verif.Props.Tighten6
import Verif.Props.FzHaar
import Verif.Props.S2Area
import Verif.Props.UniformQuat
import Verif.Props.S2Solid
import Verif.Props.DirHaar
import Verif.Props.S2Share
import Verif.Props.FibUniform
import Verif.Props.FibWeak
import Verif.Props.FibSector
import Verif.Props.RoscaSector
import Verif.Props.CuRand
import Verif.Props.CuGrid
import Verif.Props.SuperFib
import Verif.Props.RoundedS2
import Verif.Props.ApplyGeometry
import Verif.Props.CovEigen
