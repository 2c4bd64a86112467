import Verif.Model.Base
import Verif.Model.Split
import Verif.Lemmas.Split
import Verif.Props.Split
import Verif.Props.Bins
import Verif.Props.Ticks
import Verif.Model.Collection
import Verif.Lemmas.Dict
import Verif.Lemmas.Collection
import Verif.Props.Collection
import Verif.Lemmas.Group
import Verif.Props.Group
import Verif.Model.Units
import Verif.Props.Units
import Verif.Props.Validate
import Verif.Props.Json
import Verif.Props.Objects
import Verif.Props.JsonFile
import Verif.Props.Dos
import Verif.Props.Sqw
import Verif.Props.Scatter
import Verif.Props.Reorder
import Verif.Lemmas.Rint
import Verif.Props.Lattice
import Verif.Props.Origins
import Verif.Props.Path
import Verif.Props.Supercell
import Verif.Props.ConvertFc
import Verif.Props.Phases
import Verif.Props.Images
import Verif.Props.DynMat
import Verif.Props.Loto
import Verif.Props.Dipole
import Verif.Props.Driver
import Verif.Props.Options
import Verif.Props.Reduce
import Verif.Props.Asr
import Verif.Props.CUtil
import Verif.Props.CDynMat
import Verif.Props.CDipole
import Verif.Props.CMatrix
import Verif.Props.Omp
import Verif.Model.CastepBin
import Verif.Props.CastepBin
import Verif.Props.CastepFile
import Verif.Props.CastepCell
import Verif.Props.CastepWrite
import Verif.Model.CastepPhonon
import Verif.Props.CastepPhonon
import Verif.Lemmas.ListIdx
import Verif.Model.Phonopy
import Verif.Props.Phonopy
import Verif.Model.Sampling
import Verif.Props.Sampling
import Verif.Model.Kinematics
import Verif.Props.Kinematics
import Verif.Model.Broaden
import Verif.Model.BroadenMap
import Verif.Model.PhonopyModes
import Verif.Model.Plot
import Verif.Props.Broaden
import Verif.Props.BroadenVar
import Verif.Props.BroadenFn
import Verif.Props.BroadenMap
import Verif.Props.PhonopyModes
import Verif.Props.Plot
import Verif.Model.Cli
import Verif.Props.Cli
import Verif.Props.CliPdos
import Verif.Model.Powder
import Verif.Props.Powder
import Verif.Props.Handed
import Verif.Model.TotalFc
import Verif.Props.TotalFc
import Verif.Model.Symmetry
import Verif.Props.Symmetry
import Verif.Model.Heap
import Verif.Props.Heap
import Verif.Model.CastepText
import Verif.Model.CastepDos
import Verif.Props.CastepText
import Verif.Props.CastepDos
import Verif.Model.RefData
import Verif.Props.RefData
import Verif.Model.DosCli
import Verif.Props.DosCli
import Verif.Lemmas.CExt
import Verif.Lemmas.Dos
import Verif.Model.Asr
import Verif.Model.Bins
import Verif.Model.Brille
import Verif.Model.CExt
import Verif.Model.Dict
import Verif.Model.Dipole
import Verif.Model.Dos
import Verif.Model.Driver
import Verif.Model.DynMat
import Verif.Model.Images
import Verif.Model.Lattice
import Verif.Model.Objects
import Verif.Model.Omp
import Verif.Model.Phases
import Verif.Model.Reorder
import Verif.Model.Rint
import Verif.Model.Scatter
import Verif.Model.Supercell
import Verif.Model.Ticks
import Verif.Model.Validate
import Verif.Props.Brille
import Verif.Model.DispCli
import Verif.Props.DispCli
import Verif.Model.IntensityCli
import Verif.Props.IntensityCli
import Verif.Model.PowderCli
import Verif.Props.PowderCli
import Verif.Model.Tools
import Verif.Props.Tools
import Verif.Model.Labels
import Verif.Model.TextFile
import Verif.Props.Labels
import Verif.Props.TextFile
import Verif.Model.Strided
import Verif.Props.Strided
import Verif.Model.CAddr
import Verif.Props.CAddr
import Verif.Model.CLoop
import Verif.Model.CRefs
import Verif.Props.CLoop
import Verif.Props.CRefs
import Verif.Props.Reduced
import Verif.Model.CWork
import Verif.Props.CBackend
import Verif.Props.CWork
import Verif.Lemmas.Eigen
import Verif.Model.Style
import Verif.Props.Gradient
import Verif.Props.Style
import Verif.Props.GradientGroup
import Verif.Props.GradientDipole
import Verif.Props.CBackendGrad
import Verif.Model.Args
import Verif.Props.Args
import Verif.Props.ArgsRound
import Verif.Props.ArgsTools
import Verif.Props.Acoustic
import Verif.Props.Commensurate
import Verif.Props.Describe
import Verif.Props.DescribeLost
import Verif.Props.DescribeScatter
import Verif.Props.Stability
import Verif.Props.SumRule
import Verif.Props.Temperature
import Verif.Props.DescribeDipole
import Verif.Model.DebyeSym
import Verif.Props.DebyeGrid
import Verif.Props.DosGrid
import Verif.Props.Folding
import Verif.Props.ArgsMeaning
import Verif.Model.PowderSample
import Verif.Props.PowderSample
import Verif.Lemmas.ConvertMap
import Verif.Model.PhonopyFc
import Verif.Props.PhonopyFc
import Verif.Lemmas.KernelSum
import Verif.Props.KernelArea
import Verif.Props.Degenerate
import Verif.Lemmas.EigenOrder
import Verif.Props.Response
import Verif.Props.Springs
import Verif.Props.Opposite
import Verif.Model.GradWarn
import Verif.Props.GradWarn
import Verif.Model.ReorderPath
import Verif.Props.Corners
import Verif.Props.ReorderPath
import Verif.Props.ReorderTwice
import Verif.Props.DipoleScale
import Verif.Props.SphereConverge
import Verif.Props.SphereGolden
import Verif.Props.SphereImproved
import Verif.Props.SphereMean
import Verif.Props.BroadenDos
import Verif.Props.BroadenOk
import Verif.Props.DipoleCut
import Verif.Props.MpMean
import Verif.Props.MpPhonons
import Verif.Lemmas.Ewald
import Verif.Lemmas.EwaldForm
import Verif.Lemmas.Poisson
import Verif.Lemmas.PoissonDiff
import Verif.Props.DipoleEwald
import Verif.Props.DescribeEwald
import Verif.Props.SplittingLimit
import Verif.Props.FoldEwald
import Verif.Model.BandPath
import Verif.Model.DwCli
import Verif.Props.BandPath
import Verif.Props.DwCli
import Verif.Props.PolarGrid
import Verif.Props.PhonopyExact
import Verif.Props.TotalExact
import Verif.Props.PhonopyPolar
import Verif.Props.SiteSymmetry
import Verif.Props.CastepExact
import Verif.Model.Returned
import Verif.Props.Returned
import Verif.Props.AcousticSlope
import Verif.Props.SplittingRaise
import Verif.Props.EquivalentVectors
import Verif.Props.PolarScatter
import Verif.Props.PolarFold
import Verif.Props.SumRuleKept
import Verif.Props.GradientSymmetry
import Verif.Props.GradientCorrected
import Verif.Props.GradientPolar
import Verif.Props.GradientCells
