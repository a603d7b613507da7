import Verif.Model.AIC
import Verif.Model.AICQueries
import Verif.Model.Agg
import Verif.Model.Basic
import Verif.Model.Count
import Verif.Model.DT
import Verif.Model.Dilworth
import Verif.Model.FLS
import Verif.Model.Factor
import Verif.Model.Flow
import Verif.Model.Gaussian
import Verif.Model.Gaussian2D
import Verif.Model.GetPSP
import Verif.Model.HC
import Verif.Model.HPSP
import Verif.Model.Heap
import Verif.Model.LgfPy
import Verif.Model.LifeHC
import Verif.Model.LifePMFR
import Verif.Model.LifePSP
import Verif.Model.Main
import Verif.Model.Mem
import Verif.Model.PMF
import Verif.Model.PMFR
import Verif.Model.PMFRWarm
import Verif.Model.PSP
import Verif.Model.PSPI
import Verif.Model.Race
import Verif.Model.Rounded
import Verif.Model.RoundedAIC
import Verif.Model.RoundedFunctors
import Verif.Model.RoundedPDT
import Verif.Model.RoundedPMFR
import Verif.Model.RoundedPSPI
import Verif.Model.Util
import Verif.Props.AIC
import Verif.Props.AICQueries
import Verif.Props.AggAny
import Verif.Props.AggAnyFunctorF
import Verif.Props.AggAnySF
import Verif.Props.AggExactPoints
import Verif.Props.AggShape
import Verif.Props.ChowLiu
import Verif.Props.ChowLiuF
import Verif.Props.Compare
import Verif.Props.Connected
import Verif.Props.Count
import Verif.Props.Cuts
import Verif.Props.DT
import Verif.Props.DTApprox
import Verif.Props.DTNumRounded
import Verif.Props.FLS
import Verif.Props.Factor
import Verif.Props.Gaussian
import Verif.Props.Gaussian2D
import Verif.Props.GetPSP
import Verif.Props.HC
import Verif.Props.HPSP
import Verif.Props.HPSPRoundedApprox
import Verif.Props.Independent
import Verif.Props.LgfPy
import Verif.Props.Life
import Verif.Props.LifeHC
import Verif.Props.LifePMFR
import Verif.Props.Main
import Verif.Props.PDT
import Verif.Props.PDTApprox
import Verif.Props.PDTException
import Verif.Props.PDTR
import Verif.Props.PDTRRounded
import Verif.Props.PMFRWarm
import Verif.Props.PSP
import Verif.Props.PSPI
import Verif.Props.PSPIApprox
import Verif.Props.PSPIOrder
import Verif.Props.PSPIRoundedApprox
import Verif.Props.ProjectTests
import Verif.Props.Race
import Verif.Props.Rounded
import Verif.Props.RoundedAIC
import Verif.Props.RoundedPDT
import Verif.Props.RoundedPSPI
import Verif.Props.RoundedRun
import Verif.Props.Shared
import Verif.Props.SharedNear
import Verif.Props.Spectrum
import Verif.Props.Uniform
import Verif.Props.Util
import Verif.Props.Violations
import Verif.Props.Zoom
import Verif.Spec.Approx
import Verif.Spec.ApproxSF
import Verif.Spec.Compare
import Verif.Spec.Connected
import Verif.Spec.Cuts
import Verif.Spec.FLS
import Verif.Spec.Forest
import Verif.Spec.Gaussian
import Verif.Spec.HC
import Verif.Spec.Hierarchy
import Verif.Spec.Independent
import Verif.Spec.LgfPy
import Verif.Spec.PDT
import Verif.Spec.PSP
import Verif.Spec.Queries
import Verif.Spec.Rounding
import Verif.Spec.SF
import Verif.Spec.Shared
import Verif.Spec.Spectrum
import Verif.Spec.Tree
import Verif.Spec.Uniform
import Verif.Spec.Util
import Verif.Theory.AICQueries
import Verif.Theory.AICRun
import Verif.Theory.AggApprox
import Verif.Theory.AggEnds
import Verif.Theory.AggLinks
import Verif.Theory.AggRounded
import Verif.Theory.AggShape
import Verif.Theory.AggStuck
import Verif.Theory.ApproxMerge
import Verif.Theory.ApproxMin
import Verif.Theory.ApproxSeq
import Verif.Theory.Brute
import Verif.Theory.ChowLiu
import Verif.Theory.Compare
import Verif.Theory.CompareSpectrum
import Verif.Theory.Connected
import Verif.Theory.Construct
import Verif.Theory.Contract
import Verif.Theory.Cost
import Verif.Theory.Count
import Verif.Theory.CountBound
import Verif.Theory.CountPDT
import Verif.Theory.CountStar
import Verif.Theory.Cuts
import Verif.Theory.DTApprox
import Verif.Theory.DTNum
import Verif.Theory.DTNumRounded
import Verif.Theory.DTRun
import Verif.Theory.Dilworth
import Verif.Theory.DilworthDT
import Verif.Theory.DilworthRun
import Verif.Theory.Entropy
import Verif.Theory.FLS
import Verif.Theory.FactorAgg
import Verif.Theory.FactorDelete
import Verif.Theory.FactorGram
import Verif.Theory.FactorMajor
import Verif.Theory.FactorReal
import Verif.Theory.FactorScaled
import Verif.Theory.FactorSim
import Verif.Theory.FactorSmall
import Verif.Theory.FlowContract
import Verif.Theory.FlowNet
import Verif.Theory.FlowWarm
import Verif.Theory.FormatSums
import Verif.Theory.Gauss
import Verif.Theory.Gaussian
import Verif.Theory.Gaussian2D
import Verif.Theory.GetPSP
import Verif.Theory.GetPSPOrder
import Verif.Theory.GetPSPTree
import Verif.Theory.Greedy
import Verif.Theory.HCForest
import Verif.Theory.HCMerge
import Verif.Theory.HCPartition
import Verif.Theory.HCRank
import Verif.Theory.HCSearch
import Verif.Theory.HCSim
import Verif.Theory.HLBrute
import Verif.Theory.HPSPApprox
import Verif.Theory.HPSPRounded
import Verif.Theory.HPSPRun
import Verif.Theory.HPSPTree
import Verif.Theory.Independent
import Verif.Theory.Induced
import Verif.Theory.IntegerValues
import Verif.Theory.Lambda
import Verif.Theory.LgfPy
import Verif.Theory.LifeHC
import Verif.Theory.LifePMFR
import Verif.Theory.LifePSP
import Verif.Theory.MaxFlow
import Verif.Theory.Mem
import Verif.Theory.Merge
import Verif.Theory.MinNormExists
import Verif.Theory.NearCoarser
import Verif.Theory.NearSF
import Verif.Theory.NoBetween
import Verif.Theory.PDTExtra
import Verif.Theory.PDTFinal
import Verif.Theory.PDTRApprox
import Verif.Theory.PDTRExtra
import Verif.Theory.PDTRun
import Verif.Theory.PMFNet
import Verif.Theory.PMFREq
import Verif.Theory.PMFRNet
import Verif.Theory.PMFRRun
import Verif.Theory.PMFRSlice
import Verif.Theory.PMFRWarm
import Verif.Theory.PMFRWarmRun
import Verif.Theory.PMFRun
import Verif.Theory.PMFSlice
import Verif.Theory.PSPIApprox
import Verif.Theory.PSPIRun
import Verif.Theory.PSPISplit
import Verif.Theory.Partition
import Verif.Theory.PreciseSolver
import Verif.Theory.Race
import Verif.Theory.RoundNear
import Verif.Theory.RoundedAIC
import Verif.Theory.RoundedAICSeq
import Verif.Theory.RoundedContract
import Verif.Theory.RoundedCorral
import Verif.Theory.RoundedDT
import Verif.Theory.RoundedDilworth
import Verif.Theory.RoundedEntropy
import Verif.Theory.RoundedFunctors
import Verif.Theory.RoundedGreedy
import Verif.Theory.RoundedId
import Verif.Theory.RoundedIdR
import Verif.Theory.RoundedLambda
import Verif.Theory.RoundedLast
import Verif.Theory.RoundedNet
import Verif.Theory.RoundedPDT
import Verif.Theory.RoundedPDTFinal
import Verif.Theory.RoundedPDTR
import Verif.Theory.RoundedPMFRNet
import Verif.Theory.RoundedPMFRSlice
import Verif.Theory.RoundedPSPI
import Verif.Theory.RoundedPSPIApprox
import Verif.Theory.RoundedQueue
import Verif.Theory.RoundedRound
import Verif.Theory.RoundedRun
import Verif.Theory.RoundedSlice
import Verif.Theory.RoundedSplit
import Verif.Theory.Rounding
import Verif.Theory.SFMerge
import Verif.Theory.SFSeq
import Verif.Theory.Sequence
import Verif.Theory.Shared
import Verif.Theory.SortedApprox
import Verif.Theory.Spectrum
import Verif.Theory.Ties
import Verif.Theory.Transform
import Verif.Theory.Tree
import Verif.Theory.TreeApprox
import Verif.Theory.TreeRounded
import Verif.Theory.Uniform
import Verif.Theory.Unique
import Verif.Theory.Util
import Verif.Theory.Wolfe
import Verif.Theory.WolfeAgg
import Verif.Theory.WolfeMajor
import Verif.Theory.WolfeMinor
import Verif.Theory.WolfeSafe
import Verif.Theory.WolfeStuck
import Verif.Theory.WolfeTrace
