import Verif.Prelude
import Verif.Model.SplitBase
import Verif.Model.KFold
import Verif.Spec.KFold
import Verif.Lemmas.Np
import Verif.Lemmas.KFold
import Verif.Lemmas.KFoldRun
import Verif.Lemmas.KFoldFinish
import Verif.Lemmas.KFoldMore
import Verif.Props.KFold
import Verif.Props.KFoldMore
import Verif.Model.WalkForward
import Verif.Spec.WalkForward
import Verif.Spec.WalkForwardHistory
import Verif.Lemmas.WalkForward
import Verif.Props.WalkForward
import Verif.Props.WalkForwardHistory
import Verif.Model.NdArray
import Verif.Model.SimCore
import Verif.Model.SimFit
import Verif.Spec.Sim
import Verif.Lemmas.Sim
import Verif.Lemmas.SimStats
import Verif.Props.SimPaths
import Verif.Spec.SimFit
import Verif.Lemmas.SimFit
import Verif.Props.SimFit
import Verif.Props.SimOUFit
import Verif.Props.SimNll
import Verif.Model.SimCor
import Verif.Props.SimCor
import Verif.Model.Timeseries
import Verif.Lemmas.Timeseries
import Verif.Props.Timeseries
import Verif.Model.SimBase
import Verif.Spec.SimBase
import Verif.Props.SimNames
import Verif.Props.SimFormat
import Verif.Props.SimHistory
import Verif.Model.QuasiRandom
import Verif.Props.QuasiRandom
import Verif.Model.Cov
import Verif.Spec.Cov
import Verif.Lemmas.Cov
import Verif.Props.Cov
import Verif.Props.CovDenoise
import Verif.Props.CovSpecs
import Verif.Props.CovBlock
import Verif.Props.CovMP
import Verif.Model.XF
import Verif.Model.CorrDist
import Verif.Props.CorrDist
import Verif.Props.CorrMetric
import Verif.Model.Info
import Verif.Lemmas.Entropy
import Verif.Lemmas.Info
import Verif.Props.Info
import Verif.Props.InfoKL
import Verif.Props.InfoBins
import Verif.Props.InfoMatrix
import Verif.Model.MatDiv
import Verif.Props.MatDiv
import Verif.Props.IndCausal
import Verif.Props.IndRolling
import Verif.Props.IndEwm
import Verif.Props.IndRsi
import Verif.Props.IndBands
import Verif.Props.IndDispatch
import Verif.Model.Micro
import Verif.Props.MicroVol
import Verif.Props.MicroSpread
import Verif.Props.MicroTrade
import Verif.Props.MicroRoll
import Verif.Props.MicroEdge
import Verif.Props.MicroCausal
import Verif.Model.Cusum
import Verif.Props.Cusum
import Verif.Model.Clustering
import Verif.Lemmas.Clustering
import Verif.Props.ClustGap
import Verif.Props.ClustSelect
import Verif.Props.ClustSilh
import Verif.Props.ClustHC
import Verif.Model.CutTree
import Verif.Model.Linkage
import Verif.Lemmas.CutTree
import Verif.Lemmas.Linkage
import Verif.Props.ClustCut
import Verif.Props.ClustLinkage
import Verif.Props.ClustUse
import Verif.Props.ClustEuclid
import Verif.Model.Util
import Verif.Props.UtilLog
import Verif.Props.UtilValidate
import Verif.Props.UtilData
import Verif.Model.SimLik
import Verif.Spec.SimLik
import Verif.Lemmas.SimLik
import Verif.Props.SimLik
import Verif.Props.SimLikMore
import Verif.Props.SimLikSample
import Verif.Lemmas.SimML
import Verif.Props.SimML
import Verif.Props.SimMLOU
import Verif.Spec.SimLaw
import Verif.Lemmas.SimLaw
import Verif.Lemmas.LogNormal
import Verif.Lemmas.BrownianGrid
import Verif.Model.SimInit
import Verif.Props.SimLaw
import Verif.Props.SimLawGBM
import Verif.Props.SimLawOU
import Verif.Lemmas.Shocks
import Verif.Spec.FitLaw
import Verif.Lemmas.FitLaw
import Verif.Lemmas.CholExists
import Verif.Props.SimLawFit
import Verif.Lemmas.AR1
import Verif.Lemmas.ShockLags
import Verif.Lemmas.OUFitLaw
import Verif.Props.SimLawOUFit
import Verif.Spec.CusumLaw
import Verif.Lemmas.GaussTail
import Verif.Props.CusumLaw
import Verif.Spec.LongSample
import Verif.Lemmas.BlockLLN
import Verif.Spec.RollModel
import Verif.Props.MicroRollLaw
import Verif.Spec.BarModel
import Verif.Props.MicroVolLaw
import Verif.Props.MicroSpreadLaw
import Verif.Spec.TradeModel
import Verif.Props.MicroTradeLaw
import Verif.Lemmas.PolyNull
import Verif.Spec.CovLaw
import Verif.Props.CovLaw
import Verif.Props.SimFitSure
import Verif.Spec.ChiSquare
import Verif.Lemmas.Helmert
import Verif.Props.SimFitExact
import Verif.Model.SimX
import Verif.Lemmas.SimX
import Verif.Lemmas.SimXPath
import Verif.Props.SimX
import Verif.Props.SimXFit
import Verif.Model.SimLikX
import Verif.Lemmas.SimXLik
import Verif.Props.SimXLik
import Verif.Props.SimXLikOU
import Verif.Props.SimXFitOU
import Verif.Model.Labelled
import Verif.Spec.Labelled
import Verif.Lemmas.Labelled
import Verif.Props.LabelSeries
import Verif.Props.LabelRange
import Verif.Props.LabelAlign
import Verif.Props.LabelFrame
import Verif.Props.LabelGaps
import Verif.Spec.InfoLaw
import Verif.Lemmas.InfoLaw
import Verif.Props.InfoLaw
import Verif.Props.InfoLawEx
import Verif.Props.InfoHeavy
import Verif.Props.CovMPMoments
import Verif.Model.CovX
import Verif.Spec.CovX
import Verif.Props.CovX
import Verif.Props.CovXDen
import Verif.Model.Round
import Verif.Spec.Round
import Verif.Lemmas.Round
import Verif.Model.RoundFun
import Verif.Props.RoundDist
import Verif.Props.RoundCov
import Verif.Model.RoundSum
import Verif.Props.RoundSum
import Verif.Model.PandasCorr
import Verif.Lemmas.PandasCorr
import Verif.Props.PandasCorr
import Verif.Props.RoundCorr
import Verif.Props.ClustZero
import Verif.Props.HcData
import Verif.Props.IndLaw
import Verif.Props.IndEwmLaw
import Verif.Model.HistR
import Verif.Props.InfoRound
import Verif.Model.RollR
import Verif.Props.RollMean
import Verif.Props.RollErr
import Verif.Props.RollVar
import Verif.Props.RollSpike
import Verif.Model.IndR
import Verif.Props.EwmErr
import Verif.Props.IndRound
import Verif.Model.MicroR
import Verif.Props.MicroRound
import Verif.Props.MicroRoundB
import Verif.Model.CusumR
import Verif.Props.CusumRound
import Verif.Model.DotTree
import Verif.Model.SimR
import Verif.Props.SimRound
import Verif.Model.FitR
import Verif.Props.FitRound
import Verif.Props.WalkForwardInit
import Verif.Props.IndRange
import Verif.Model.EntR
import Verif.Props.EntRound
import Verif.Props.EntMeasures
import Verif.Props.EntNorm
import Verif.Props.EntNumpy
import Verif.Props.EntWitness
import Verif.Props.MatDivLaws
import Verif.Props.MatDivVN
import Verif.Props.MicroEdgeLaw
import Verif.Props.MicroEdgeCases
import Verif.Props.SplitWindows
import Verif.Props.ClustRecover
import Verif.Props.ClustBlocks
import Verif.Props.ClustSample
import Verif.Props.ClustRank
import Verif.Props.WalkFloat
import Verif.Props.ClustCoarse
import Verif.Props.CovFactor
import Verif.Props.CovPair
import Verif.Props.CovLimit
import Verif.Props.CovReorder
import Verif.Props.CovFitLimit
import Verif.Props.ClustGapSearch
import Verif.Props.ClustGapLaw
import Verif.Props.CovFitFlat
import Verif.Model.InferFreq
import Verif.Lemmas.InferFreq
import Verif.Props.InferFreq
import Verif.Props.SimDates
import Verif.Model.DateRange
import Verif.Props.SimLabels
import Verif.Props.FreqGaps
import Verif.Model.CholR
import Verif.Lemmas.Chol
import Verif.Props.CholRound
import Verif.Props.CholFit
import Verif.Props.CorRound
import Verif.Props.CholLaw
import Verif.Model.OUFitR
import Verif.Props.OURound
import Verif.Props.OUFitRound
import Verif.Props.OUSlope
import Verif.Model.LikR
import Verif.Props.LikRound
import Verif.Props.LikMatRound
import Verif.Props.OULikRound
import Verif.Props.OULikMatRound
