import Verif.Props.Basis
import Verif.Props.Rate
import Verif.Props.LogLik
import Verif.Props.DParents
import Verif.Props.MeanFieldParents
import Verif.Props.Gibbs
import Verif.Props.Adjacency
import Verif.Props.Distributions
import Verif.Props.Network
import Verif.Props.VarHistory
import Verif.Props.VarWindows
import Verif.Props.VarNet
import Verif.Props.VLBPrior
import Verif.Props.VLBNet
import Verif.Props.VLBAscent
import Verif.Props.VLBFinite
import Verif.Props.Sampler
import Verif.Props.CTStats
import Verif.Props.CTImpulse
import Verif.Props.CTGibbs
import Verif.Props.CTBranching
import Verif.Props.LogJoint
import Verif.Props.LogJointModel
import Verif.Props.CTGenerate
import Verif.Props.CTAdjacency
import Verif.Props.CTSampler
import Verif.Props.CTLogLik
import Verif.Model.Standard
import Verif.Model.Copy
import Verif.Spec.Standard
import Verif.Props.Standard
import Verif.Props.StandardOps
import Verif.Props.StandardHist
import Verif.Props.StandardMisc
import Verif.Props.StandardFit
import Verif.Props.Interp
import Verif.Props.AddData
import Verif.Model.Nonlinear
import Verif.Spec.Nonlinear
import Verif.Props.NLNode
import Verif.Props.NLProc
import Verif.Model.Stability
import Verif.Spec.Stability
import Verif.Props.Stability
import Verif.Model.Convert
import Verif.Spec.Convert
import Verif.Props.Convert
import Verif.Props.ConvertBack
import Verif.Model.FileName
import Verif.Props.FileName
import Verif.Model.PoissonProc
import Verif.Spec.PoissonProc
import Verif.Props.PoissonProc
import Verif.Model.XCorr
import Verif.Spec.XCorr
import Verif.Props.XCorr
import Verif.Model.InitStd
import Verif.Props.InitStd
import Verif.Model.CTInit
import Verif.Props.CTInit
import Verif.Spec.MeanField
import Verif.Props.MFTilt
import Verif.Props.MFTiltNet
import Verif.Props.MFTiltSBM
import Verif.Props.MFUnbiased
import Verif.Props.MFTiltModel
import Verif.Props.VLBWeights
import Verif.Props.VLBNetAscent
import Verif.Props.VLBLabels
import Verif.Props.VLBReach
import Verif.Props.VLBParents
import Verif.Lemmas.BetaFn
import Verif.Lemmas.BetaLog
import Verif.Lemmas.FXMonoid
import Verif.Lemmas.GammaFn
import Verif.Model.Basis
import Verif.Model.CTModel
import Verif.Model.CTParents
import Verif.Model.CosineBasis
import Verif.Model.DParents
import Verif.Model.Distributions
import Verif.Model.Gibbs
import Verif.Model.GibbsModel
import Verif.Model.LogJoint
import Verif.Model.MFSample
import Verif.Model.Network
import Verif.Model.Rate
import Verif.Model.VLB
import Verif.Model.Variational
import Verif.Prelude.EFloat
import Verif.Prelude.FX
import Verif.Prelude.Py
import Verif.Props.CTParents
import Verif.Props.DirichletLaw
import Verif.Props.GibbsBasics
import Verif.Props.MFSample
import Verif.Props.MFSampleBugs
import Verif.Props.MFSampleExists
import Verif.Props.MFSampleExp
import Verif.Props.MFSampleInert
import Verif.Props.MFSampleLaw
import Verif.Spec.Basis
import Verif.Spec.Bayes
import Verif.Spec.Branching
import Verif.Spec.CT
import Verif.Spec.CTGenerate
import Verif.Spec.CTImpulse
import Verif.Spec.CTSampler
import Verif.Spec.Densities
import Verif.Spec.Dirichlet
import Verif.Spec.Edges
import Verif.Spec.LogJoint
import Verif.Spec.MFSample
import Verif.Spec.Random
import Verif.Spec.Rate
import Verif.Spec.Sampler
import Verif.Spec.VLB
import Verif.Spec.Variational
import Verif.Props.NLSettings
import Verif.Props.NetworkNew
import Verif.Props.DirichletBayes
import Verif.Props.DirichletDensity
import Verif.Props.NetworkSweep
import Verif.Spec.Posterior
import Verif.Props.GibbsAbstract
import Verif.Props.GibbsEdges
import Verif.Props.GibbsInvariant
import Verif.Props.GibbsLaws
import Verif.Props.GibbsLik
import Verif.Props.GibbsMeas
import Verif.Props.GibbsPosterior
import Verif.Props.GibbsRows
import Verif.Props.GibbsScale
import Verif.Props.GibbsSweepMap
import Verif.Props.AugSystem
import Verif.Spec.PosteriorCT
import Verif.Props.CTNigLaw
import Verif.Props.CTAugment
import Verif.Props.CTAugmentOk
import Verif.Props.CTSweepMap
import Verif.Props.CTPosterior
import Verif.Props.CTProper
import Verif.Props.GibbsExists
import Verif.Props.GibbsProper
import Verif.Spec.PosteriorBlock
import Verif.Props.BlockPosterior
import Verif.Props.BlockSweep
import Verif.Props.BlockChain
import Verif.Spec.PosteriorMix
import Verif.Props.MixSteps
import Verif.Props.MixSweepMap
import Verif.Props.MixInvariant
import Verif.Props.MixPosterior
import Verif.Props.ChainSpace
import Verif.Props.MixProper
import Verif.Model.FiringRate
import Verif.Props.FiringRate
import Verif.Model.FromGibbs
import Verif.Props.FromGibbs
import Verif.Model.Curves
import Verif.Props.Curves
import Verif.Model.DistHelpers
import Verif.Props.DistHelpers
import Verif.Props.NetSystem
import Verif.Spec.PosteriorCTBlock
import Verif.Props.NetBlock
import Verif.Props.ChainLaw
import Verif.Props.CTSweepNet
import Verif.Props.CTBlockPosterior
import Verif.Spec.PosteriorMixBlock
import Verif.Props.MixBlock
import Verif.Props.MixBlockSweep
import Verif.Props.MixBlockPosterior
import Verif.Spec.Simulate
import Verif.Spec.SimulateBayes
import Verif.Props.SimulateLaw
import Verif.Props.SimulateBayes
import Verif.Props.SimulateGap
import Verif.Props.SimulateDemo
import Verif.Props.StandardRate
import Verif.Props.SimulateMean
import Verif.Props.SimulateStable
import Verif.Spec.Converge
import Verif.Props.MarkovConverge
import Verif.Props.Ergodic
import Verif.Props.NetErgodic
import Verif.Props.NetErgodicER
import Verif.Props.ChainConverge
import Verif.Props.DiscErgodic
import Verif.Props.Converge
import Verif.Props.ConvergeBlock
import Verif.Props.ConvergeCT
import Verif.Props.ErgodicAverage
import Verif.Props.ErgodicMean
import Verif.Props.ErgodicTransfer
import Verif.Props.Average
import Verif.Spec.PosteriorLabels
import Verif.Spec.PosteriorLabelsCT
import Verif.Props.LabelSite
import Verif.Props.LabelNet
import Verif.Props.LabelInvariant
import Verif.Props.LabelNetOk
import Verif.Props.DiscSweepNet
import Verif.Props.LabelSweep
import Verif.Props.LabelSampler
import Verif.Props.LabelPosterior
import Verif.Props.LabelPosteriorCT
import Verif.Props.StandardSteps
import Verif.Props.StandardExists
import Verif.Props.InitStdChain
import Verif.Model.StandardLog
import Verif.Spec.StandardLog
import Verif.Props.StandardLog
import Verif.Props.StationaryCT
import Verif.Model.ExpectedLL
import Verif.Props.WeightStats
import Verif.Props.ExpectedLL
import Verif.Model.InferNet
import Verif.Spec.InferNet
import Verif.Props.InferNet
import Verif.Props.NLExists
import Verif.Model.CTPython
import Verif.Props.CTPython
import Verif.Spec.Evidence
import Verif.Props.EvidenceCore
import Verif.Props.EvidencePrior
import Verif.Props.EvidenceRows
import Verif.Props.EvidenceMain
import Verif.Props.Evidence
import Verif.Props.EvidenceBugs
import Verif.Props.EvidenceSim
import Verif.Props.EvidenceBlock
import Verif.Spec.Relabel
import Verif.Props.Relabel
import Verif.Props.RelabelRate
import Verif.Model.Plot
import Verif.Spec.Plot
import Verif.Props.StoredRate
import Verif.Props.Plot
import Verif.Props.Examples
import Verif.Spec.Blocks
import Verif.Props.Blocks
import Verif.Spec.Units
import Verif.Props.Units
import Verif.Props.UnitsGibbs
import Verif.Props.UnitsMF
import Verif.Spec.UnitsCT
import Verif.Props.UnitsCT
import Verif.Spec.Settle
import Verif.Props.Settle
import Verif.Props.SettleBlock
import Verif.Spec.Cut
import Verif.Props.Cut
import Verif.Props.CutMF
import Verif.Props.CutSilence
import Verif.Spec.CutCT
import Verif.Props.CutCTOrigin
import Verif.Props.CutCT
import Verif.Spec.Groups
import Verif.Props.Groups
import Verif.Props.GroupsCT
import Verif.Spec.ScaleRates
import Verif.Props.ScaleRates
import Verif.Props.FitCertificate
import Verif.Props.GroupsGibbs
import Verif.Props.GroupsGibbsCT
import Verif.Spec.Merge
import Verif.Props.Merge
