import Verif.Model.Graph
import Verif.Model.GraphUtils
import Verif.Model.NamedGraph
import Verif.Model.Skeleton
import Verif.Model.PC
import Verif.Proofs.GraphBasic
import Verif.Spec.GraphHistory
import Verif.Spec.DSep
import Verif.Proofs.DSep
import Verif.Proofs.Skeleton
import Verif.Props.Skeleton
import Verif.Proofs.PC
import Verif.Proofs.PCOracle
import Verif.Props.BkOrient
import Verif.Proofs.PCOracle2
import Verif.Props.PC
import Verif.Model.BackgroundKnowledge
import Verif.Props.BackgroundKnowledge
import Verif.Model.Generators
import Verif.Props.Generators
import Verif.Model.PriorityQueue
import Verif.Props.PriorityQueue
import Verif.Props.GraphEdge
import Verif.Props.GraphAncestor
import Verif.Props.GraphTraversal
import Verif.Props.NamedGraph
import Verif.Props.DSepQuery
import Verif.Props.GraphQueries
import Verif.Props.Metrics
import Verif.Props.Cache
import Verif.Props.Lingam
import Verif.Props.LingamPaths
import Verif.Props.GIN
import Verif.Props.Cpdag
import Verif.Props.MarkQueries
import Verif.Props.Pdag2Dag
import Verif.Props.Iamb
import Verif.Model.Txt
import Verif.Props.Txt
import Verif.Model.FAS
import Verif.Props.FAS
import Verif.Model.CDNOD
import Verif.Props.CDNOD
import Verif.Model.ExactSearch
import Verif.Spec.ExactSearch
import Verif.Proofs.ExactSearch
import Verif.Proofs.OrderCost
import Verif.Proofs.AStar
import Verif.Proofs.DPSearch
import Verif.Props.ExactSearch
import Verif.Model.Permutation
import Verif.Props.Gst
import Verif.Props.Boss
import Verif.Props.Grasp
import Verif.Model.Ges
import Verif.Proofs.Ges
import Verif.Props.Ges
import Verif.Props.GesRun
import Verif.Props.GesMain
import Verif.Proofs.Meek
import Verif.Props.PCComplete
import Verif.Model.FCI
import Verif.Proofs.Fci
import Verif.Proofs.FciRules
import Verif.Proofs.FciPrep
import Verif.Proofs.FciFuel
import Verif.Props.FCI
import Verif.Props.FCIRun
import Verif.Props.PossibleDsep
import Verif.Props.PdsepTests
import Verif.Props.Rule0
import Verif.Spec.Latent
import Verif.Proofs.Inducing
import Verif.Proofs.FciTruth
import Verif.Proofs.FciTruth4
import Verif.Proofs.DSepDecide
import Verif.Props.FciSound
import Verif.Props.PatternDb
import Verif.Props.Dag2Pag
import Verif.Props.FciKnowledge
import Verif.Props.FciTails
import Verif.Props.PossibleDsepTwo
import Verif.Model.ChiSq
import Verif.Spec.ChiSq
import Verif.Proofs.ChiSq
import Verif.Props.ChiSq
import Verif.Model.Scores
import Verif.Proofs.ScoreEquiv
import Verif.Props.Scores
import Verif.Props.ScoresReal
import Verif.Model.Calm
import Verif.Props.Calm
import Verif.Model.FisherZ
import Verif.Spec.PartialCorr
import Verif.Proofs.PartialCorr
import Verif.Props.FisherZ
import Verif.Spec.LinearModel
import Verif.Proofs.Moral
import Verif.Proofs.LinearModel
import Verif.Props.LinearPC
import Verif.Proofs.VermaPearl
import Verif.Props.SameDSep
import Verif.Spec.Consistent
import Verif.Proofs.IMap
import Verif.Proofs.MeekChickering
import Verif.Props.GesConsistent
import Verif.Props.BicConsistent
import Verif.Proofs.GstConsistent
import Verif.Props.OrderConsistent
import Verif.Model.Rcd
import Verif.Props.Rcd
import Verif.Model.Camuv
import Verif.Props.Camuv
import Verif.Model.Parce
import Verif.Props.Parce
import Verif.Model.Pattern
import Verif.Props.Pattern
import Verif.Model.Mvpc
import Verif.Proofs.Mvpc
import Verif.Props.Mvpc
import Verif.Model.CausalEffect
import Verif.Props.CausalEffect
import Verif.Model.TimeSeries
import Verif.Props.TimeSeries
import Verif.Model.DagClass
import Verif.Props.DagClass
import Verif.Model.GinDriver
import Verif.Props.GinDriver
import Verif.Model.FciLabels
import Verif.Props.FciLabels
import Verif.Model.Kci
import Verif.Proofs.Kci
import Verif.Props.Kci
import Verif.Model.LingamData
import Verif.Proofs.LingamData
import Verif.Props.LingamData
import Verif.Model.Granger
import Verif.Props.Granger
import Verif.Model.Sepset
import Verif.Props.Sepset
import Verif.Model.GraphPatterns
import Verif.Props.GraphPatterns
import Verif.Model.Bootstrap
import Verif.Props.Bootstrap
import Verif.Props.TotalEffect
import Verif.Model.TsPrune
import Verif.Props.TsPrune
import Verif.Model.LongBoot
import Verif.Props.LongBoot
import Verif.Model.NxGraph
import Verif.Props.NxGraph
import Verif.Model.Tetrad
import Verif.Props.Tetrad
import Verif.Props.LingamSoft
import Verif.Model.CvScore
import Verif.Proofs.CvScore
import Verif.Props.CvScore
import Verif.Props.ConflictOrder
import Verif.Model.ConfounderQueries
import Verif.Props.ConfounderQueries
import Verif.Model.HsicWidth
import Verif.Props.HsicWidth
import Verif.Model.Pairwise
import Verif.Props.Pairwise
import Verif.Model.FastKci
import Verif.Props.FastKci
import Verif.Model.Rcit
import Verif.Props.Rcit
import Verif.Model.ExactBic
import Verif.Props.ExactBic
import Verif.Model.IcaFit
import Verif.Props.IcaFit
import Verif.Model.CitSession
import Verif.Props.CitSession
import Verif.Model.GraphMore
import Verif.Props.GraphMore
import Verif.Model.Drawing
import Verif.Props.Drawing
import Verif.Props.LinUtil
import Verif.Model.Minimize
import Verif.Model.Gp
import Verif.Props.Minimize
import Verif.Props.Gp
import Verif.Model.TsBoot
import Verif.Props.TsBoot
import Verif.Spec.LinearNonGaussian
import Verif.Model.RcdData
import Verif.Proofs.NonGaussian
import Verif.Props.RcdRecovery
import Verif.Props.RcdHidden
import Verif.Model.ParceData
import Verif.Props.ParceRecovery
import Verif.Model.CamuvData
import Verif.Proofs.MoralAnc
import Verif.Props.CamuvRecovery
import Verif.Model.GraspExact
import Verif.Props.GraspExact
import Verif.Props.GinBlocks
import Verif.Props.DirectRecovery
import Verif.Props.DirectRecoveryPw
import Verif.Props.GraphGrow
import Verif.Props.DagTransfer
import Verif.Props.GroupRecovery
import Verif.Props.VarRecovery
import Verif.Props.LongRecovery
import Verif.Model.McFisherZ
import Verif.Props.McFisherZ
import Verif.Model.DagMore
import Verif.Props.DagMore
import Verif.Spec.Discrete
import Verif.Proofs.Discrete
import Verif.Proofs.ChiStat
import Verif.Props.DiscretePC
import Verif.Props.LatentData
import Verif.Proofs.Tiers
import Verif.Props.TierKnowledge
import Verif.Props.CdnodComplete
import Verif.Model.KciNull
import Verif.Props.KciNull
import Verif.Model.CalmLoss
import Verif.Props.CalmLoss
import Verif.Model.FastKciNull
import Verif.Props.FastKciNull
import Verif.Props.CalmExact
import Verif.Props.KnowledgePC
import Verif.Props.PermBic
import Verif.Props.KnowledgeCDNOD
import Verif.Model.EdgeObj
import Verif.Props.EdgeObj
