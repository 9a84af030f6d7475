import Verif.Props.World
import Verif.Props.SamSafety
import Verif.Props.SamBehaviour
import Verif.Props.SamLimits
import Verif.Props.SamCalls
import Verif.Props.SamConstants
import Verif.Props.Core
import Verif.Props.MaSam
import Verif.Props.Logic
import Verif.Props.CondSam
import Verif.Props.Online
import Verif.Props.SemiOnline
import Verif.Props.PriorityQueue
import Verif.Props.Episodes
import Verif.Props.Bfs
import Verif.Props.Macro
import Verif.Props.MacroSafe
import Verif.Props.MacroMore
import Verif.Props.Numeric
import Verif.Props.KFold
import Verif.Props.ConvexHull
import Verif.Props.HullError
import Verif.Props.Projection
import Verif.Props.LinReg
import Verif.Props.NumMatch
import Verif.Props.NumSam
import Verif.Props.NumSamCase
import Verif.Props.Stats
import Verif.Props.StatsEff
import Verif.Props.StatsMore
import Verif.Props.Agent
import Verif.Props.IncHull
import Verif.Props.IncHullPoint
import Verif.Props.Svm
import Verif.Props.OnlineNumeric
import Verif.Props.OnlineNumericCase
import Verif.Props.Explore
import Verif.Props.ExploreMore
import Verif.Props.EndToEnd
import Verif.Props.EndToEndCase
import Verif.Props.UniversalCase
import Verif.Props.CondReplay
import Verif.Props.Validator
import Verif.Props.Esam
import Verif.Props.RandomWalk
import Verif.Props.DummyActions
import Verif.Props.FaultRepairCase
import Verif.Props.FaultRepairModelCase
import Verif.Props.TripletsCase
import Verif.Props.Results
import Verif.Props.OnlineResults
import Verif.Props.JointCounter
import Verif.Props.CrossVal
import Verif.Props.OnlineDomain
import Verif.Props.OnlineSafety
import Verif.Props.OnlineTraining
import Verif.Props.IncNumSam
import Verif.Props.IncNumSamCase
import Verif.Props.Session
import Verif.Props.SessionCase
import Verif.Props.FaultGenerator
import Verif.Props.Cluster
import Verif.Props.TrajectoryFiles
import Verif.Props.PlanMiner
import Verif.Props.Plans
import Verif.Props.NumPlans
import Verif.Props.Jobs
import Verif.Props.JobsCase
import Verif.Props.WorkingDir
import Verif.Props.MacroPlans
import Verif.Props.TripletsJob
import Verif.Props.TripletsJobCase
import Verif.Props.MaCurve
import Verif.Props.MaCurveCase
import Verif.Props.MaRounds
import Verif.Props.Evaluation
import Verif.Props.NumCurve
import Verif.Props.CondPlans
import Verif.Props.PlanMinerRun
import Verif.Props.UniReplay
import Verif.Props.OnlineEvaluation
import Verif.Props.MaDatasets
import Verif.Props.Submission
import Verif.Props.Pipeline
import Verif.Props.Plots
import Verif.Props.SolvingPlots
import Verif.Props.Certificate
import Verif.Props.SolverJobs
import Verif.Props.EsamProxy
import Verif.Props.Dnf
import Verif.Props.SamOptimal
import Verif.Props.NumOptimal
import Verif.Props.CnfExact
import Verif.Props.SamConverge
import Verif.Props.OnlineBound
import Verif.Props.SamPac
import Verif.Props.NumGeneral
import Verif.Props.SamMean
import Verif.Props.NumEffectsGeneral
import Verif.Props.NumSamGeneral
import Verif.Props.IncSamGeneral
import Verif.Props.MaGeneral
