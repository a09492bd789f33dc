import Verif.Props.IncrEval
import Verif.Props.EO
import Verif.Props.EOReplacement
import Verif.Props.EOReplacementOps
import Verif.Props.EOOperators
import Verif.Props.EOBits
import Verif.Props.Neighborhood
import Verif.Props.LocalSearch
import Verif.Props.LSParts
import Verif.Props.Moeo
import Verif.Props.MoeoArchive
import Verif.Props.MoeoDepth
import Verif.Props.MoeoFitness
import Verif.Props.MoeoMetric
import Verif.Props.MoeoHypervolume
import Verif.Props.MoeoCrowding
import Verif.Props.MoeoQueries
import Verif.Props.EOBounds
import Verif.Props.EOSelect
import Verif.Props.EOSelectMany
import Verif.Props.EOWorth
import Verif.Props.EOBreed
import Verif.Props.EOBreedOps
import Verif.Props.EOReplacementMore
import Verif.Model.EOVarLength
import Verif.Props.EOVarLength
import Verif.Model.EOAlgo
import Verif.Props.EOAlgo
import Verif.Props.EOContinue
import Verif.Props.EOCheckPoint
import Verif.Props.EORunMore
import Verif.Model.SmpTopology
import Verif.Lemmas.SmpTopology
import Verif.Props.SmpTopology
import Verif.Props.SmpTopologyMore
import Verif.Model.SmpScheduler
import Verif.Lemmas.SmpScheduler
import Verif.Props.SmpScheduler
import Verif.Model.SmpIsland
import Verif.Lemmas.SmpIsland
import Verif.Props.SmpIsland
import Verif.Model.Serial
import Verif.Lemmas.Serial
import Verif.Props.Serial
import Verif.Model.Mpi
import Verif.Lemmas.Mpi
import Verif.Props.Mpi
import Verif.Lemmas.SmpSchedulerLive
import Verif.Model.EdoCholesky
import Verif.Lemmas.EdoCholesky
import Verif.Props.EdoCholesky
import Verif.Model.EdoRepair
import Verif.Lemmas.EdoRepair
import Verif.Props.EdoRepair
import Verif.Model.EdoEstim
import Verif.Lemmas.EdoEstim
import Verif.Props.EdoEstim
import Verif.Model.EdoCMA
import Verif.Lemmas.EdoCMA
import Verif.Props.EdoCMA
import Verif.Model.PSO
import Verif.Lemmas.PSO
import Verif.Props.PSO
import Verif.Model.ESOps
import Verif.Lemmas.ESOps
import Verif.Lemmas.ESAdapt
import Verif.Props.ESOps
import Verif.Model.CMAState
import Verif.Lemmas.CMAState
import Verif.Props.CMAState
import Verif.Model.Gp
import Verif.Lemmas.Gp
import Verif.Lemmas.GpInit
import Verif.Props.Gp
import Verif.Model.MoeoHv2
import Verif.Lemmas.MoeoHv2
import Verif.Lemmas.MoeoHv2Vol
import Verif.Props.MoeoHv2
import Verif.Model.MoeoEpsBox
import Verif.Lemmas.MoeoEpsBox
import Verif.Props.MoeoEpsBox
import Verif.Model.MoeoSpea2
import Verif.Lemmas.MoeoSpea2
import Verif.Props.MoeoSpea2
import Verif.Model.NDSorting
import Verif.Lemmas.NDSorting
import Verif.Props.NDSorting
import Verif.Model.Fitness
import Verif.Props.Fitness
import Verif.Model.Stats
import Verif.Lemmas.Stats
import Verif.Props.Stats
import Verif.Model.MoeoDMLS
import Verif.Lemmas.MoeoDMLS
import Verif.Props.MoeoDMLS
import Verif.Model.MoeoEA
import Verif.Lemmas.MoeoEA
import Verif.Props.MoeoEA
import Verif.Model.State
import Verif.Lemmas.State
import Verif.Props.State
import Verif.Model.Param
import Verif.Lemmas.Param
import Verif.Props.Param
import Verif.Model.Rng
import Verif.Lemmas.Rng
import Verif.Props.Rng
import Verif.Model.BitMut
import Verif.Props.BitMut
import Verif.Model.QuadTree
import Verif.Lemmas.QuadTree
import Verif.Props.QuadTree
import Verif.Props.QuickIndex
import Verif.Model.Scalar
import Verif.Props.Scalar
import Verif.Model.Weights
import Verif.Lemmas.Weights
import Verif.Props.Weights
import Verif.Props.AugWeights
import Verif.Model.Diversity
import Verif.Props.Diversity
import Verif.Props.DomFitness
import Verif.Model.ILS
import Verif.Props.ILS
import Verif.Props.LSCount
import Verif.Model.Sampling
import Verif.Props.Sampling
import Verif.Model.FastGA
import Verif.Props.FastGA
import Verif.Model.LongPath
import Verif.Props.LongPath
import Verif.Model.DTLZ
import Verif.Props.DTLZ
import Verif.Model.Instances
import Verif.Props.Instances
import Verif.Model.Init
import Verif.Props.Init
import Verif.Model.Worth
import Verif.Props.Worth
import Verif.Model.Velocity
import Verif.Props.Velocity
import Verif.Model.MoeoStop
import Verif.Model.MoeoEntropy
import Verif.Props.MoeoStop
import Verif.Props.MoeoSelect
import Verif.Props.MoeoEntropy
import Verif.Model.Eig
import Verif.Lemmas.EigHouse
import Verif.Lemmas.EigQL
import Verif.Props.Eig
import Verif.Model.EdoAlgo
import Verif.Props.EdoAlgo
import Verif.Model.SymTree
import Verif.Lemmas.SymTree
import Verif.Props.SymTree
import Verif.Model.MathSym
import Verif.Props.MathSym
import Verif.Props.MathSymLambda
import Verif.Props.MathSymDiff
import Verif.Model.MathSymEval
import Verif.Props.MathSymInterval
import Verif.Props.MathSymTable
import Verif.Model.MathSymReg
import Verif.Props.MathSymReg
import Verif.Model.MathSymRaw
import Verif.Props.MathSymRaw
import Verif.Model.Dicho
import Verif.Props.Dicho
import Verif.Model.Factory
import Verif.Props.Factory
import Verif.Props.FactoryMore
import Verif.Model.Persist
import Verif.Lemmas.Persist
import Verif.Props.Persist
import Verif.Props.PersistMore
import Verif.Model.BoundText
import Verif.Props.BoundText
import Verif.Model.RealToInt
import Verif.Props.RealToInt
import Verif.Model.VirusOps
import Verif.Props.VirusOps
import Verif.Model.ESCommand
import Verif.Props.ESCommand
import Verif.Model.FlipNeighborhood
import Verif.Props.FlipNeighborhood
import Verif.Model.Fuzzy
import Verif.Props.Fuzzy
import Verif.Model.IntervalLib
import Verif.Lemmas.IntervalLib
import Verif.Props.IntervalLib
import Verif.Lemmas.IntervalSets
import Verif.Props.IntervalSets
import Verif.Model.IntervalTransc
import Verif.Lemmas.IntervalTransc
import Verif.Props.IntervalTransc
import Verif.Model.MultiStart
import Verif.Lemmas.MultiStart
import Verif.Props.MultiStart
import Verif.Model.Monitors
import Verif.Props.Monitors
import Verif.Props.Timers
import Verif.Props.Savers
import Verif.Model.MasterWorker
import Verif.Model.ExternalEval
import Verif.Model.FoundryEA
import Verif.Props.MasterWorker
import Verif.Props.ExternalEval
import Verif.Props.FoundryEA
import Verif.Model.Ibea
import Verif.Lemmas.Ibea
import Verif.Props.Ibea
import Verif.Props.Moga
import Verif.Model.MakeCheckpoint
import Verif.Props.MakeCheckpoint
import Verif.Model.AlgoCtors
import Verif.Props.AlgoCtors
import Verif.Model.Exceptions
import Verif.Props.Exceptions
import Verif.Model.ContinueMoeo
import Verif.Props.ContinueMoeo
import Verif.Model.FunctorStore
import Verif.Props.FunctorStore
import Verif.Model.EdoMonitor
import Verif.Props.EdoMonitor
import Verif.Model.DualHv
import Verif.Props.DualHv
import Verif.Model.MetricFitness
import Verif.Props.MetricFitness
import Verif.Model.Irace
import Verif.Props.Irace
import Verif.Model.Distance
import Verif.Model.WalkSampling
import Verif.Props.Distance
import Verif.Props.WalkSampling
import Verif.Model.EvalThrow
import Verif.Model.SelectMore
import Verif.Model.EqualComparators
import Verif.Model.CloudSampling
import Verif.Props.EvalThrow
import Verif.Props.SelectMore
import Verif.Props.EqualComparators
import Verif.Props.CloudSampling
import Verif.Model.FlowShop
import Verif.Props.FlowShop
import Verif.Model.Mastermind
import Verif.Model.QapTutorial
import Verif.Model.Mlp
import Verif.Props.Mastermind
import Verif.Props.QapTutorial
import Verif.Props.MlpTrain
import Verif.Props.MlpGradient
import Verif.Model.MpiSession
import Verif.Lemmas.MpiSession
import Verif.Props.MpiSession
import Verif.Props.MlpRate
import Verif.Model.MlpNet
import Verif.Props.MlpNet
import Verif.Model.GpSymreg
import Verif.Props.GpSymreg
import Verif.Model.OpAdapters
import Verif.Props.OpAdapters
import Verif.Model.Gnuplot
import Verif.Props.Gnuplot
import Verif.Model.SymCompile
import Verif.Lemmas.SymCompile
import Verif.Lemmas.SymCompileText
import Verif.Props.SymCompile
import Verif.Props.SymCompileMulti
import Verif.Model.SharedPtr
import Verif.Props.SharedPtr
import Verif.Model.SymDag
import Verif.Lemmas.SymDag
import Verif.Props.SymDag
import Verif.Model.Symreg
import Verif.Props.Symreg
import Verif.Model.Dataset
import Verif.Props.Dataset
import Verif.Model.IntervalCmp
import Verif.Props.IntervalCmp
import Verif.Model.DegreeSampling
import Verif.Props.DegreeSampling
import Verif.Model.SmpShared
import Verif.Props.SmpShared
import Verif.Props.TournamentLaw
import Verif.Props.RndOrder
import Verif.Props.ShuffleLaw
import Verif.Props.PointLaw
import Verif.Props.Metropolis
import Verif.Props.EAConvergence
import Verif.Props.RandomWalk
import Verif.Props.Connected
import Verif.Props.BitLaw
import Verif.Props.MetropolisUnique
import Verif.Model.StatReaders
import Verif.Props.StatReaders
import Verif.Model.FitTarget
import Verif.Props.FitTarget
import Verif.Props.MetropolisLimit
import Verif.Props.ParetoConvergence
import Verif.Props.PermAnneal
import Verif.Props.Stuck
import Verif.Props.OneMaxClimb
import Verif.Props.LongPathClimb
import Verif.Props.SatClimb
import Verif.Props.Invariance
import Verif.Props.MoeoInvariance
import Verif.Props.EasyEAInvariance
import Verif.Props.BitUnbiased
import Verif.Props.PsoInvariance
import Verif.Props.Relabel
import Verif.Props.IsoProblems
import Verif.Props.RealUnits
import Verif.Props.EdoUnits
import Verif.Props.RunTime
import Verif.Props.RunTimeRoyal
import Verif.Props.RunTimePath
import Verif.Props.RunTimeExact
import Verif.Props.RunTimeOneFlip
import Verif.Props.Schemata
import Verif.Props.ReplLaw
import Verif.Props.FirstImprLaw
