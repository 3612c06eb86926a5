import Verif.Dict
import Verif.Model.AC
import Verif.Model.ACCalls
import Verif.Model.Aliased
import Verif.Model.Averager
import Verif.Model.CTW
import Verif.Model.CTWDepth
import Verif.Model.CTWHeap
import Verif.Model.CTWHeapWrap
import Verif.Model.CTWSize
import Verif.Model.Chars
import Verif.Model.CoinFlip
import Verif.Model.CommandLine
import Verif.Model.Construct
import Verif.Model.Constructing
import Verif.Model.Ctw
import Verif.Model.CtwFMN
import Verif.Model.CtwSeq
import Verif.Model.Either
import Verif.Model.Entering
import Verif.Model.FMN
import Verif.Model.Failures
import Verif.Model.Fast
import Verif.Model.FileEnv
import Verif.Model.Files
import Verif.Model.Filters
import Verif.Model.Format
import Verif.Model.Frames
import Verif.Model.Helpers
import Verif.Model.Histories
import Verif.Model.Interrupted
import Verif.Model.Items
import Verif.Model.Jobs
import Verif.Model.KT
import Verif.Model.Learners
import Verif.Model.LearnersBase
import Verif.Model.LearnersKT
import Verif.Model.LearnersMore
import Verif.Model.Literals
import Verif.Model.LogData
import Verif.Model.LogStore
import Verif.Model.LogSumExp
import Verif.Model.LogText
import Verif.Model.Logs
import Verif.Model.Matches
import Verif.Model.Matching
import Verif.Model.OutOfRange
import Verif.Model.PTW
import Verif.Model.Params
import Verif.Model.Pomdp
import Verif.Model.Predictor
import Verif.Model.Records
import Verif.Model.Reformat
import Verif.Model.Rounding
import Verif.Model.RoundingAC
import Verif.Model.RoundingAlphabets
import Verif.Model.RoundingFMN
import Verif.Model.RoundingFast
import Verif.Model.RoundingHeights
import Verif.Model.RoundingPTW
import Verif.Model.RoundingTower
import Verif.Model.SameObject
import Verif.Model.Saving
import Verif.Model.Sensors
import Verif.Model.Splitting
import Verif.Model.Strings
import Verif.Model.Structures
import Verif.Model.Text
import Verif.Model.Threads
import Verif.Model.Vectors
import Verif.Model.Z
import Verif.Proofs.AC
import Verif.Proofs.ACBytes
import Verif.Proofs.ACDamage
import Verif.Proofs.ACKT
import Verif.Proofs.ACLonger
import Verif.Proofs.ACMirror
import Verif.Proofs.ACTotal
import Verif.Proofs.Averager
import Verif.Proofs.AveragerLawful
import Verif.Proofs.CTW
import Verif.Proofs.CTWHeap
import Verif.Proofs.CTWHeapFree
import Verif.Proofs.CTWHeapSession
import Verif.Proofs.CTWHeapSim
import Verif.Proofs.CTWHeapWrap
import Verif.Proofs.CTWHeapWrapSession
import Verif.Proofs.CTWHom
import Verif.Proofs.CTWLawful
import Verif.Proofs.CTWPure
import Verif.Proofs.CTWSize
import Verif.Proofs.Categorical
import Verif.Proofs.CategoricalSources
import Verif.Proofs.CodeLength
import Verif.Proofs.CodeLengthAmortised
import Verif.Proofs.CoinFlip
import Verif.Proofs.ContextCode
import Verif.Proofs.ContextMix
import Verif.Proofs.Convergence
import Verif.Proofs.Copy
import Verif.Proofs.CtwBase
import Verif.Proofs.CtwCTW
import Verif.Proofs.CtwFMN
import Verif.Proofs.CtwPTW
import Verif.Proofs.Entering
import Verif.Proofs.FMN
import Verif.Proofs.Failures
import Verif.Proofs.FileEnv
import Verif.Proofs.Frames
import Verif.Proofs.FramesFMN
import Verif.Proofs.FramesModels
import Verif.Proofs.FramesTrees
import Verif.Proofs.Helpers
import Verif.Proofs.Interrupted
import Verif.Proofs.JobLogs
import Verif.Proofs.Jobs
import Verif.Proofs.KT
import Verif.Proofs.KTRedundancy
import Verif.Proofs.Learners
import Verif.Proofs.Literals
import Verif.Proofs.LogData
import Verif.Proofs.LogStore
import Verif.Proofs.LogSumExp
import Verif.Proofs.Logs
import Verif.Proofs.Memory
import Verif.Proofs.Minimax
import Verif.Proofs.MinimaxMany
import Verif.Proofs.OneWrong
import Verif.Proofs.OutOfRange
import Verif.Proofs.PTW
import Verif.Proofs.PTWBeyond
import Verif.Proofs.PTWMap
import Verif.Proofs.PTWPredict
import Verif.Proofs.PTWPure
import Verif.Proofs.PTWRegret
import Verif.Proofs.PTWRun
import Verif.Proofs.Params
import Verif.Proofs.Pomdp
import Verif.Proofs.Range
import Verif.Proofs.Reformat
import Verif.Proofs.Reinforce
import Verif.Proofs.Relabel
import Verif.Proofs.Rounding
import Verif.Proofs.RoundingAC
import Verif.Proofs.RoundingAlphabets
import Verif.Proofs.RoundingAverager
import Verif.Proofs.RoundingCTW
import Verif.Proofs.RoundingCode
import Verif.Proofs.RoundingFMN
import Verif.Proofs.RoundingFMNPredict
import Verif.Proofs.RoundingFast
import Verif.Proofs.RoundingFastAlphabet
import Verif.Proofs.RoundingHeights
import Verif.Proofs.RoundingPTW
import Verif.Proofs.RoundingPredict
import Verif.Proofs.RoundingTower
import Verif.Proofs.SAD
import Verif.Proofs.SADRedundancy
import Verif.Proofs.Sensors
import Verif.Proofs.SensorsWidth
import Verif.Proofs.Seq
import Verif.Proofs.SourceRegret
import Verif.Proofs.Splitting
import Verif.Proofs.Strings
import Verif.Proofs.Structures
import Verif.Proofs.StructuresParse
import Verif.Proofs.StructuresRound
import Verif.Proofs.Text
import Verif.Proofs.Threads
import Verif.Proofs.ThreadsAlone
import Verif.Proofs.Vectors
import Verif.Proofs.Z
import Verif.Props.AC
import Verif.Props.ACDamage
import Verif.Props.ACLonger
import Verif.Props.ACMirror
import Verif.Props.ACRounding
import Verif.Props.Actions
import Verif.Props.Aliased
import Verif.Props.BayesianFMN
import Verif.Props.BayesianMixtures
import Verif.Props.BetaPrior
import Verif.Props.CTW
import Verif.Props.CTWHeap
import Verif.Props.CTWHeapWrap
import Verif.Props.CTWSize
import Verif.Props.Categorical
import Verif.Props.Changing
import Verif.Props.Chars
import Verif.Props.CodeLength
import Verif.Props.CoinFlip
import Verif.Props.CommandLine
import Verif.Props.Compose
import Verif.Props.Construct
import Verif.Props.Constructing
import Verif.Props.ContextCode
import Verif.Props.ContextMix
import Verif.Props.Convergence
import Verif.Props.Copy
import Verif.Props.Ctw
import Verif.Props.CtwFMN
import Verif.Props.CtwRedundancy
import Verif.Props.CtwSeq
import Verif.Props.Deep
import Verif.Props.Directories
import Verif.Props.DirichletPrior
import Verif.Props.Entering
import Verif.Props.Estimators
import Verif.Props.FMN
import Verif.Props.FMNSources
import Verif.Props.Failures
import Verif.Props.FileEnv
import Verif.Props.FileSize
import Verif.Props.Filters
import Verif.Props.Following
import Verif.Props.Format
import Verif.Props.Frames
import Verif.Props.Frozen
import Verif.Props.Histories
import Verif.Props.IntText
import Verif.Props.Interrupted
import Verif.Props.InterruptedHeap
import Verif.Props.InterruptedPTW
import Verif.Props.Items
import Verif.Props.JobLogs
import Verif.Props.Jobs
import Verif.Props.Larger
import Verif.Props.Learners
import Verif.Props.LearnersMore
import Verif.Props.Literals
import Verif.Props.LogData
import Verif.Props.LogDataMore
import Verif.Props.LogFiles
import Verif.Props.LogText
import Verif.Props.Logs
import Verif.Props.LongRun
import Verif.Props.Matches
import Verif.Props.Matching
import Verif.Props.Memory
import Verif.Props.Minimax
import Verif.Props.MinimaxMany
import Verif.Props.Mixtures
import Verif.Props.OneWrong
import Verif.Props.Order
import Verif.Props.OutOfRange
import Verif.Props.PTW
import Verif.Props.PTWBeyond
import Verif.Props.PTWMap
import Verif.Props.PTWMapExact
import Verif.Props.PTWPredictMore
import Verif.Props.ParamStrings
import Verif.Props.Params
import Verif.Props.Patterns
import Verif.Props.Pomdp
import Verif.Props.Range
import Verif.Props.Records
import Verif.Props.Reformat
import Verif.Props.Reinforce
import Verif.Props.Relabel
import Verif.Props.Reluctance
import Verif.Props.Remembering
import Verif.Props.Reveal
import Verif.Props.Rounding
import Verif.Props.RoundingAC
import Verif.Props.RoundingAlphabets
import Verif.Props.RoundingAverager
import Verif.Props.RoundingCode
import Verif.Props.RoundingFMN
import Verif.Props.RoundingFMNPredict
import Verif.Props.RoundingFast
import Verif.Props.RoundingHeights
import Verif.Props.RoundingPTW
import Verif.Props.RoundingPredict
import Verif.Props.RoundingTower
import Verif.Props.RunCount
import Verif.Props.SADRedundancy
import Verif.Props.SameObject
import Verif.Props.Saving
import Verif.Props.Sensors
import Verif.Props.SensorsWidth
import Verif.Props.Shallow
import Verif.Props.Sources
import Verif.Props.Splitting
import Verif.Props.Stopped
import Verif.Props.Stores
import Verif.Props.Stream
import Verif.Props.Strings
import Verif.Props.Structures
import Verif.Props.StructuresMore
import Verif.Props.Threads
import Verif.Props.TotalLoss
import Verif.Props.Unseen
import Verif.Props.Vectors
import Verif.Props.Weights
import Verif.Props.Window
import Verif.Props.Z
import Verif.Props.ZipFiles
import Verif.Py
import Verif.Spec.Actions
import Verif.Spec.Bernoulli
import Verif.Spec.CTW
import Verif.Spec.CTWHeap
import Verif.Spec.CTWHeapWrap
import Verif.Spec.Categorical
import Verif.Spec.Changing
import Verif.Spec.CoinFlip
import Verif.Spec.Compose
import Verif.Spec.ContextCode
import Verif.Spec.Convergence
import Verif.Spec.Copy
import Verif.Spec.Cycle
import Verif.Spec.Dirichlet
import Verif.Spec.Entering
import Verif.Spec.FMN
import Verif.Spec.Failures
import Verif.Spec.Frames
import Verif.Spec.Frozen
import Verif.Spec.IntText
import Verif.Spec.Interrupted
import Verif.Spec.Jobs
import Verif.Spec.Literals
import Verif.Spec.Logs
import Verif.Spec.Memory
import Verif.Spec.Mirror
import Verif.Spec.Order
import Verif.Spec.OutOfRange
import Verif.Spec.PTW
import Verif.Spec.PTWMap
import Verif.Spec.Patterns
import Verif.Spec.Pomdp
import Verif.Spec.Predictor
import Verif.Spec.Prunings
import Verif.Spec.Range
import Verif.Spec.Reinforce
import Verif.Spec.Relabel
import Verif.Spec.RoundingAC
import Verif.Spec.RoundingAlphabets
import Verif.Spec.RoundingFMN
import Verif.Spec.RoundingFMNPredict
import Verif.Spec.RoundingFast
import Verif.Spec.RoundingPredict
import Verif.Spec.RoundingTower
import Verif.Spec.RunCount
import Verif.Spec.Runs
import Verif.Spec.SADRedundancy
import Verif.Spec.Structures
import Verif.Spec.Threads
import Verif.Spec.Unseen
import Verif.Spec.Weights
import Verif.Spec.Window
import Verif.Spec.Z
