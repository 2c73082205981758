import Verif.Model.Alpha
import Verif.Model.Backend
import Verif.Model.Batch
import Verif.Model.Caught
import Verif.Model.Collation
import Verif.Model.CommandLine
import Verif.Model.Concurrent
import Verif.Model.Count
import Verif.Model.Destroy
import Verif.Model.Display
import Verif.Model.Edge
import Verif.Model.Encode
import Verif.Model.Extractor
import Verif.Model.Frames
import Verif.Model.History
import Verif.Model.HyperGraph
import Verif.Model.Lazy
import Verif.Model.Limit
import Verif.Model.MySql
import Verif.Model.MyStatements
import Verif.Model.Open
import Verif.Model.Overflow
import Verif.Model.Params
import Verif.Model.Parser
import Verif.Model.Perm
import Verif.Model.Queries
import Verif.Model.SemTree
import Verif.Model.Server
import Verif.Model.Sql
import Verif.Model.Stages
import Verif.Model.Statements
import Verif.Model.Symbol
import Verif.Model.Token
import Verif.Model.WikiDump
import Verif.Model.Wordnet
import Verif.Proofs.Abs
import Verif.Proofs.Account
import Verif.Proofs.AlphaHeap
import Verif.Proofs.AlphaLayers
import Verif.Proofs.AlphaPure
import Verif.Proofs.AlphaRun
import Verif.Proofs.AlphaStage
import Verif.Proofs.BetaRun
import Verif.Proofs.Budget
import Verif.Proofs.Buffer
import Verif.Proofs.Calm
import Verif.Proofs.CandFind
import Verif.Proofs.CandHeap
import Verif.Proofs.CandRun
import Verif.Proofs.CandStage
import Verif.Proofs.CandValue
import Verif.Proofs.Caught
import Verif.Proofs.ChoiceRun
import Verif.Proofs.CollRead
import Verif.Proofs.CollRun
import Verif.Proofs.CollWrite
import Verif.Proofs.Conc
import Verif.Proofs.ConcAct
import Verif.Proofs.ConcAlone
import Verif.Proofs.ConcBounds
import Verif.Proofs.ConcBudget
import Verif.Proofs.ConcDestroy
import Verif.Proofs.ConcKilled
import Verif.Proofs.ConcNote
import Verif.Proofs.ConcShare
import Verif.Proofs.ConcStep
import Verif.Proofs.ConcSys
import Verif.Proofs.Count
import Verif.Proofs.CountRun
import Verif.Proofs.CountTame
import Verif.Proofs.DeltaHeap
import Verif.Proofs.DeltaRead
import Verif.Proofs.DeltaRun
import Verif.Proofs.DeltaStage
import Verif.Proofs.Edge
import Verif.Proofs.Encode
import Verif.Proofs.EncodeRun
import Verif.Proofs.EpsilonRun
import Verif.Proofs.ExtractorErr
import Verif.Proofs.FitRun
import Verif.Proofs.FrOr
import Verif.Proofs.FrRun
import Verif.Proofs.FrSql
import Verif.Proofs.FrText
import Verif.Proofs.GammaRun
import Verif.Proofs.Hist
import Verif.Proofs.Import
import Verif.Proofs.Junk
import Verif.Proofs.Known
import Verif.Proofs.Lazy
import Verif.Proofs.Limit
import Verif.Proofs.LimitRun
import Verif.Proofs.Literal
import Verif.Proofs.Misread
import Verif.Proofs.MyActs
import Verif.Proofs.MyBook
import Verif.Proofs.MyBudget
import Verif.Proofs.MyField
import Verif.Proofs.MyFrame
import Verif.Proofs.MyLedger
import Verif.Proofs.MyNote
import Verif.Proofs.MyQuery
import Verif.Proofs.MyRuns
import Verif.Proofs.MySql
import Verif.Proofs.MySqlRun
import Verif.Proofs.MySqlStamps
import Verif.Proofs.MyStm
import Verif.Proofs.MyTree
import Verif.Proofs.MyWhole
import Verif.Proofs.Ops
import Verif.Proofs.Pad
import Verif.Proofs.Parse
import Verif.Proofs.ParserRun
import Verif.Proofs.Partial
import Verif.Proofs.Perm
import Verif.Proofs.PipelineRun
import Verif.Proofs.Query
import Verif.Proofs.Quiet
import Verif.Proofs.Range
import Verif.Proofs.Rel
import Verif.Proofs.Repair
import Verif.Proofs.Row
import Verif.Proofs.Server
import Verif.Proofs.Settles
import Verif.Proofs.Sim
import Verif.Proofs.StageRead
import Verif.Proofs.Step
import Verif.Proofs.Stm
import Verif.Proofs.StmActs
import Verif.Proofs.StmAtomic
import Verif.Proofs.StmCoarse
import Verif.Proofs.StmEnds
import Verif.Proofs.StmJoin
import Verif.Proofs.StmProgram
import Verif.Proofs.StmSim
import Verif.Proofs.StoreHead
import Verif.Proofs.StoreText
import Verif.Proofs.Str
import Verif.Proofs.Symbol
import Verif.Proofs.Sync
import Verif.Proofs.Tally
import Verif.Proofs.Tame
import Verif.Proofs.TreeHeap
import Verif.Proofs.View
import Verif.Proofs.Wordnet
import Verif.Proofs.World
import Verif.Props.Account
import Verif.Props.Atomic
import Verif.Props.BatchUse
import Verif.Props.Bounds
import Verif.Props.Budget
import Verif.Props.Buffer
import Verif.Props.Caught
import Verif.Props.Choice
import Verif.Props.Collation
import Verif.Props.CommandLine
import Verif.Props.Concurrent
import Verif.Props.Count
import Verif.Props.Crash
import Verif.Props.Destroy
import Verif.Props.Display
import Verif.Props.Durable
import Verif.Props.EdgeCentre
import Verif.Props.EdgeDegree
import Verif.Props.Encode
import Verif.Props.Filters
import Verif.Props.Frames
import Verif.Props.Graph
import Verif.Props.History
import Verif.Props.Import
import Verif.Props.Killed
import Verif.Props.Knowledge
import Verif.Props.Lazy
import Verif.Props.Limit
import Verif.Props.MyClients
import Verif.Props.MyEdges
import Verif.Props.MyRaces
import Verif.Props.MySql
import Verif.Props.MyWhole
import Verif.Props.NullBackend
import Verif.Props.Open
import Verif.Props.Overflow
import Verif.Props.Parsing
import Verif.Props.Perm
import Verif.Props.Queries
import Verif.Props.Races
import Verif.Props.ReadText
import Verif.Props.Rearrange
import Verif.Props.RepoTests
import Verif.Props.Server
import Verif.Props.Session
import Verif.Props.Statements
import Verif.Props.StoreText
import Verif.Props.Symbol
import Verif.Props.Tally
import Verif.Props.Text
import Verif.Props.WikiDump
import Verif.Props.Wordnet
import Verif.Py.Basic
import Verif.Py.Half
import Verif.Py.Val
import Verif.Spec.Account
import Verif.Spec.Added
import Verif.Spec.Alpha
import Verif.Spec.AtomCount
import Verif.Spec.BatchUse
import Verif.Spec.Bounds
import Verif.Spec.Budget
import Verif.Spec.Buffer
import Verif.Spec.Calm
import Verif.Spec.Candidates
import Verif.Spec.Caught
import Verif.Spec.Collation
import Verif.Spec.CommandLine
import Verif.Spec.Concurrent
import Verif.Spec.Count
import Verif.Spec.Crash
import Verif.Spec.Delta
import Verif.Spec.Destroy
import Verif.Spec.Encode
import Verif.Spec.Epsilon
import Verif.Spec.Fit
import Verif.Spec.Frames
import Verif.Spec.History
import Verif.Spec.Import
import Verif.Spec.Kept
import Verif.Spec.Lazy
import Verif.Spec.Match
import Verif.Spec.MyShare
import Verif.Spec.MySql
import Verif.Spec.Overflow
import Verif.Spec.Parse
import Verif.Spec.Pipeline
import Verif.Spec.Races
import Verif.Spec.Reads
import Verif.Spec.Rep
import Verif.Spec.STree
import Verif.Spec.Server
import Verif.Spec.Stages
import Verif.Spec.StoreText
import Verif.Spec.Tally
import Verif.Spec.View
import Verif.Spec.Vocab
import Verif.Spec.Wf
import Verif.Spec.WikiDump
import Verif.Spec.Witness
import Verif.Spec.WitnessHist
import Verif.Spec.WitnessText
import Verif.Spec.Wordnet
