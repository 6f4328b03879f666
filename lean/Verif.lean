import Verif.Journal.Theorems
import Verif.Lex.RawTheorems
import Verif.Data.LayersTheorems
import Verif.Num.Theorems
import Verif.Lex.LexerTheorems
import Verif.Net.ExchangeTheorems
import Verif.Net.HandshakeTheorems
import Verif.Lex.TextTheorems
import Verif.Journal.Order
import Verif.Enc.Theorems
import Verif.Gns.DictTheorems
import Verif.Gns.Theorems
import Verif.Header.Theorems
import Verif.Dml.UpdateTheorems
import Verif.Dml.NonNull
import Verif.Net.Reply
import Verif.Batch.Model
import Verif.Batch.Restore
import Verif.Batch.Sync
import Verif.Batch.SyncStmt
import Verif.Batch.Flush
import Verif.Batch.Vals
import Verif.Batch.Bytes
import Verif.Batch.Commit
import Verif.Batch.Life
import Verif.Batch.LifeTheorems
import Verif.Batch.Crash
import Verif.Batch.Conc
import Verif.Batch.Many
import Verif.Batch.ManyLog
import Verif.Batch.ManyInv
import Verif.Batch.ManyPast
import Verif.Batch.ManyTheorems
import Verif.Batch.ManyAll
import Verif.Batch.Task
import Verif.Batch.TaskTheorems
import Verif.Fractal.Health
import Verif.Trie.Model
import Verif.Trie.Lemmas
import Verif.Trie.Theorems
import Verif.Ord.Model
import Verif.Ord.Lemmas
import Verif.Ord.Refine
import Verif.Ord.Loops
import Verif.Ord.Theorems
import Verif.Locks.Model
import Verif.Locks.Order
import Verif.Locks.Stmts
import Verif.Locks.Catalogue
import Verif.Locks.Theorems
import Verif.Conc.Lin
import Verif.Queue.Model
import Verif.Queue.Inv
import Verif.Queue.Steps
import Verif.Queue.Theorems
import Verif.Conc.Seen
import Verif.Trie.Conc.Model
import Verif.Trie.Conc.Inv
import Verif.Trie.Conc.Write
import Verif.Trie.Conc.Moves
import Verif.Trie.Conc.Steps
import Verif.Trie.Conc.Theorems
import Verif.Trie.Conc.Solo
import Verif.Ql.State
import Verif.Ql.Syn
import Verif.Ql.Ddl
import Verif.Ql.DmlParse
import Verif.Ql.Dispatch
import Verif.Ql.Wp
import Verif.Ql.Safe
import Verif.Ql.SafeDdl
import Verif.Ql.SafeDml
import Verif.Ql.Theorems
import Verif.Ql.Runs
import Verif.Ql.Grammar
import Verif.Ql.SoundDict
import Verif.Ql.SoundDdl
import Verif.Ql.SoundDml
import Verif.Ql.Sound
import Verif.Ql.CompDict
import Verif.Ql.CompDdl
import Verif.Ql.CompDml
import Verif.Ql.Complete
import Verif.Ql.Meaning
import Verif.Server.Model
import Verif.Server.Theorems
import Verif.Server.Json
import Verif.Server.Inspect
import Verif.Server.Names
import Verif.Server.InspectTheorems
import Verif.Server.Frame
import Verif.Server.Lift
import Verif.Server.Tables
import Verif.Cli.ParamTheorems
import Verif.Mem.VInlineTheorems
import Verif.Mem.UArray
import Verif.Mem.FixedVec
import Verif.Mem.Names
import Verif.Mem.NameHash
import Verif.Sync.Rc
import Verif.Config.More
import Verif.Server.WholeTheorems
import Verif.Dml.ParExamples
import Verif.Dml.ParErase
import Verif.Server.UpgradeTheorems
import Verif.Old.LogTheorems
import Verif.Old.DataTheorems
import Verif.Old.LoadTheorems
import Verif.Old.Backup
import Verif.Cli.ReplTheorems
import Verif.Cli.RespTheorems
import Verif.Cli.ArgsTheorems
import Verif.Server.Hub
import Verif.Server.HubTheorems
import Verif.Server.HubLemmas
import Verif.Server.HubClients
import Verif.Server.HubAccounts
import Verif.Fractal.Halt
import Verif.Fractal.HaltTheorems
import Verif.Fractal.Limit
import Verif.Enc.Tags
import Verif.Fractal.Periodic
import Verif.Fractal.Urgent
import Verif.Net.Listener
import Verif.Net.Writer
import Verif.Os.Pid
import Verif.Mem.Word
import Verif.Mem.ValueTheorems
import Verif.Locks.DdlTheorems
import Verif.Locks.Traces
import Verif.Bench.Theorems
import Verif.Bench.Rookie
import Verif.Bench.Report
import Verif.Vfs.Model
import Verif.Vfs.Spec
import Verif.Vfs.Tree
import Verif.Vfs.Theorems
import Verif.Weak.Rc
import Verif.Weak.QueueTheorems
import Verif.Weak.DeltasTheorems
import Verif.Weak.Index
import Verif.Weak.IndexSc
import Verif.Weak.IndexInv
import Verif.Weak.IndexSwap
import Verif.Weak.IndexSwapLog
import Verif.Weak.IndexExt
import Verif.Weak.IndexFreeze
import Verif.Weak.IndexSteps
import Verif.Weak.IndexWrites
import Verif.Weak.IndexTheorems
import Verif.Dml.Answered
import Verif.Server.Answered
import Verif.Dml.ParLive
import Verif.Batch.ManyLive
import Verif.Weak.Lazy
import Verif.Server.FailedStart
import Verif.Server.SiteTheorems
import Verif.Server.Damage
import Verif.Conform.Base
import Verif.Conform.Lexer
import Verif.Conform.Parser
import Verif.Conform.ParserSchema
import Verif.Conform.ParserFuzz
import Verif.Conform.Units
import Verif.Conform.Exec
import Verif.Conform.Store
import Verif.Conform.Structs
import Verif.Conform.Values
import Verif.Conform.Client
import Verif.Diag.Theorems
