import Verif.Hopper.Spec
import Verif.Hopper.Model
import Verif.Hopper.Lemmas
import Verif.Hopper.Basic
import Verif.Hopper.Contain
import Verif.Hopper.Merge
import Verif.Hopper.Array
import Verif.Hopper.Model2
import Verif.Hopper.Enum
import Verif.Hopper.Vector
import Verif.Hopper.Calls
import Verif.Hopper.MergeAll
import Verif.Gcl.Spec
import Verif.Gcl.Model
import Verif.Gcl.Proof
import Verif.Gcl.Optimize
import Verif.Gcl.ParseModel
import Verif.Gcl.ParseProof
import Verif.Gcl.Phrase
import Verif.Gcl.Grammar
import Verif.Store.Bytes
import Verif.Store.PostModel
import Verif.Store.PostProof
import Verif.Store.TfdfModel
import Verif.Store.TfdfProof
import Verif.Store.PostingModel
import Verif.Store.PostingProof
import Verif.Store.MergeProof
import Verif.Store.IndexModel
import Verif.Store.IndexProof
import Verif.Store.BuildProof
import Verif.Store.ShardMerge
import Verif.Props.Query
import Verif.Props.Store
import Verif.Txn.Model
import Verif.Txn.Inv
import Verif.Txn.Steps
import Verif.Txn.Steps2
import Verif.Txn.Steps3
import Verif.Txn.Steps4
import Verif.Txn.Steps5
import Verif.Txn.Survey
import Verif.Txn.Quiet
import Verif.Txn.Recover
import Verif.Txn.Boot
import Verif.Txn.Reopen
import Verif.Txn.System
import Verif.Txn.Again
import Verif.Txn.Committable
import Verif.Txn.Contents
import Verif.Txn.Session
import Verif.Txn.Live
import Verif.Props.Txn
import Verif.Txn.Cache
import Verif.Props.EndToEnd
import Verif.Props.Cache
import Verif.Props.Recovery
import Verif.Names.Model
import Verif.Names.Proof
import Verif.Props.Names
import Verif.Hazel.Model
import Verif.Hazel.Proof
import Verif.Hazel.File
import Verif.Hazel.Merge
import Verif.Hazel.MergeProof
import Verif.Hazel.Resume
import Verif.Hazel.Shards
import Verif.Hazel.Sources
import Verif.Props.Hazel
import Verif.Props.HazelMerge
import Verif.Text.Spec
import Verif.Text.Ascii
import Verif.Text.Utf8
import Verif.Text.Scan
import Verif.Text.AsciiProof
import Verif.Text.Utf8Proof
import Verif.Text.Join
import Verif.Text.Words
import Verif.Text.WordsProof
import Verif.Text.Fiver
import Verif.Text.Layout
import Verif.Props.Tokens
import Verif.Text.Reading
import Verif.Text.History
import Verif.Text.Clean
import Verif.Props.Text
import Verif.Recipe.Model
import Verif.Recipe.Spec
import Verif.Recipe.Proof
import Verif.Props.Recipe
import Verif.Text.Across
import Verif.Recipe.Options
import Verif.Recipe.OptionsProof
import Verif.Props.Options
import Verif.Props.TxtIO
import Verif.TxtIO.Model
import Verif.TxtIO.Spec
import Verif.TxtIO.Proof
import Verif.TxtIO.Recover
import Verif.Feature.Model
import Verif.Feature.Spec
import Verif.Feature.Proof
import Verif.Feature.Murmur
import Verif.Props.Feature
import Verif.Text.Cut
import Verif.SimpleText.Model
import Verif.SimpleText.Spec
import Verif.SimpleText.Records
import Verif.SimpleText.Append
import Verif.SimpleText.Reading
import Verif.Props.SimpleText
import Verif.Props.Stream
import Verif.Static.Model
import Verif.Static.Spec
import Verif.Static.Files
import Verif.Static.History
import Verif.Static.Lookup
import Verif.Static.Build
import Verif.Props.Static
import Verif.Crash.Model
import Verif.Crash.Spec
import Verif.Crash.Proof
import Verif.Props.Crash
import Verif.Json.Spec
import Verif.Json.Model
import Verif.Json.Proof
import Verif.Json.Notes
import Verif.Json.Places
import Verif.Json.Read
import Verif.Props.Json
import Verif.HazelText.Model
import Verif.HazelText.Data
import Verif.HazelText.Window
import Verif.HazelText.Shard
import Verif.HazelText.Freeze
import Verif.HazelText.Mixed
import Verif.Props.HazelText
import Verif.Pickle.Proof
import Verif.Props.Pickle
import Verif.Rank.Spec
import Verif.Rank.Model
import Verif.Rank.Top
import Verif.Rank.Ssr
import Verif.Rank.Loop
import Verif.Rank.Parallel
import Verif.Props.Ranking
import Verif.Rank.WandSpec
import Verif.Rank.WandModel
import Verif.Rank.Wand
import Verif.Rank.TfModel
import Verif.Rank.Tf
import Verif.Props.Bm25
import Verif.Terms.Spec
import Verif.Terms.Model
import Verif.Terms.Proof
import Verif.Terms.Run
import Verif.Terms.Read
import Verif.Props.Terms
import Verif.Label.Model
import Verif.Label.Proof
import Verif.Props.Label
import Verif.Append.Model
import Verif.Append.Proof
import Verif.Props.Append
import Verif.Tsv.Model
import Verif.Tsv.Spec
import Verif.Tsv.Proof
import Verif.Props.Tsv
import Verif.Gate.Model
import Verif.Gate.Proof
import Verif.Props.Gate
import Verif.Fastid.Model
import Verif.Fastid.Proof
import Verif.Props.Fastid
import Verif.Paths.Model
import Verif.Paths.Proof
import Verif.Props.Paths
import Verif.Sanitize.Model
import Verif.Sanitize.Spec
import Verif.Sanitize.Proof
import Verif.Props.Sanitize
import Verif.Sched.Model
import Verif.Sched.Proof
import Verif.Sched.Runs
import Verif.Props.Sched
import Verif.Scribing.Model
import Verif.Scribing.Proof
import Verif.Props.Scribing
import Verif.Stem.Spec
import Verif.Stem.Model
import Verif.Stem.Proof
import Verif.Stem.Steps
import Verif.Stem.Shape
import Verif.Props.Stem
import Verif.Cache.Gate
import Verif.Cache.Obtain
import Verif.Cache.Model
import Verif.Cache.Proof
import Verif.Props.Readers
import Verif.Rank.CombineModel
import Verif.Rank.CombineSpec
import Verif.Rank.Combine
import Verif.Rank.TiersModel
import Verif.Rank.Tiers
import Verif.Props.Combine
import Verif.Rank.CoverModel
import Verif.Rank.CoverSpec
import Verif.Rank.Cover
import Verif.Props.Cover
import Verif.Eval.Model
import Verif.Eval.Spec
import Verif.Eval.Proof
import Verif.Eval.Gain
import Verif.Eval.Med
import Verif.Eval.Mean
import Verif.Props.Eval
import Verif.Mt.Model
import Verif.Mt.Spec
import Verif.Mt.Scan
import Verif.Mt.Sound
import Verif.Mt.Complete
import Verif.Mt.Grammar
import Verif.Mt.Lines
import Verif.Mt.Print
import Verif.Props.Infix
import Verif.Rank.DaatSpec
import Verif.Rank.DaatModel
import Verif.Rank.Daat
import Verif.Props.Daat
import Verif.Pipe.Spec
import Verif.Pipe.Model
import Verif.Pipe.Proof
import Verif.Props.Pipeline
import Verif.Trec.Spec
import Verif.Trec.Model
import Verif.Trec.Proof
import Verif.Props.Trec
import Verif.Qap.Spec
import Verif.Qap.Model
import Verif.Qap.Proof
import Verif.Props.Qap
import Verif.HazelRead.Spec
import Verif.HazelRead.Model
import Verif.HazelRead.Proof
import Verif.Props.HazelReaders
import Verif.Fields.Spec
import Verif.Fields.Model
import Verif.Fields.Proof
import Verif.Props.Fields
import Verif.Idf.Spec
import Verif.Idf.Model
import Verif.Idf.Proof
import Verif.Props.Idf
import Verif.Dna.Spec
import Verif.Dna.Model
import Verif.Dna.Proof
import Verif.Props.Dna
import Verif.Convert.Model
import Verif.Convert.Proof
import Verif.Props.Convert
import Verif.Clone.Model
import Verif.Props.Clone
import Verif.Feedback.Model
import Verif.Feedback.Spec
import Verif.Feedback.Proof
import Verif.Feedback.Gaps
import Verif.Props.Feedback
import Verif.Extsort.Model
import Verif.Extsort.Spec
import Verif.Extsort.Proof
import Verif.Props.Extsort
import Verif.Inhale.Model
import Verif.Inhale.Spec
import Verif.Inhale.Proof
import Verif.Props.Inhale
import Verif.HazelDna.Model
import Verif.HazelDna.Spec
import Verif.HazelDna.Proof
import Verif.HazelDna.Merged
import Verif.HazelDna.Merge
import Verif.HazelDna.Open
import Verif.HazelDna.Steps
import Verif.Props.HazelDna
import Verif.BuilderScribe.Model
import Verif.BuilderScribe.Spec
import Verif.BuilderScribe.Proof
import Verif.Props.BuilderScribe
import Verif.Parts.Model
import Verif.Parts.Spec
import Verif.Parts.Proof
import Verif.Parts.Build
import Verif.Props.Parts
import Verif.Extent.Model
import Verif.Extent.Spec
import Verif.Extent.Threads
import Verif.Extent.Proof
import Verif.Extent.Warren
import Verif.Props.Extent
import Verif.Burrow.Model
import Verif.Burrow.Spec
import Verif.Burrow.Proof
import Verif.Burrow.Life
import Verif.Burrow.Made
import Verif.Props.Burrow
import Verif.Working.Model
import Verif.Working.Spec
import Verif.Working.Proof
import Verif.Working.Script
import Verif.Working.Crash
import Verif.Props.Working
import Verif.Member.Model
import Verif.Member.Spec
import Verif.Member.Proof
import Verif.Member.Read
import Verif.Member.Write
import Verif.Props.Member
import Verif.Unicode.Data
import Verif.Unicode.Model
import Verif.Unicode.Proof
import Verif.Unicode.Runs
import Verif.Props.Unicode
import Verif.Judge.Model
import Verif.Judge.Proof
import Verif.Props.Judge
import Verif.Eval.Tbg
import Verif.Props.Tbg
import Verif.Mt.Heap
import Verif.Mt.HeapSpec
import Verif.Mt.HeapProof
import Verif.Mt.HeapParse
import Verif.Mt.HeapTop
import Verif.Mt.HeapWorld
import Verif.Props.Memory
import Verif.Server.Model
import Verif.Server.Spec
import Verif.Server.Pages
import Verif.Server.Ranking
import Verif.Server.Document
import Verif.Server.Lives
import Verif.Props.Server
import Verif.Server.Client
import Verif.Props.Client
import Verif.Collect.Duplicates
import Verif.Props.Duplicates
import Verif.Collect.Cbor
import Verif.Collect.CborProof
import Verif.Props.Cbor
import Verif.Collect.Lines
import Verif.Props.Lines
import Verif.MergeTool.Model
import Verif.Props.MergeTool
import Verif.Splade.Model
import Verif.Props.Splade
import Verif.RankTool.Model
import Verif.Props.RankTool
import Verif.MeadowTool.Model
import Verif.Props.MeadowTool
import Verif.Tune.Model
import Verif.Props.Tune
import Verif.PrefTool.Model
import Verif.Props.PrefTool
import Verif.ExtractTool.Model
import Verif.Props.ExtractTool
import Verif.CastTool.Model
import Verif.Props.CastTool
import Verif.BuildTool.Model
import Verif.Props.BuildTool
import Verif.Browse.Model
import Verif.Props.Browse
import Verif.Feeds.Model
import Verif.Props.Feeds
import Verif.Settings.Model
import Verif.Props.Settings
import Verif.Answers.Model
import Verif.Props.Answers
import Verif.Phases.Model
import Verif.Props.Phases
import Verif.Weights.Model
import Verif.Props.Weights
import Verif.Workers.Model
import Verif.Props.Workers
import Verif.Examples.Model
import Verif.Props.Examples
import Verif.Marks.Model
import Verif.Props.Marks
import Verif.Builds.Model
import Verif.Props.Builds
import Verif.Queries.Model
import Verif.Props.Queries
import Verif.Scratch.Model
import Verif.Props.Scratch
