import Verif.Runner
import Verif.FilterLemmas
import Verif.WorldLemmas
import Verif.AppendLemmas
import Verif.ReadLemmas
import Verif.ScanLemmas
import Verif.StatsLemmas
import Verif.StorageLemmas
import Verif.DeleteLemmas
import Verif.DeleteSem
import Verif.Mutations
import Verif.TxnLemmas
import Verif.Calls
import Verif.Sys
import Verif.TableRead
import Verif.Demo
import Verif.History
import Verif.Versions
import Verif.Props.Versions
import Verif.Props.Refs
import Verif.Props.Txn
import Verif.Crash
import Verif.Lazy
import Verif.Props.Crash
import Verif.ReadSpec
import Verif.Props.Reading
import Verif.Effects
import Verif.KeyFilter
import Verif.RowEffects
import Verif.Progress
import Verif.Landing
import Verif.Props.Append
import Verif.Props.Delete
import Verif.Props.Keys
import Verif.StatsInv
import Verif.Props.Stats
import Verif.Props.Merge
import Verif.Props.Records
import Verif.Props.Loads
import Verif.Paths
import Verif.Props.Paths
import Verif.RowIds
import Verif.Props.RowIds
import Verif.Changes
import Verif.Diffs
import Verif.Props.Diff
import Verif.Schema
import Verif.SchemaSpec
import Verif.SchemaLemmas
import Verif.Props.Schema
import Verif.RandomAccess
import Verif.RandomAccessLemmas
import Verif.Props.Access
import Verif.Serializers
import Verif.Props.Serializers
import Verif.Plans
import Verif.PlansLemmas
import Verif.Props.Plans
import Verif.Catalog
import Verif.CatalogLemmas
import Verif.Props.Catalog
import Verif.Ray
import Verif.RayLemmas
import Verif.Props.Ray
import Verif.Views
import Verif.ViewLemmas
import Verif.Props.Views
import Verif.Join
import Verif.JoinLemmas
import Verif.Props.Join
import Verif.RayWrite
import Verif.ActorLemmas
import Verif.Gather
import Verif.Bodies
import Verif.RayProgress
import Verif.Props.RayWrite
import Verif.RayDelete
import Verif.Props.RayDelete
import Verif.MV
import Verif.MVLemmas
import Verif.MVLoop
import Verif.MVSource
import Verif.MVHistory
import Verif.Props.MV
import Verif.Memory
import Verif.Refine
import Verif.RefineStep
import Verif.Props.Refine
import Verif.Filled
import Verif.Props.Files
import Verif.Shared
import Verif.Serial
import Verif.Props.Serial
import Verif.Props.Conflict
import Verif.Props.WriteOnce
import Verif.Distinct
import Verif.Props.Distinct
import Verif.Source
import Verif.SourceLemmas
import Verif.Props.Source
import Verif.Props.JoinSource
import Verif.JoinFold
import Verif.Props.RecStats
import Verif.StatsEffect
import Verif.Props.StatsEffect
import Verif.BytesEffect
import Verif.Props.BytesEffect
import Verif.UpsertMarked
import Verif.Props.UpsertMarked
import Verif.Props.DiffCount
import Verif.StatsExact
import Verif.Props.Pruning
import Verif.Props.Listing
import Verif.AtomicWrite
import Verif.AtomicWriteLemmas
import Verif.Props.AtomicWrite
import Verif.LazyImport
import Verif.Props.LazyImport
import Verif.Props.RayCounts
import Verif.Jobs
import Verif.Props.Jobs
import Verif.Props.Naming
import Verif.Props.Columns
import Verif.Props.Options
import Verif.Props.OverJoin
import Verif.Chains
import Verif.RefreshJobs
import Verif.Props.RefreshJobs
import Verif.Props.Failed
import Verif.Props.Leaves
import Verif.Props.ColumnsOver
import Verif.Props.Sound
import Verif.Props.Sizes
import Verif.AllSteps
import Verif.Props.Answers
import Verif.Orphans
import Verif.Props.Orphans
import Verif.Props.Repeat
import Verif.Props.Undo
import Verif.Props.Leftover
import Verif.Props.Line
import Verif.Props.IndexFiles
import Verif.Listed
import Verif.Packing
import Verif.RecPacking
import Verif.Props.Packing
import Verif.Touched
import Verif.Props.Touched
import Verif.Props.RayPacking
import Verif.Props.DeletePacking
import Verif.Props.TwoDeletes
import Verif.Props.RayInsertPacking
import Verif.Props.TwoUpserts
import Verif.Props.UpsertPacking
import Verif.Props.AddDelete
import Verif.Props.InsertRecords
import Verif.Props.RefreshTouched
import Verif.Props.RefreshAnswers
import Verif.Props.UpsertTurns
import Verif.Props.InsertTurns
import Verif.Props.ShownDeleted
import Verif.Props.ReadWrites
import Verif.Props.PutBack
import Verif.Props.TwoFilters
import Verif.Props.CommitDiff
