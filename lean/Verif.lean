import Verif.Props.Diffing
import Verif.Props.PatchInputs
import Verif.Props.History
import Verif.Props.Options
import Verif.Props.Locks
import Verif.Props.World
import Verif.Props.Utils
import Verif.Props.Prepare
import Verif.Props.Index
import Verif.Props.Sync
import Verif.Props.Life
import Verif.Props.Search
import Verif.Props.Bulk
import Verif.Props.Names
import Verif.Props.Parse
import Verif.Props.Time
import Verif.Props.Query
import Verif.Props.Query2
import Verif.Props.Geo
import Verif.Props.Fields
import Verif.Props.Concurrent
import Verif.Props.Exact
import Verif.Props.ParseOrder
import Verif.Props.EndToEnd
import Verif.Props.SyncRace
import Verif.Props.Cache
import Verif.Model.CircleCache
import Verif.Props.CircleCache
import Verif.Props.Crash
import Verif.Props.Filter
import Verif.Spec.OptHist
import Verif.Proof.OptHist
import Verif.Props.OptHist
import Verif.Spec.Versions
import Verif.Proof.Versions
import Verif.Props.Versions
import Verif.Spec.Schedule
import Verif.Proof.Schedule
import Verif.Props.Schedule
import Verif.Proof.Copied
import Verif.Spec.Text
import Verif.Proof.Text
import Verif.Props.Text
import Verif.Spec.Places
import Verif.Proof.Places
import Verif.Props.Places
import Verif.Model.Procs
import Verif.Spec.Procs
import Verif.Proof.Procs
import Verif.Proof.Procs2
import Verif.Props.Procs
import Verif.Props.DateText
import Verif.Model.DateText
import Verif.Spec.DateText
import Verif.Proof.DateText
import Verif.Model.Visible
import Verif.Spec.Visible
import Verif.Proof.Visible
import Verif.Props.Visible
import Verif.Spec.Repeat
import Verif.Proof.Repeat
import Verif.Props.Repeat
import Verif.Model.OptProcs
import Verif.Spec.OptProcs
import Verif.Proof.OptProcs
import Verif.Props.OptProcs
import Verif.Spec.Stable
import Verif.Proof.Stable
import Verif.Props.Stable
import Verif.Spec.Each
import Verif.Proof.Each
import Verif.Proof.Each2
import Verif.Props.Each
import Verif.Model.LockDocs
import Verif.Spec.LockDocs
import Verif.Proof.LockDocs
import Verif.Props.LockDocs
import Verif.Spec.Stale
import Verif.Proof.Stale
import Verif.Props.Stale
import Verif.Model.Raises
import Verif.Spec.Raises
import Verif.Proof.Raises
import Verif.Proof.Raises2
import Verif.Props.Raises
import Verif.Model.Json
import Verif.Spec.Json
import Verif.Proof.Json
import Verif.Proof.Json2
import Verif.Proof.Json3
import Verif.Props.Json
import Verif.Proof.Json4
import Verif.Proof.Json5
import Verif.Spec.PatchHeap
import Verif.Proof.PatchHeap2
import Verif.Proof.PatchHeap3
import Verif.Props.PatchSharing
import Verif.Model.RaisesWrite
import Verif.Spec.RaisesWrite
import Verif.Proof.RaisesWrite
import Verif.Props.RaisesWrite
import Verif.Model.Mapping
import Verif.Spec.Mapping
import Verif.Proof.Mapping
import Verif.Proof.Mapping2
import Verif.Props.Mapping
import Verif.Model.Bson
import Verif.Spec.Bson
import Verif.Proof.Bson
import Verif.Proof.Bson2
import Verif.Proof.Bson3
import Verif.Props.Bson
import Verif.Model.FieldLimit
import Verif.Spec.FieldLimit
import Verif.Proof.FieldLimit
import Verif.Proof.FieldLimit2
import Verif.Props.FieldLimit
import Verif.Model.FieldProps
import Verif.Spec.FieldProps
import Verif.Proof.FieldProps
import Verif.Proof.FieldProps2
import Verif.Props.FieldProps
import Verif.Props.FieldCalls
import Verif.Props.FieldSteps
import Verif.Model.Wire
import Verif.Spec.Wire
import Verif.Proof.Wire
import Verif.Proof.Wire2
import Verif.Props.Wire
import Verif.Proof.CrashQueries
import Verif.Props.CrashQueries
import Verif.Props.Current
import Verif.Props.Doubles
import Verif.Props.Entries
import Verif.Props.Aggregations
import Verif.Props.DateReads
import Verif.Props.OptCalls
import Verif.Props.NumberText
import Verif.Props.FloatText
import Verif.Props.Coordinates
import Verif.Props.JsonFloat
import Verif.Props.Depth
import Verif.Props.Zeros
import Verif.Props.IndexNames
import Verif.Props.GeoFloat
import Verif.Props.Levels
import Verif.Props.Batches
import Verif.Props.Size
import Verif.Props.Writers
import Verif.Spec.SyncRace
import Verif.Proof.SyncRace2
import Verif.Proof.SyncRace3
import Verif.Props.SyncRace2
import Verif.Props.ResyncRace
import Verif.Props.WriterHist
import Verif.Props.BulkBound
import Verif.Props.IngestSteps
import Verif.Props.Reads
import Verif.Props.Overlap
import Verif.Props.BsonBytes
import Verif.Proof.TimeFar
import Verif.Proof.TimeFar2
import Verif.Proof.Exponents
import Verif.Props.Exponents
import Verif.Model.BsonStore
import Verif.Spec.BsonOptions
import Verif.Proof.BsonOptions
import Verif.Proof.BsonSteps
import Verif.Props.BsonSteps
import Verif.Props.Repair
import Verif.Props.Now
import Verif.Props.Ever
import Verif.Props.OverlapQueries
import Verif.Props.StableAll
import Verif.Props.NowEach
import Verif.Props.EverEach
import Verif.Props.StepsEach
import Verif.Props.RaceEach
import Verif.Props.Isolated
import Verif.Props.StableEach
import Verif.Props.VersionsEach
import Verif.Props.Truthful
import Verif.Props.TruthfulSteps
import Verif.Props.TruthfulRace
