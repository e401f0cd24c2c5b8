import Verif.Spec.SyncRace
import Verif.Model.Resync
import Verif.Spec.Search
/-!
# Resyncs while others ingest and commit
-/

namespace Splitgill

/-- The latest index as splitgill fills it: each document is under the id of its record, and has no end. Nothing is said about what it is of
the record, which records there are, or about the archives. -/
structure TidyLatest {P : Type} (es : ES P) : Prop where
  ok : LatestOk es
  docs : ∀ id d, (some id, d) ∈ es.docs .latest → d.id = id ∧ d.version = d.gte ∧ d.lt = none ∧ d.next = none

/-- A record that is there, with nothing uncommitted, when a resync starts, and that the resync reads: it is then as it is in any of the
states, so others may have changed it and committed that. It is deleted in none of the states. (`noPuns` as for `QuietRecord`.) -/
structure ReadRecord (U : Unicode) (db : PyStr) (b : BusySync) (id : PyStr) : Prop where
  committed : ∃ r ∈ (afterCalls U db b.before).data db, r.id = id ∧ r.version ≠ none
  read : id ∈ (b.cursor (fun r => r.version.isSome)).map MongoRecord.id
  notDeleted : ∀ m ∈ (b.long U db []).during, ¬ DeletedNow (histOf (m.data db) id)
  noPuns : NoPunsAmong U ((b.calls.flatMap ApiCall.stream).filter (fun r => decide (r.id = id)))

/-- A record that is there, with nothing uncommitted, when a resync starts, and that nobody ingests while it runs. -/
structure CommittedUntouched (U : Unicode) (db : PyStr) (b : BusySync) (id : PyStr) : Prop where
  committed : ∃ r ∈ (afterCalls U db b.before).data db, r.id = id ∧ r.version ≠ none
  notIngested : ∀ c ∈ b.meanwhile, ∀ r ∈ c.stream, r.id ≠ id

/-- Version and data of what is found for a record. -/
def foundData {P : Type} (es : ES P) (v : Int) (id : PyStr) : List (Int × P) :=
  (foundFor es (.version v) id).map (fun d => (d.version, d.parsed))

end Splitgill
