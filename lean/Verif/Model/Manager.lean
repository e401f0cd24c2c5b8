import Verif.Model.Ingest
import Verif.Py.DecEq
/-!
# Model of the MongoDB data side of `SplitgillDatabase` (`splitgill/manager.py`)
-/

namespace Splitgill

/-- State of the lazy pipeline `partition(generate_ops(...), size)` (manager.py:324-328): the collection,
the ops pulled from the generator but not written yet, and the lists of ops already written. -/
structure IngestState where
  coll : Coll
  buf : List MongoOp := []
  written : List (List MongoOp) := []

/-- `bulk_write` of the buffered ops. -/
def IngestState.flush (s : IngestState) : IngestState :=
  { coll := bulkWrite s.coll s.buf, buf := [], written := s.written ++ [s.buf] }

/-- `islice` pulling one more op: when `size` ops are there, `bulk_write` runs. -/
def feedOp (size : Nat) (s : IngestState) (op : MongoOp) : IngestState :=
  let s := { s with buf := s.buf ++ [op] }
  if s.buf.length < size then s else s.flush

/-- The loop over the chunks: the lookup of a chunk happens when the generator is resumed after the ops
of the previous chunk, at which time fewer than `size` ops are still unwritten. At the end the last,
short list is written (`partition` yields no empty list). -/
def ingestLoop (U : Unicode) (mf : Option PyStr) (size : Nat) :
    IngestState → List (List Record) → Except PyErr IngestState
  | s, [] => .ok (if s.buf.isEmpty then s else s.flush)
  | s, chunk :: rest =>
    match chunkOps U mf s.coll chunk with
    | .error e => .error e
    | .ok ops => ingestLoop U mf size (ops.foldl (feedOp size) s) rest

/-- `ingest(records, commit=False)` with the lookup and write batch size as a parameter
(manager.py:283-331); the code uses 200. -/
def ingestSized (U : Unicode) (mf : Option PyStr) (size : Nat) (c : Coll) (records : List Record) :
    Except PyErr IngestState :=
  ingestLoop U mf size { coll := c } (partition records size)

/-- `ingest(records, commit=False)` (manager.py:283-331): the collection afterwards. -/
def ingest (U : Unicode) (mf : Option PyStr) (c : Coll) (records : List Record) :
    Except PyErr Coll := do
  .ok (← ingestSized U mf 200 c records).coll

/-- An ingest that stops (crash, lost connection) after `n` of its writes. -/
def ingestCrash (U : Unicode) (mf : Option PyStr) (c : Coll) (records : List Record) (n : Nat) :
    Except PyErr Coll := do
  .ok (bulkWrite c ((← ingestSized U mf 200 c records).written.flatten.take n))

/-- `IngestResult` (model.py:194-212) without the version. -/
structure Counts where
  inserted : Nat := 0
  updated : Nat := 0
  deleted : Nat := 0
  deriving DecidableEq

/-- `IngestResult.update` (model.py:220-228) -/
def Counts.add (a b : Counts) : Counts :=
  ⟨a.inserted + b.inserted, a.updated + b.updated, a.deleted + b.deleted⟩

/-- What one op contributes to the `BulkWriteResult` (documented behaviour: `modified_count` counts the
documents that were really changed by an update, `deleted_count` the documents that were removed), given the
document it finds. -/
def opCounts (found : Option MongoRecord) : MongoOp → Counts
  | .insert _ _ => { inserted := 1 }
  | .delete _ => { deleted := if found.isSome then 1 else 0 }
  | op => { updated := match found with
      | none => 0
      | some d => if (applyOp [d] op) = [d] then 0 else 1 }

/-- The `BulkWriteResult` of `bulk_write(ops)`. -/
def bulkCounts : Coll → List MongoOp → Counts
  | _, [] => {}
  | c, op :: ops => (opCounts (c.find? (fun d => d.id = op.id)) op).add (bulkCounts (applyOp c op) ops)

/-- The sum over the written lists (manager.py:326-328). -/
def batchCounts : Coll → List (List MongoOp) → Counts
  | _, [] => {}
  | c, ops :: rest => (bulkCounts c ops).add (batchCounts (bulkWrite c ops) rest)

/-- The counts of the `IngestResult` returned by `ingest` (manager.py:283-334). -/
def ingestCounts (U : Unicode) (mf : Option PyStr) (c : Coll) (records : List Record) :
    Except PyErr Counts := do
  .ok (batchCounts c (← ingestSized U mf 200 c records).written)

/-- `update_many({"version": None}, {"$set": {"version": version}})` (manager.py:276-279) on the
data collection. -/
def commitColl (v : Int) (c : Coll) : Coll :=
  c.map (fun d => if d.version.isNone then { d with version := some v } else d)

/-- `has_uncommitted_data` (manager.py:398-404) -/
def hasUncommittedData (c : Coll) : Bool := c.any (fun d => d.version.isNone)

/-- A commit that stops after the documents with `done id` were updated (`update_many` is not atomic and
updates the documents in an unspecified order). -/
def commitCollCrash (v : Int) (done : PyStr → Bool) (c : Coll) : Coll :=
  c.map (fun d => if d.version.isNone && done d.id then { d with version := some v } else d)

/-- `rollback_records` (manager.py:386-396): the ops are written in lists of 200. The cursor is taken to
return the documents that were uncommitted at its start. -/
def rollbackRecords (c : Coll) : Except PyErr Coll :=
  if hasUncommittedData c then
    match rollbackOps c with
    | .error e => .error e
    | .ok ops => .ok ((partition ops 200).foldl bulkWrite c)
  else .ok c

/-- A `rollback_records` that stops after `n` of its writes. -/
def rollbackCrash (c : Coll) (n : Nat) : Except PyErr Coll :=
  if hasUncommittedData c then
    match rollbackOps c with
    | .error e => .error e
    | .ok ops => .ok (bulkWrite c (ops.take n))
  else .ok c

/-- `list(iter_records(filter={"id": id}))` when there is at most one: the record with an id. -/
def findRecord (id : PyStr) (c : Coll) : Option MongoRecord := c.find? (fun d => d.id = id)

/-- What can happen to the data collection of a database. -/
inductive Event
  | ingest (modifiedField : Option PyStr) (records : List Record)
  | commit (v : Int)
  | rollback
  | ingestCrash (modifiedField : Option PyStr) (records : List Record) (n : Nat)
  | commitCrash (v : Int) (done : PyStr → Bool)
  | rollbackCrash (n : Nat)

/-- The effect of an event on the data collection. -/
def Event.run (U : Unicode) (c : Coll) : Event → Except PyErr Coll
  | .ingest mf rs => Splitgill.ingest U mf c rs
  | .commit v => .ok (commitColl v c)
  | .rollback => rollbackRecords c
  | .ingestCrash mf rs n => Splitgill.ingestCrash U mf c rs n
  | .commitCrash v done => .ok (commitCollCrash v done c)
  | .rollbackCrash n => Splitgill.rollbackCrash c n

/-- The effect of a sequence of events. -/
def runEvents (U : Unicode) (c : Coll) (es : List Event) : Except PyErr Coll :=
  es.foldlM (Event.run U) c

end Splitgill
