import Verif.Model.Record
import Verif.Model.Prepare
import Verif.Model.Utils
/-!
# Model of `splitgill/ingest.py` and of the MongoDB data collection
-/

namespace Splitgill

/-- A data collection: the documents in natural (insertion) order. -/
abbrev Coll := List MongoRecord

/-- The bulk operations generated (ingest.py: `InsertOne`, `UpdateOne`, `DeleteOne`). -/
inductive MongoOp
  /-- `InsertOne({"id": id, "data": data, "version": None})` -/
  | insert (id : PyStr) (data : Dict)
  /-- `UpdateOne({"id": id}, {"$set": {"data": data}})` -/
  | setData (id : PyStr) (data : Dict)
  /-- `UpdateOne({"id": id}, {"$set": {"data": data, "version": None, "diffs.<v>": changes}})` -/
  | setDiff (id : PyStr) (data : Dict) (v : Int) (changes : List DiffOp)
  /-- `UpdateOne({"id": id}, {"$set": {"data": data, "version": v}, "$unset": {"diffs": ""}})`
  (`all`) or `{"diffs.<v>": ""}` -/
  | revert (id : PyStr) (data : Dict) (v : Int) (all : Bool)
  /-- `DeleteOne({"id": id})` -/
  | delete (id : PyStr)

/-- The id in the filter of an op. -/
def MongoOp.id : MongoOp → PyStr
  | .insert id _ => id
  | .setData id _ => id
  | .setDiff id _ _ _ => id
  | .revert id _ _ _ => id
  | .delete id => id

/-- Apply `f` to the first document with the id (`UpdateOne`), if there is one. -/
def updateFirst (id : PyStr) (f : MongoRecord → MongoRecord) : Coll → Coll
  | [] => []
  | d :: r => if d.id = id then f d :: r else d :: updateFirst id f r

/-- Remove the first document with the id (`DeleteOne`). -/
def deleteFirst (id : PyStr) : Coll → Coll
  | [] => []
  | d :: r => if d.id = id then r else d :: deleteFirst id r

/-- MongoDB applying one write operation (documented behaviour of `$set`, `$unset`; an update without a
matching document does nothing). -/
def applyOp (c : Coll) : MongoOp → Coll
  | .insert id data => c ++ [{ id := id, version := none, data := data }]
  | .setData id data => updateFirst id (fun d => { d with data := data }) c
  | .setDiff id data v changes =>
    updateFirst id (fun d => { d with data := data, version := none,
                                      diffs := aset v changes d.diffs }) c
  | .revert id data v all =>
    updateFirst id (fun d => { d with data := data, version := some v,
                                      diffs := if all then [] else aerase v d.diffs }) c
  | .delete id => deleteFirst id c

/-- `bulk_write(ops)`: in order. -/
def bulkWrite (c : Coll) (ops : List MongoOp) : Coll := ops.foldl applyOp c

/-- `revert_record` (ingest.py:203-236): the reverted record and the op.  `none` when there is nothing to
revert to. The record's `version`/`data` become those of the second item of `iter()`. -/
def revertRecord (r : MongoRecord) : Except PyErr (Option (MongoRecord × MongoOp)) :=
  if r.diffs.isEmpty || r.version.isSome then .ok none
  else
    -- only the first step of the lazy `iter()` is evaluated
    match sortDesc (akeys r.diffs) with
    | [] => .error .typeError
    | v :: _ =>
      match aget v r.diffs with
      | none => .error .keyError
      | some ops =>
        match patchDict r.data ops with
        | .error e => .error e
        | .ok data =>
          let diffs := aerase v r.diffs
          .ok (some ({ r with version := some v, data := data, diffs := diffs },
            .revert r.id data v diffs.isEmpty))

/-- `list(diff(a, b))` of two dicts. -/
def diffDict (a b : Dict) : Except PyErr (List DiffOp) := diff (.dict a) (.dict b)

/-- The computation of `changes` (ingest.py:137-157), with the data to store: popping and putting
back the modified field moves it to the end of the dicts. -/
def computeChanges (modifiedField : Option PyStr) (newData existingData : Dict) :
    Except PyErr (Dict × List DiffOp) :=
  match modifiedField with
  | none => do .ok (newData, ← diffDict newData existingData)
  | some m =>
    match aget m newData, aget m existingData with
    | some newValue, some existingValue => do
      let newPopped := aerase m newData
      let existingPopped := aerase m existingData
      let otherChanges ← diffDict newPopped existingPopped
      let newData := newPopped ++ [(m, newValue)]
      let existingData := existingPopped ++ [(m, existingValue)]
      if otherChanges.isEmpty then .ok (newData, [])
      else do .ok (newData, ← diffDict newData existingData)
    | _, _ => do .ok (newData, ← diffDict newData existingData)

/-- `existing_record.data` after the modified field was popped and put back (ingest.py:142-149): it moves to the end. -/
def putBack (modifiedField : Option PyStr) (newData existingData : Dict) : Dict :=
  match modifiedField with
  | none => existingData
  | some m =>
    match aget m newData, aget m existingData with
    | some _, some existingValue => aerase m existingData ++ [(m, existingValue)]
    | _, _ => existingData

/-- The op of `revert_record` holds the dict `record.data` itself: when that dict changes, so does the op
(ingest.py:222-236). -/
def MongoOp.withData (data : Dict) : MongoOp → MongoOp
  | .revert id _ v all => .revert id data v all
  | op => op

/-- The existing record at its last committed version, and the op that would revert it if it has uncommitted
data (ingest.py:119-135; `revert_record` only acts on uncommitted records). -/
def revertIfPending (existing : MongoRecord) : Except PyErr (MongoRecord × Option MongoOp) :=
  match revertRecord existing with
  | .error e => .error e
  | .ok (some (r, op)) => .ok (r, some op)
  | .ok none => .ok (existing, none)

/-- The op for a record that has a committed version (ingest.py:137-179), `existing` being at its last
committed version. -/
def opForCommitted (modifiedField : Option PyStr) (id : PyStr) (newData : Dict)
    (existing : MongoRecord) (revertOp : Option MongoOp) : Except PyErr (Option MongoOp) :=
  match computeChanges modifiedField newData existing.data with
  | .error e => .error e
  | .ok (newData', changes) =>
    if changes.isEmpty then .ok (revertOp.map (MongoOp.withData (putBack modifiedField newData existing.data)))
    else
      match existing.version with
      | some v => .ok (some (.setDiff id newData' v changes))
      | none => .error .unsupported

/-- The op for a record whose id exists in the collection (ingest.py:117-179). -/
def opForExisting (U : Unicode) (modifiedField : Option PyStr) (record : Record)
    (existing : MongoRecord) : Except PyErr (Option MongoOp) :=
  let newData := prepareRecordData U record
  if existing.version.isNone && existing.diffs.isEmpty then
    if record.isDelete then .ok (some (.delete record.id))
    else
      match diffDict newData existing.data with
      | .error e => .error e
      | .ok changes => if changes.isEmpty then .ok none else .ok (some (.setData record.id newData))
  else
    match revertIfPending existing with
    | .error e => .error e
    | .ok (existing, revertOp) => opForCommitted modifiedField record.id newData existing revertOp

/-- The op for a record given what the lookup found (ingest.py:103-179). -/
def opFor (U : Unicode) (modifiedField : Option PyStr) (existing : Option MongoRecord)
    (record : Record) : Except PyErr (Option MongoOp) :=
  match existing with
  | none =>
    if record.isDelete then .ok none
    else .ok (some (.insert record.id (prepareRecordData U record)))
  | some e => opForExisting U modifiedField record e

/-- Collect the ops of a list of records. -/
def collectOps (f : Record → Except PyErr (Option MongoOp)) :
    List Record → Except PyErr (List MongoOp)
  | [] => .ok []
  | r :: rs => do
    let op ← f r
    let ops ← collectOps f rs
    .ok (op.toList ++ ops)

/-- `{doc["id"]: MongoRecord(**doc) for doc in find({"id": {"$in": ids}})}` (ingest.py:83-86),
looked up at an id: the last document with that id. -/
def lookupExisting (c : Coll) (id : PyStr) : Option MongoRecord :=
  c.foldl (fun acc d => if d.id = id then some d else acc) none

/-- `{record.id: record for record in chunk}` (ingest.py:81), as its values. -/
def recordsById (chunk : List Record) : List Record :=
  (aofList (chunk.map (fun r => (r.id, r)))).map Prod.snd

/-- One iteration of the `for chunk` loop of `generate_ops` (ingest.py:80-179): the ops of a chunk
given the collection at the time of the lookup.  (The `if not existing` shortcut of lines 83-96
yields the same inserts as the general loop.) -/
def chunkOps (U : Unicode) (modifiedField : Option PyStr) (c : Coll) (chunk : List Record) :
    Except PyErr (List MongoOp) :=
  collectOps (fun r => opFor U modifiedField (lookupExisting c r.id) r) (recordsById chunk)

/-- `generate_rollback_ops` for one document (ingest.py:191-200). -/
def rollbackOp (d : MongoRecord) : Except PyErr (Option MongoOp) :=
  if d.version.isSome then .ok none
  else if d.diffs.isEmpty then .ok (some (.delete d.id))
  else do .ok ((← revertRecord d).map Prod.snd)

/-- `list(generate_rollback_ops(coll))` (ingest.py:182-200) over a snapshot of the collection. -/
def rollbackOps : Coll → Except PyErr (List MongoOp)
  | [] => .ok []
  | d :: ds => do
    let op ← rollbackOp d
    let ops ← rollbackOps ds
    .ok (op.toList ++ ops)

end Splitgill
