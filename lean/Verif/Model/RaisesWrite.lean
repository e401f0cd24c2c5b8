import Verif.Model.Raises
import Verif.Model.Visible
/-!
# Model of syncs that raise while they write

The operations of a sync come from a generator (`generate_index_ops`) that `write_ops_async` reads chunk by chunk. When `parse` raises for a
record, the operations of the records before it have been yielded, and some of them may have been written.
-/

namespace Splitgill

/-- `generate_index_ops` (indexing/index.py:260-321) as a stream: the operations it yields, and the exception that ends it, if one does.
`RecordVersions.build` parses all versions of a record before its first operation is yielded (line 300). -/
def tryStream (E : ParseEnv) (F : Failures) (maxDocs : Nat) (allOptions : List (Int × ParsingOptions)) (after : Option Int) :
    Nat × Nat → List MongoRecord → List (BulkOp (Option ParsedData)) × Option PyErr
  | _, [] => ([], none)
  | arc, record :: rest =>
    match tryBuild E F record allOptions with
    | .error e => ([], some e)
    | .ok [] => ([], some .typeError)
    | .ok rvs =>
      match rvOps maxDocs after record.id arc rvs with
      | (ops, arc) =>
        match tryStream E F maxDocs allOptions after arc rest with
        | (ops', e) => (ops ++ ops', e)

/-- `sync(resync)` up to `write_ops` (manager.py:473-515): the indices when it starts and the stream of operations; `none` if it is not
called. -/
def tryStart (E : ParseEnv) (F : Failures) (maxDocs : Nat) (db : PyStr) (resync : Bool) (m : Mongo) (c : Indices (Option ParsedData)) :
    Except PyErr (Option (Indices (Option ParsedData) × List (BulkOp (Option ParsedData)) × Option PyErr)) :=
  if !hasData db m then .ok none
  else
    match syncScope db resync m c.view with
    | .error e => .error e
    | .ok none => .ok none
    | .ok (some (sel, lastSync)) =>
      let c := if resync then c.deleteArcs else c
      .ok (some (c, tryStream E F maxDocs (committedOptionsOf db m) lastSync c.view.arcStatus ((m.data db).filter sel)))

/-- `resync_arcs()` up to `write_ops` (manager.py:525-558). -/
def tryStartArcs (E : ParseEnv) (F : Failures) (maxDocs : Nat) (db : PyStr) (m : Mongo) (c : Indices (Option ParsedData)) :
    Indices (Option ParsedData) × List (BulkOp (Option ParsedData)) × Option PyErr :=
  let c := c.deleteArcs
  match tryStream E F maxDocs (committedOptionsOf db m) none c.view.arcStatus ((m.data db).filter (fun r => r.version.isSome)) with
  | (ops, e) => (c, ops.filter (fun op => decide (op.ix ≠ .latest)), e)

/-- The operations in complete chunks: when the stream raises, those already collected for the next chunk are lost (utils.py:61-73). -/
def completeChunks {α : Type} (ops : List α) (size : Nat) : List α := ops.take (ops.length / size * size)

/-- An action while the stream is read that raises at its end: there the main task does not go on to line 182. -/
def raisingStep {P : Type} (cap : Nat) (s : VisState P) (a : VisAction) : Option (VisState P) :=
  match a, s.bulk.main with
  | .task .main, .feeding [] => none
  | _, _ => visStep cap s a

/-- A schedule. -/
def raisingRun {P : Type} (cap : Nat) : VisState P → List VisAction → Option (VisState P)
  | s, [] => some s
  | s, a :: as =>
    match raisingStep cap s a with
    | some s => raisingRun cap s as
    | none => none

/-- `write_ops(client, ops, options)` from its start for a stream that raises after `ops` (indexing/syncing.py:96-124, 144-192): the state after
these actions, `none` if they are not possible. The exception itself is the action `mainRaises`. -/
def writeRaising {P : Type} (c : Indices P) (ops : List (BulkOp P)) (o : BulkOptions) (schedule : List VisAction) : Option (VisState P) :=
  raisingRun (o.workerCount * o.bufferMultiplier)
    { bulk := bulkStart (partition (completeChunks ops o.chunkSize) o.chunkSize) o.workerCount, cluster := c, setUp := [], restored := false }
    schedule

end Splitgill
