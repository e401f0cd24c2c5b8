import Verif.Model.Crash
import Verif.Model.Parse
/-!
# Model of the levels of nesting that MongoDB allows (`bulk_write` in `splitgill/manager.py:324-328, 386-396`)

MongoDB does not store documents with more than some levels of nesting (it documents 100). Each dict and list is a level, and the document
is one. Commits (manager.py:275-280) only set a number. Simplified: options are not limited (their documents have three levels).
-/

namespace Splitgill

mutual
/-- The levels of a value: those of the dict or list in it that is nested most. -/
def bsonLevels : Value → Nat
  | .list l => bsonLevelsList l + 1
  | .dict d => bsonLevelsDict d + 1
  | _ => 0
def bsonLevelsList : List Value → Nat
  | [] => 0
  | v :: r => max (bsonLevels v) (bsonLevelsList r)
def bsonLevelsDict : Dict → Nat
  | [] => 0
  | (_, v) :: r => max (bsonLevels v) (bsonLevelsDict r)
end

/-- An element of a path in a diff, as it is stored (diffing.py:136). -/
def PathEl.toBson : PathEl → Value
  | .key k => .str k
  | .idx i => .int i

/-- The `ops` of a diff, as they are stored (diffing.py:138, 185-214, 247-270): a dict with those that there are. -/
def Ops.toBson (o : Ops) : Value :=
  .dict ((match o.dn with | some d => [("dn".toList, .dict d)] | none => []) ++
    (match o.dd with | some l => [("dd".toList, .list (l.map .str))] | none => []) ++
    (match o.dc with | some d => [("dc".toList, .dict d)] | none => []) ++
    (match o.ln with | some l => [("ln".toList, .list l)] | none => []) ++
    (match o.ld with | some n => [("ld".toList, .int n)] | none => []) ++
    (match o.lc with | some cs => [("lc".toList, .list (cs.map (fun c => .list [.int c.1, c.2])))] | none => []))

/-- A `DiffOp`, as it is stored: a tuple, so a list (diffing.py:130-138). -/
def DiffOp.toBson (o : DiffOp) : Value := .list [.list (o.path.map PathEl.toBson), o.ops.toBson]

/-- The document of a record (ingest.py:90-98, 162-174; model.py:43-54), without its ObjectId. There is no field `diffs` when there are none. -/
def MongoRecord.toBson (r : MongoRecord) : Value :=
  .dict ([("id".toList, .str r.id), ("data".toList, .dict r.data),
      ("version".toList, match r.version with | some v => .int v | none => .none)] ++
    if r.diffs.isEmpty then [] else [("diffs".toList, .dict (r.diffs.map (fun vd => (intStr vd.1, .list (vd.2.map DiffOp.toBson)))))])

/-- MongoDB stores what an operation gives: the document with its id then has no more than `limit` levels. -/
def levelsOk (limit : Nat) (c : Coll) (o : MongoOp) : Bool :=
  (applyOp c o).all (fun d => decide (d.id ≠ o.id) || decide (bsonLevels d.toBson ≤ limit))

/-- The operations before the first one that is refused. -/
def acceptedOps (limit : Nat) : Coll → List MongoOp → List MongoOp
  | _, [] => []
  | c, o :: ops => if levelsOk limit c o then o :: acceptedOps limit (applyOp c o) ops else []

/-- `bulk_write` of one list of operations after the other (manager.py:327-328, 395-396): the collection afterwards, and whether nothing was
refused. When an operation is refused, `sent` of those before it in the list have been written (at most all; fewer if the client refuses it). -/
def writeLevels (limit sent : Nat) : Coll → List (List MongoOp) → Coll × Bool
  | c, [] => (c, true)
  | c, ops :: rest =>
    if (acceptedOps limit c ops).length = ops.length then writeLevels limit sent (bulkWrite c ops) rest
    else (bulkWrite c ((acceptedOps limit c ops).take sent), false)

/-- What a call raises. -/
inductive LevelErr
  | api (e : ApiErr)
  | refused

/-- A call on database `db` (manager.py:283-334, 386-396, see `ApiCall.run`) with a MongoDB that refuses documents with more than `limit`
levels. -/
def ApiCall.runLevels (U : Unicode) (db : PyStr) (limit sent : Nat) (m : Mongo) : ApiCall → Except LevelErr (Option Int) × Mongo
  | .ingest mf rs doCommit clock =>
    match ingestSized U mf 200 (m.data db) rs with
    | .error e => (.error (.api (.py e)), m)
    | .ok s =>
      match writeLevels limit sent (m.data db) s.written with
      | (c, false) => (.error .refused, m.setData db c)
      | (c, true) =>
        let m := m.setData db c
        if doCommit then
          match Splitgill.commit db clock m with
          | (.ok v, m) => (.ok v, m)
          | (.error e, m) => (.error (.api e), m)
        else (.ok none, m)
  | .rollbackRecords =>
    if hasUncommittedData (m.data db) then
      match rollbackOps (m.data db) with
      | .error e => (.error (.api (.py e)), m)
      | .ok ops =>
        match writeLevels limit sent (m.data db) (partition ops 200) with
        | (c, false) => (.error .refused, m.setData db c)
        | (c, true) => (.ok none, m.setData db c)
    else (.ok none, m)
  | c =>
    match c.run U db m with
    | (.ok v, m) => (.ok v, m)
    | (.error e, m) => (.error (.api e), m)

/-- Calls one after the other, each with the number of operations sent before one that is refused; exceptions are caught by the caller. -/
def afterLevels (U : Unicode) (db : PyStr) (limit : Nat) (m : Mongo) (calls : List (ApiCall × Nat)) : Mongo :=
  calls.foldl (fun m c => (c.1.runLevels U db limit c.2 m).2) m

end Splitgill
