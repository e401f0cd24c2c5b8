import Verif.Model.Levels
/-!
# Model of the size of documents that MongoDB allows (`bulk_write` in `splitgill/manager.py:324-328, 386-396`, `update_many` in
`splitgill/manager.py:275-280`)

MongoDB does not store documents of more than some number of bytes (16 MB). A record, with the diffs of all its versions, is one document.
Simplified: options are not limited, and the limits on what is sent to MongoDB at once are not modelled.
-/

namespace Splitgill

/-- The bytes of a text in UTF-8. -/
def utf8Bytes (s : PyStr) : Nat := (s.map Char.utf8Size).sum

mutual
/-- The bytes of a value in BSON. -/
def bsonSize : Value → Nat
  | .none => 0
  | .bool _ => 1
  | .int i => if -2 ^ 31 ≤ i ∧ i < 2 ^ 31 then 4 else 8
  | .float _ => 8
  | .str s => utf8Bytes s + 5
  | .list l => bsonSizeList 0 l + 5
  | .dict d => bsonSizeDict d + 5
/-- The items of a list from the `i`-th: they are stored with their indexes as keys. -/
def bsonSizeList : Nat → List Value → Nat
  | _, [] => 0
  | i, v :: r => (intStr i).length + 2 + bsonSize v + bsonSizeList (i + 1) r
def bsonSizeDict : Dict → Nat
  | [] => 0
  | (k, v) :: r => utf8Bytes k + 2 + bsonSize v + bsonSizeDict r
end

/-- The bytes of the document of a record. 17 of them are those of its ObjectId (`_id`). -/
def MongoRecord.size (r : MongoRecord) : Nat := bsonSize r.toBson + 17

/-- MongoDB stores what an operation gives: the document with its id then has no more than `limit` bytes. -/
def sizeOk (limit : Nat) (c : Coll) (o : MongoOp) : Bool :=
  (applyOp c o).all (fun d => decide (d.id ≠ o.id) || decide (d.size ≤ limit))

/-- The operations before the first one that is refused. -/
def acceptedSized (limit : Nat) : Coll → List MongoOp → List MongoOp
  | _, [] => []
  | c, o :: ops => if sizeOk limit c o then o :: acceptedSized limit (applyOp c o) ops else []

/-- How far a call gets that is refused. -/
structure Reached where
  /-- how many operations of the list that has the refused one have been written (at most all before it) -/
  sent : Nat
  /-- which documents `update_many` has changed before it came to one that is too large -/
  before : MongoRecord → Bool

/-- `bulk_write` of one list of operations after the other (manager.py:327-328, 395-396): the collection afterwards, and whether nothing was
refused. -/
def writeSized (limit sent : Nat) : Coll → List (List MongoOp) → Coll × Bool
  | c, [] => (c, true)
  | c, ops :: rest =>
    if (acceptedSized limit c ops).length = ops.length then writeSized limit sent (bulkWrite c ops) rest
    else (bulkWrite c ((acceptedSized limit c ops).take sent), false)

/-- A document fits once it has the version `v`. -/
def fitsCommitted (limit : Nat) (v : Int) (d : MongoRecord) : Bool := decide ({ d with version := some v }.size ≤ limit)

/-- The data collection when `update_many` has changed the documents `before` the one that is too large. -/
def commitSome (limit : Nat) (v : Int) (before : MongoRecord → Bool) (c : Coll) : Coll :=
  c.map (fun d => if d.version.isNone && before d && fitsCommitted limit v d then { d with version := some v } else d)

/-- `commit()` (manager.py:250-281, see `commit`): `update_many` sets the version of one document after the other, and raises at one that
is too large with it. Then the options are not committed, and the lock is released (locking.py:90-105). -/
def commitSized (db : PyStr) (limit : Nat) (before : MongoRecord → Bool) (clock : Int) (m : Mongo) : Except LevelErr (Option Int) × Mongo :=
  match acquire db m with
  | (false, m) => (.error (.api .alreadyLocked), m)
  | (true, m) =>
    if !hasUncommittedData (m.data db) && !hasUncommittedOptions m then (.ok none, release db m)
    else
      let m := if !hasOptions m && !hasUncommittedOptions m then updateOptionsNoCommit db defaultOptions m else m
      if (m.data db).all (fun d => d.version.isSome || fitsCommitted limit clock d) then
        let m := m.setData db (commitColl clock (m.data db))
        let m := { m with options := commitOptions clock m.options }
        (.ok (some clock), release db m)
      else
        (.error .refused, release db (m.setData db (commitSome limit clock before (m.data db))))

/-- A call on database `db` (manager.py:250-396, see `ApiCall.run`) with a MongoDB that refuses documents of more than `limit` bytes. -/
def ApiCall.runSized (U : Unicode) (db : PyStr) (limit : Nat) (stop : Reached) (m : Mongo) : ApiCall → Except LevelErr (Option Int) × Mongo
  | .ingest mf rs doCommit clock =>
    match ingestSized U mf 200 (m.data db) rs with
    | .error e => (.error (.api (.py e)), m)
    | .ok s =>
      match writeSized limit stop.sent (m.data db) s.written with
      | (c, false) => (.error .refused, m.setData db c)
      | (c, true) => if doCommit then commitSized db limit stop.before clock (m.setData db c) else (.ok none, m.setData db c)
  | .commit clock => commitSized db limit stop.before clock m
  | .updateOptions o doCommit clock =>
    if sameAsLatest (latestOptions db m) o then (.ok none, updateOptionsNoCommit db o m)
    else if doCommit then commitSized db limit stop.before clock (updateOptionsNoCommit db o m)
    else (.ok none, updateOptionsNoCommit db o m)
  | .rollbackOptions => (.ok none, Splitgill.rollbackOptions m)
  | .rollbackRecords =>
    if hasUncommittedData (m.data db) then
      match rollbackOps (m.data db) with
      | .error e => (.error (.api (.py e)), m)
      | .ok ops =>
        match writeSized limit stop.sent (m.data db) (partition ops 200) with
        | (c, false) => (.error .refused, m.setData db c)
        | (c, true) => (.ok none, m.setData db c)
    else (.ok none, m)

/-- Calls one after the other; exceptions are caught by the caller. -/
def afterSized (U : Unicode) (db : PyStr) (limit : Nat) (m : Mongo) (calls : List (ApiCall × Reached)) : Mongo :=
  calls.foldl (fun m c => (c.1.runSized U db limit c.2 m).2) m

end Splitgill
