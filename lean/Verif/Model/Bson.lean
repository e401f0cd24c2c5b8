import Verif.Model.Crash
/-!
# Model of what MongoDB can store of the data (`bulk_write` in `splitgill/manager.py:324-328, 386-396`)

The client of MongoDB raises an `OverflowError` for ints that do not fit into 64 bits when it encodes an operation. Simplified: the other
limits of BSON are not modelled (for 16 MB for a document see `Verif.Model.Size`, for levels of nesting `Verif.Model.Levels`), nor are ints in options (which are checked, but for the
segments of hints).
-/

namespace Splitgill

mutual
/-- A value can be encoded. -/
def encodable : Value → Bool
  | .int i => decide (-2 ^ 63 ≤ i ∧ i < 2 ^ 63)
  | .list l => encodableList l
  | .dict d => encodableDict d
  | _ => true
def encodableList : List Value → Bool
  | [] => true
  | v :: r => encodable v && encodableList r
def encodableDict : Dict → Bool
  | [] => true
  | (_, v) :: r => encodable v && encodableDict r
end

/-- The values in a `DiffOp` can be encoded (diffing.py:130-138). Simplified: indexes and lengths always can. -/
def DiffOp.encodable (o : DiffOp) : Bool :=
  (match o.ops.dn with | some d => encodableDict d | none => true) &&
  (match o.ops.dc with | some d => encodableDict d | none => true) &&
  (match o.ops.lc with | some cs => cs.all (fun c => Splitgill.encodable c.2) | none => true) &&
  (match o.ops.ln with | some l => encodableList l | none => true)

/-- A write operation can be encoded (ingest.py:90-100, 114, 125, 129, 162-174, 195, 224-236). Versions are milliseconds (see `toTimestamp`), which fit. -/
def MongoOp.encodable : MongoOp → Bool
  | .insert _ data => encodableDict data
  | .setData _ data => encodableDict data
  | .setDiff _ data _ changes => encodableDict data && changes.all DiffOp.encodable
  | .revert _ data _ _ => encodableDict data
  | .delete _ => true

/-- `bulk_write` of one list of operations after the other (manager.py:327-328, 395-396): the collection afterwards, and whether there was no
`OverflowError`. The client encodes and sends operations in groups; when it comes to one that it cannot encode, `sent` of those before it in
the list have been written (at most all). -/
def writeLists (sent : Nat) : Coll → List (List MongoOp) → Coll × Bool
  | c, [] => (c, true)
  | c, ops :: rest =>
    if ops.all MongoOp.encodable then writeLists sent (bulkWrite c ops) rest
    else (bulkWrite c ((ops.takeWhile MongoOp.encodable).take sent), false)

/-- What a call raises. -/
inductive StoreErr
  | api (e : ApiErr)
  | overflow

/-- A call on database `db` (manager.py:283-334, 386-396, see `ApiCall.run`) with a client that cannot encode all ints. -/
def ApiCall.store (U : Unicode) (db : PyStr) (sent : Nat) (m : Mongo) : ApiCall → Except StoreErr (Option Int) × Mongo
  | .ingest mf rs doCommit clock =>
    match ingestSized U mf 200 (m.data db) rs with
    | .error e => (.error (.api (.py e)), m)
    | .ok s =>
      match writeLists sent (m.data db) s.written with
      | (c, false) => (.error .overflow, m.setData db c)
      | (c, true) =>
        let m := m.setData db c
        if doCommit then
          match Splitgill.commit db clock m with
          | (.ok v, m) => (.ok v, m)
          | (.error e, m) => (.error (.api e), m)
        else (.ok none, m)
  | .rollbackRecords =>
    if hasUncommittedData (m.data db) then
      match rollbackOps (m.data db) with
      | .error e => (.error (.api (.py e)), m)
      | .ok ops =>
        match writeLists sent (m.data db) (partition ops 200) with
        | (c, false) => (.error .overflow, m.setData db c)
        | (c, true) => (.ok none, m.setData db c)
    else (.ok none, m)
  | c =>
    match c.run U db m with
    | (.ok v, m) => (.ok v, m)
    | (.error e, m) => (.error (.api e), m)

/-- Calls one after the other, each with the number of operations sent before an exception; exceptions are caught by the caller. -/
def runStored (U : Unicode) (db : PyStr) (m : Mongo) (calls : List (ApiCall × Nat)) : Mongo :=
  calls.foldl (fun m c => (c.1.store U db c.2 m).2) m

end Splitgill
