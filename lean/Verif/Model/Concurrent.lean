import Verif.Model.Manager
/-!
# Model of several processes working on one data collection

`ingest` and `rollback_records` take no lock: they look documents up, and write what they made of them later.
-/

namespace Splitgill

/-- The data collection, and the write operations which processes have generated from what they looked up but
have not written yet, each with its process, in the order they were generated. -/
structure ConcState where
  coll : Coll := []
  unwritten : List (Nat × MongoOp) := []

/-- What processes do to the collection, in any order. -/
inductive ConcAct
  /-- process `p`, in `ingest`, looks up the records of one chunk and generates their operations
  (ingest.py:80-179). The chunks of different `ingest`s of a process come one after another. -/
  | lookup (p : Nat) (modifiedField : Option PyStr) (chunk : List Record)
  /-- process `p`, in `rollback_records`, reads the uncommitted documents and generates their operations
  (ingest.py:182-200) -/
  | lookupRollback (p : Nat)
  /-- MongoDB applies the next write operation of process `p` (a step of a `bulk_write`, manager.py:328,396) -/
  | write (p : Nat)
  /-- some process, in `commit`, sets the version of the uncommitted documents (manager.py:276-280), or only of
  those in `done` because it dies -/
  | commit (v : Int) (done : PyStr → Bool)
  /-- process `p` raises or dies: what it has not written never will be -/
  | stop (p : Nat)

/-- The first unwritten operation of the process, and the others. -/
def takeOp (p : Nat) : List (Nat × MongoOp) → Option (MongoOp × List (Nat × MongoOp))
  | [] => none
  | (q, o) :: rest => if q = p then some (o, rest) else (takeOp p rest).map (fun r => (r.1, (q, o) :: r.2))

/-- Drop the unwritten operations of the process. -/
def dropOps (p : Nat) (l : List (Nat × MongoOp)) : List (Nat × MongoOp) := l.filter (fun x => decide (x.1 ≠ p))

/-- Add generated operations; if generating them raised, the process drops what it has. -/
def addOps (p : Nat) (l : List (Nat × MongoOp)) : Except PyErr (List MongoOp) → List (Nat × MongoOp)
  | .ok ops => l ++ ops.map (fun o => (p, o))
  | .error _ => dropOps p l

/-- One action. (ingest.py:80-200, manager.py:250-281, 320-329, 386-396. A `find` of one chunk is taken as one
step, and the cursor of a rollback as a snapshot. Write operations are applied one at a time: MongoDB makes each
atomic, not the list of a `bulk_write`.) -/
def ConcState.act (U : Unicode) (st : ConcState) : ConcAct → ConcState
  | .lookup p mf chunk => { st with unwritten := addOps p st.unwritten (chunkOps U mf st.coll chunk) }
  | .lookupRollback p => { st with unwritten := addOps p st.unwritten (rollbackOps st.coll) }
  | .write p =>
    match takeOp p st.unwritten with
    | none => st
    | some (o, rest) => { coll := applyOp st.coll o, unwritten := rest }
  | .commit v done => { st with coll := commitCollCrash v done st.coll }
  | .stop p => { st with unwritten := dropOps p st.unwritten }

/-- A sequence of actions. -/
def ConcState.run (U : Unicode) (st : ConcState) (acts : List ConcAct) : ConcState := acts.foldl (ConcState.act U) st

end Splitgill
