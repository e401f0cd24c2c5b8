import Verif.Model.Procs
import Verif.Spec.Concurrent
/-!
# Specification: processes that keep off each other's records
-/

namespace Splitgill

/-- The documents of a record. -/
def docsWith (id : PyStr) (c : Coll) : List MongoRecord := c.filter (fun d => decide (d.id = id))

/-- The ids of the records a process looks up in a schedule. -/
def lookedUp (p : Nat) (acts : List ConcAct) : List PyStr :=
  acts.flatMap (fun | .lookup q _ chunk => if q = p then chunk.map Record.id else [] | _ => [])

/-- Nobody rolls back. -/
def NoRollback (acts : List ConcAct) : Prop := ∀ p, .lookupRollback p ∉ acts

/-- The action is one of process `p`, or a commit. -/
def ConcAct.ofOrCommit (p : Nat) : ConcAct → Bool
  | .lookup q _ _ => decide (q = p)
  | .lookupRollback q => decide (q = p)
  | .write q => decide (q = p)
  | .stop q => decide (q = p)
  | .commit _ _ => true

/-- The action is a commit. -/
def ConcAct.isCommit : ConcAct → Bool
  | .commit _ _ => true
  | _ => false

/-- The action is a step of process `p`, or a commit. -/
def ProcsAct.ofOrCommit (p : Nat) : ProcsAct → Bool
  | .step q => decide (q = p)
  | .commit _ _ => true

/-- The action is a commit. -/
def ProcsAct.isCommit : ProcsAct → Bool
  | .commit _ _ => true
  | .step _ => false

/-- No two processes are given records with the same id. -/
def DisjointIds (records : Nat → List Record) : Prop :=
  ∀ p q, p ≠ q → ∀ r ∈ records p, ∀ r' ∈ records q, r.id ≠ r'.id

/-- Ingests (modified field and records) one after another. -/
def ingestAll (U : Unicode) (c : Coll) (calls : List (Option PyStr × List Record)) : Except PyErr Coll :=
  calls.foldlM (fun c call => ingest U call.1 c call.2) c

end Splitgill
