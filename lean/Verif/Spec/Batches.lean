import Verif.Model.Manager
/-!
# Specification of ingesting batches one after the other
-/

namespace Splitgill

/-- Batches of records, each ingested by a call of its own. -/
def ingestEach (U : Unicode) (mf : Option PyStr) : Coll → List (List Record) → Except PyErr Coll
  | c, [] => .ok c
  | c, b :: bs =>
    match ingest U mf c b with
    | .error e => .error e
    | .ok c' => ingestEach U mf c' bs

/-- What is left of `n` operations when all full lists of `size` have been written. -/
def leftOver {α : Type} (size : Nat) (ops : List α) : List α := ops.drop (size * (ops.length / size))

/-- When the records of a batch are looked up, the operations `waiting` have not been written. `Settled`: no batch has a record for which
an operation waits then. `c` is the collection with all operations so far. -/
def Settled (U : Unicode) (mf : Option PyStr) (size : Nat) : Coll → List MongoOp → List (List Record) → Prop
  | _, _, [] => True
  | c, waiting, b :: bs =>
    (∀ r ∈ b, ∀ o ∈ waiting, o.id ≠ r.id) ∧
      match chunkOps U mf c b with
      | .error _ => True
      | .ok ops => Settled U mf size (bulkWrite c ops) (leftOver size (waiting ++ ops)) bs

/-- The operations for each batch, when they are ingested one after the other (up to one that raises). -/
def batchOps (U : Unicode) (mf : Option PyStr) : Coll → List (List Record) → List (List MongoOp)
  | _, [] => []
  | c, b :: bs =>
    match chunkOps U mf c b with
    | .error _ => [[]]
    | .ok ops => ops :: batchOps U mf (bulkWrite c ops) bs

end Splitgill
