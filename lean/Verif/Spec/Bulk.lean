import Verif.Model.Bulk
import Verif.Spec.Index
/-!
# What the bulk writer is expected to do
-/

namespace Splitgill

/-- A response without errors. -/
def BulkResp.isOk : BulkResp → Bool
  | .items errors => !errors.any id
  | _ => false

/-- A response with an error for an op, or another exception than a timeout. -/
def BulkResp.isError : BulkResp → Bool
  | .items errors => errors.any id
  | .exception _ => true
  | .timeout _ => false

/-- A timeout. -/
def BulkResp.isTimeout : BulkResp → Bool
  | .timeout _ => true
  | _ => false

/-- The requests for a chunk. -/
def requests {α : Type} (log : List (NumChunk α × BulkResp)) (k : Nat) : Nat := log.countP (fun x => decide (x.1.1 = k))
/-- Those that timed out. -/
def timeouts {α : Type} (log : List (NumChunk α × BulkResp)) (k : Nat) : Nat :=
  log.countP (fun x => decide (x.1.1 = k) && x.2.isTimeout)

/-- A response has an error, or is an exception, or the request for a chunk timed out for the fourth time. -/
def RequestFailed {α : Type} (s : BulkState α) : Prop :=
  (∃ x ∈ s.log, x.2.isError = true) ∨ ∃ k, timeouts s.log k = 4

/-- `write_ops` has returned or raised. -/
def Ended {α : Type} (s : BulkState α) : Prop := s.main = .raised ∨ ∃ indexed deleted, s.main = .returned indexed deleted

/-- No request timed out. -/
def NoTimeouts {α : Type} (s : BulkState α) : Prop := ∀ x ∈ s.log, x.2.isTimeout = false

/-- The ops that the server carried out, request by request. -/
def BulkState.written {α : Type} (s : BulkState α) : List α := s.log.flatMap appliedOps

/-- The same indices exist, with the same documents, equally often, under the same ids. -/
structure SameDocs {P : Type} (es es' : ES P) : Prop where
  indices : ∀ ix, ix ∈ akeys es ↔ ix ∈ akeys es'
  docs : ∀ ix, (es.docs ix).Perm (es'.docs ix)

/-- The op is a `DeleteOp`. -/
def BulkOp.isDelete {P : Type} : BulkOp P → Bool
  | .delete _ _ => true
  | .index _ _ _ => false

/-- The op is for an archive index. -/
def BulkOp.isArchive {P : Type} (op : BulkOp P) : Prop := ∃ n, op.ix = .arc n

/-- The record whose latest document an op is about. -/
def BulkOp.latestId {P : Type} : BulkOp P → Option PyStr
  | .index .latest docId _ => docId
  | .delete .latest id => some id
  | _ => none

/-- Ops as they are generated: documents for the latest index have an id, those for archives do not, deletes are
of the latest index. -/
def GenOp {P : Type} (op : BulkOp P) : Prop := match op with
  | .index (.arc _) docId _ => docId = none
  | .index .latest docId _ => docId.isSome = true
  | .delete ix _ => ix = .latest

/-- No two different ops about the same latest document. -/
def Consistent {P : Type} (ops : List (BulkOp P)) : Prop :=
  ∀ a ∈ ops, ∀ b ∈ ops, a.latestId = b.latestId → a.latestId ≠ none → a = b

/-- `sync()` when Elasticsearch answers as if the documents were `view`, and has `es`: after a sync that stopped,
what it wrote may not be visible, as the indices have not been refreshed. -/
def syncSeeing {P : Type} (X : Parser P) (maxDocs : Nat) (db : PyStr) (m : Mongo) (view es : ES P) : Except PyErr (ES P) :=
  match syncOps X maxDocs db false m view with
  | .error e => .error e
  | .ok (_, ops) => .ok (es.applyOps ops)

end Splitgill
