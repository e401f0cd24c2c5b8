import Verif.Model.Bson
import Verif.Spec.Mapping
/-!
# Specification vocabulary: what is stored in MongoDB
-/

namespace Splitgill

/-- An int that MongoDB can store. -/
def Int64 (v : Value) : Prop := ∀ i, v = .int i → -2 ^ 63 ≤ i ∧ i < 2 ^ 63

/-- All values in a diff that are not lists or dicts. -/
structure DiffOp.Leaves (p : Value → Prop) (o : DiffOp) : Prop where
  dn : ∀ d, o.ops.dn = some d → AllLeavesDict p d
  dc : ∀ d, o.ops.dc = some d → AllLeavesDict p d
  lc : ∀ cs, o.ops.lc = some cs → ∀ c ∈ cs, AllLeaves p c.2
  ln : ∀ l, o.ops.ln = some l → AllLeavesList p l

/-- All values in a stored document that are not lists or dicts. -/
structure MongoRecord.Leaves (p : Value → Prop) (r : MongoRecord) : Prop where
  data : AllLeavesDict p r.data
  diffs : ∀ vd ∈ r.diffs, ∀ o ∈ vd.2, o.Leaves p

/-- A document that MongoDB can store. -/
abbrev MongoRecord.Storable (r : MongoRecord) : Prop := r.Leaves Int64

/-- What a call is when it ends or is stopped: itself, or an ingest that stops after some of its writes. -/
def StoredAs (c : ApiCall) (st : Step) : Prop :=
  st = .call c ∨ ∃ mf rs doCommit clock n, c = .ingest mf rs doCommit clock ∧ st = .ingestStops mf rs n

/-- The operation with what was parsed (see `Doc.written`). -/
def BulkOp.written : BulkOp (Option ParsedData) → Option (BulkOp ParsedData)
  | .index ix docId doc => doc.written.map (.index ix docId)
  | .delete ix docId => some (.delete ix docId)

end Splitgill
