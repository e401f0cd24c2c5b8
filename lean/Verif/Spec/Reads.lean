import Verif.Model.Resync
import Verif.Spec.Index
/-!
# Specification: what the indices can hold when anything goes wrong

Any number of syncs of all kinds, at once or one after the other, of a database that changes meanwhile. Each reads the options at some
time, and then records, each at the same or a later time. Each of the operations they make can be carried out or not, in any order, and
more than once. Documents and indices can be deleted.
-/

namespace Splitgill

/-- The indices that can come about; `states t` is the database at time `t`. -/
inductive CanHold {P : Type} (X : Parser P) (maxDocs : Nat) (db : PyStr) (states : Nat → Mongo) : ES P → Prop
  | empty : CanHold X maxDocs db states []
  /-- One of the operations made for records, with the options read at `t` and each record read committed at `t` or later. -/
  | write {es : ES P} {t : Nat} {records : List MongoRecord} {after : Option Int} {arc arc' : Nat × Nat} {ops : List (BulkOp P)} {op : BulkOp P} :
      CanHold X maxDocs db states es →
      (∀ r ∈ records, ∃ t', t ≤ t' ∧ r ∈ (states t').data db ∧ r.version.isSome) →
      generateOps X maxDocs (committedOptionsOf db (states t)) after arc records = .ok (ops, arc') → op ∈ ops →
      CanHold X maxDocs db states (op.apply es)
  /-- Some documents are gone. -/
  | lost {es es' : ES P} : CanHold X maxDocs db states es → (∀ d ∈ es'.all, d ∈ es.all) → CanHold X maxDocs db states es'

/-- The document shows what was committed: at some time `t'` the record had been committed with data `a` as of the version at which the
document starts, and was not deleted then, and the document is the parse of it with the options as of that version, known at
some time `t`. -/
structure ShowsCommitted {P : Type} (X : Parser P) (db : PyStr) (states : Nat → Mongo) (d : Doc P) (t t' : Nat) (a : Dict) (o : ParsingOptions) : Prop where
  order : t ≤ t'
  data : AsOf (histOf ((states t').data db) d.id) d.version a
  alive : a ≠ []
  options : OptionsAsOf (effectiveOptions (histOf ((states t').data db) d.id) (committedOptionsOf db (states t))) d.version o
  parsed : d.parsed = X.parse a o
  version : d.version ∈ (histOf ((states t').data db) d.id).map Prod.fst ∨ d.version ∈ (committedOptionsOf db (states t)).map Prod.fst

end Splitgill
