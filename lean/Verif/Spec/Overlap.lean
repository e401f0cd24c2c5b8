import Verif.Spec.Each
import Verif.Spec.Bulk
import Verif.Spec.Search
/-!
# Specification: two syncs at the same time, of data at different moments
-/

namespace Splitgill

/-- Two calls of `sync()` that both find the indices `es`: the one reads the database when it is `m1` and makes the operations `early`, the
other reads it later, when it is `m2`, and makes `late`. `written` are the operations of both, in the order in which Elasticsearch carries
them out. -/
structure Overlap {P : Type} (X : Parser P) (maxDocs : Nat) (db : PyStr) (m1 m2 : Mongo) (es : ES P)
    (early late written : List (BulkOp P)) : Prop where
  ofEarly : ∃ es0, syncOps X maxDocs db false m1 es = .ok (es0, early)
  ofLate : ∃ es0, syncOps X maxDocs db false m2 es = .ok (es0, late)
  all : written.Perm (early ++ late)

/-- The last operation in `written` about the record in the latest index, if there is one, is one of `late`. -/
def LastOneOf {P : Type} (id : PyStr) (written late : List (BulkOp P)) : Prop :=
  ∀ before op after, written = before ++ op :: after → op.latestId = some id → (∀ o ∈ after, o.latestId ≠ some id) → op ∈ late

end Splitgill
