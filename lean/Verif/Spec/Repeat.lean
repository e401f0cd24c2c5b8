import Verif.Spec.Bulk
import Verif.Spec.Search
/-!
# Specification: syncs of the same data that do not see each other
-/

namespace Splitgill

/-- A call of `sync()`: what Elasticsearch shows it, the operations that it makes, and how `write_ops` got on. -/
structure Attempt (P : Type) where
  view : ES P
  ops : List (BulkOp P)
  options : BulkOptions
  schedule : List BulkAction
  state : BulkState (BulkOp P)

/-- The call reads the database `m` and sees the documents of `es`, and nothing that others have written since, except that new archive
indices may already exist. -/
structure Attempt.Of {P : Type} (X : Parser P) (maxDocs : Nat) (db : PyStr) (m : Mongo) (es : ES P) (a : Attempt P) : Prop where
  keys : (akeys a.view).Nodup
  sees : ∀ ix, a.view.docs ix = es.docs ix
  ops : ∃ es0, syncOps X maxDocs db false m a.view = .ok (es0, a.ops)
  size : 1 ≤ a.options.chunkSize
  run : writeOps BulkOp.isDelete a.ops a.options a.schedule = some a.state

/-- The call returns. -/
def Attempt.Returns {P : Type} (a : Attempt P) : Prop := ∃ indexed deleted, a.state.main = .returned indexed deleted

/-- The operation without the number of the archive. -/
def BulkOp.anyArc {P : Type} : BulkOp P → BulkOp P
  | .index (.arc _) docId doc => .index (.arc 0) docId doc
  | op => op

end Splitgill
