import Verif.Spec.Index
import Verif.Spec.Life
import Verif.Spec.History
/-!
# One record among others: conditions on it alone
-/

namespace Splitgill

/-- The record has no uncommitted changes. -/
def NoPendingOf (db id : PyStr) (m : Mongo) : Prop := ∀ r ∈ m.data db, r.id = id → r.version ≠ none

/-- The conditions of C70 and C77 for one record: it has nothing uncommitted at the syncs, it is not changed and then deleted between two
syncs, and no two data given for it hold equal but different scalars at the same place. Nothing is said about other records. -/
structure QuietRecord (U : Unicode) (db : PyStr) (first : List ApiCall) (parts : List (List ApiCall)) (id : PyStr) : Prop where
  noPending : ∀ m ∈ statesOf U db first parts, NoPendingOf db id m
  noUpdateDelete : EachPart (NoUpdateDeleteOf db id) U db first parts
  noPuns : NoPunsAmong U (((first ++ parts.flatten).flatMap ApiCall.stream).filter (fun r => decide (r.id = id)))

end Splitgill
