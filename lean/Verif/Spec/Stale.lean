import Verif.Spec.Each
import Verif.Spec.Search
import Verif.Model.RealParser
/-!
# Specification: what may be left in the latest index of a record that was changed and then deleted
-/

namespace Splitgill

/-- The record has nothing uncommitted at the syncs, and no two data given for it hold equal but different scalars at the same place. It may
be changed and deleted at any time. -/
structure CalmRecord (U : Unicode) (db : PyStr) (first : List ApiCall) (parts : List (List ApiCall)) (id : PyStr) : Prop where
  noPending : ∀ m ∈ statesOf U db first parts, NoPendingOf db id m
  noPuns : NoPunsAmong U (((first ++ parts.flatten).flatMap ApiCall.stream).filter (fun r => decide (r.id = id)))

/-- The newest committed version of the record has data. -/
def ExistsNow (db id : PyStr) (m : Mongo) : Prop := ∃ v d, (histOf (m.data db) id).head? = some (v, d) ∧ d ≠ []

/-- `x` is a document that may be left of the record: it is the document that the latest index should have had at one of the syncs; before
the next sync the record was changed and then deleted; and it was deleted at all syncs from then on. -/
def LeftBehind (E : ParseEnv) (U : Unicode) (maxDocs : Nat) (db : PyStr) (first : List ApiCall) (parts : List (List ApiCall)) (id : PyStr)
    (x : Doc (Option ParsedData)) : Prop :=
  ∃ pre part post t esk, parts = pre ++ part :: post ∧
    sync (realParser E) maxDocs db false (afterCalls U db (first ++ pre.flatten)) [] = .ok esk ∧ foundFor esk .latest id = [x] ∧
    ((first ++ pre.flatten).filterMap ApiCall.clock?).getLast? = some t ∧
    ¬ NoUpdateDeleteOf db id t (afterCalls U db (first ++ pre.flatten ++ part)) ∧
    ∀ m ∈ statesOf U db (first ++ pre.flatten ++ part) post, ¬ ExistsNow db id m

end Splitgill
