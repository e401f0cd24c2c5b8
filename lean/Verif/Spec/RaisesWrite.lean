import Verif.Model.RaisesWrite
import Verif.Spec.Visible
import Verif.Spec.Raises
/-!
# Specification: syncs that raise while they write
-/

namespace Splitgill

/-- Calls of `sync()` after each other, with any states of the database, that all raise as `parse` raises: from the first indices to the last.
Each of them may have stopped at any point before that as well. Nobody else refreshes the indices. -/
inductive RaisedSyncs (E : ParseEnv) (F : Failures) (maxDocs : Nat) (db : PyStr) : Indices (Option ParsedData) → Indices (Option ParsedData) → Prop
  | none (c : Indices (Option ParsedData)) : RaisedSyncs E F maxDocs db c c
  | more {c c' c1 : Indices (Option ParsedData)} {ops : List (BulkOp (Option ParsedData))} {e : PyErr} (m : Mongo)
      (o : BulkOptions) (schedule : List VisAction) (s : VisState (Option ParsedData)) (before : RaisedSyncs E F maxDocs db c c')
      (hids : ((m.data db).map MongoRecord.id).Nodup) (hstart : tryStart E F maxDocs db false m c' = .ok (some (c1, ops, some e)))
      (hsize : 1 ≤ o.chunkSize) (hn : NoOthers schedule) (hrun : writeRaising c1 ops o schedule = some s) : RaisedSyncs E F maxDocs db c s.cluster

end Splitgill
