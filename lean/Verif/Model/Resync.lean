import Verif.Model.Index
/-!
# Model: `sync(resync=True)` and `resync_arcs()` while others write
-/

namespace Splitgill

/-- `sync(resync=True)` (manager.py:441-515) of a database that others may write to at the same time, see `syncOver`. What it reads first -
whether there is data, the options (manager.py:470-478) - is read from `m`; the records come from `cursor`. -/
def resyncOver {P : Type} (X : Parser P) (maxDocs : Nat) (db : PyStr) (m : Mongo)
    (cursor : (MongoRecord → Bool) → List MongoRecord) (es : ES P) : Except PyErr (ES P) :=
  if !hasData db m then .ok es
  else
    match syncScope db true m es with
    | .error e => .error e
    | .ok none => .ok es
    | .ok (some (sel, lastSync)) =>
      let es := es.deleteArcs
      match generateOps X maxDocs (committedOptionsOf db m) lastSync es.arcStatus (cursor sel) with
      | .error e => .error e
      | .ok (ops, _) => .ok (es.applyOps ops)

/-- `resync_arcs()` (manager.py:517-558) of a database that others may write to at the same time. The options are those of `m`, the records
come from `cursor`. -/
def resyncArcsOver {P : Type} (X : Parser P) (maxDocs : Nat) (db : PyStr) (m : Mongo)
    (cursor : (MongoRecord → Bool) → List MongoRecord) (es : ES P) : Except PyErr (ES P) :=
  let es := es.deleteArcs
  match generateOps X maxDocs (committedOptionsOf db m) none es.arcStatus (cursor (fun r => r.version.isSome)) with
  | .error e => .error e
  | .ok (ops, _) => .ok (es.applyOps (ops.filter (fun op => decide (op.ix ≠ .latest))))

end Splitgill
