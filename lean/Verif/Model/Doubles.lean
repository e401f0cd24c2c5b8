import Verif.Model.Time
import Verif.Model.Wire
/-!
# Model of `get_elasticsearch_version` as the code gets it: as a double (`splitgill/manager.py:188-212`)

`Model/Index` takes the maximum of ints. Elasticsearch computes `max` aggregations with doubles.
-/

namespace Splitgill

/-- The value of a `max` aggregation over a `long` field (Elasticsearch): all values are made doubles. -/
def maxAgg (l : List Int) : Option ℚ := (l.map (fun (i : Int) => fl (i : ℚ))).max?

/-- One round of the loop (manager.py:198-208). -/
def laterValue (version value : Option ℚ) : Option ℚ :=
  match value with
  | none => version
  | some x =>
    match version with
    | none => some x
    | some v => if x > v then some x else some v

/-- `get_elasticsearch_version()` (manager.py:188-212) -/
def ES.doubleVersion {P : Type} (es : ES P) : Option Int :=
  (laterValue (laterValue none (maxAgg (es.all.map (·.version)))) (maxAgg (es.all.filterMap (·.next)))).map truncate

/-- `sync(resync)` (manager.py:441-515) as in `Model/Index`, with this version. -/
def syncByDoubles {P : Type} (X : Parser P) (maxDocs : Nat) (db : PyStr) (resync : Bool) (m : Mongo) (es : ES P) : Except PyErr (ES P) :=
  if !hasData db m then .ok es
  else
    match scopeSince db resync m es.doubleVersion with
    | .error e => .error e
    | .ok none => .ok es
    | .ok (some (sel, lastSync)) =>
      let es := if resync then es.deleteArcs else es
      match generateOps X maxDocs (committedOptionsOf db m) lastSync es.arcStatus ((m.data db).filter sel) with
      | .error e => .error e
      | .ok (ops, _) => .ok (es.applyOps ops)

/-- The filter and index of `search(version)` (manager.py:560-604), with this version. -/
def ES.searchByDoubles {P : Type} (es : ES P) : SearchAt → Search
  | .version v =>
    match es.doubleVersion with
    | some current => if v ≥ current then ⟨.latest, none⟩ else ⟨.wildcard, some v⟩
    | none => ⟨.wildcard, some v⟩
  | .latest => ⟨.latest, none⟩
  | .all => ⟨.wildcard, none⟩

end Splitgill
