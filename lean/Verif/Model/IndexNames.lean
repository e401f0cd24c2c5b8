import Verif.Model.Names
import Verif.Model.Mapping
/-!
# Which names Elasticsearch and MongoDB accept

`SplitgillDatabase.__init__` (manager.py:109-121) says that the name of a database "needs to be a valid MongoDB collection name and a valid
Elasticsearch index name"; nothing checks it. The collection and the indices have longer names that contain it. Here are the rules for
names, and `sync` and `resync_arcs` with requests that are refused because of them.
-/

namespace Splitgill

/-- Java's `String.toLowerCase(Locale.ROOT)`: which characters it leaves as they are. Of those of ASCII, all but capitals. -/
structure NameEnv where
  lowered : Char → Bool
  ascii : ∀ c : Char, c.val < 128 → lowered c = !c.isUpper

/-- The characters that are not allowed in the name of an index (Elasticsearch). -/
def indexBadChars : PyStr := "\\/*?\"<>| ,#:".toList

/-- The characters with which the name of an index cannot start (Elasticsearch). -/
def indexBadStarts : PyStr := "_-+".toList

/-- Is it a name that an index can have (Elasticsearch, "create index API": lowercase only, without some characters, not starting with
some, not `.` or `..`, at most 255 bytes)? -/
def validIndexName (E : NameEnv) (s : PyStr) : Bool :=
  !s.isEmpty && s.all (fun c => E.lowered c && !indexBadChars.contains c) && !(s.head?.any (fun c => indexBadStarts.contains c)) &&
    decide (s ≠ ".".toList) && decide (s ≠ "..".toList) && decide (utf8Len s ≤ 255)

/-- Is it a name that pymongo makes a `Collection` for? Otherwise it raises `InvalidName`. -/
def validCollectionName (s : PyStr) : Bool :=
  !s.isEmpty && !s.contains '$' && !s.contains (Char.ofNat 0) && decide (s.head? ≠ some '.') && decide (s.getLast? ≠ some '.') &&
    !decide ("..".toList <:+: s)

/-- `get_data_collection(name)` (manager.py:75-82): its name. -/
def dataCollectionName (db : PyStr) : PyStr := "data-".toList ++ db

/-- `SplitgillDatabase(name, client)` (manager.py:109-121): does it return, rather than raise `InvalidName`? -/
def canOpen (db : PyStr) : Bool := validCollectionName (dataCollectionName db)

/-- How a sync can fail. -/
inductive NamedErr
  | raised (e : PyErr)
  /-- `elasticsearch.BadRequestError`, `invalid_index_name_exception` -/
  | invalidIndexName
  deriving DecidableEq

/-- Are all indices that operations are for there already, or can be created (indexing/syncing.py:127-141)? -/
def indicesOk {P : Type} (E : NameEnv) (db : PyStr) (es : ES P) (ops : List (BulkOp P)) : Bool :=
  ops.all (fun op => (aget op.ix es).isSome || validIndexName E (indexName db op.ix))

/-- `sync(resync)` (manager.py:441-515), with the rules for names. Simplified: when it raises, the state that it leaves is not modelled here
(see `Verif.Model.Visible`). -/
def syncNamed {P : Type} (E : NameEnv) (X : Parser P) (maxDocs : Nat) (db : PyStr) (resync : Bool) (m : Mongo) (es : ES P) :
    Except NamedErr (ES P) :=
  match syncOps X maxDocs db resync m es with
  | .error e => .error (.raised e)
  | .ok (es, ops) => if indicesOk E db es ops then .ok (es.applyOps ops) else .error .invalidIndexName

/-- `resync_arcs()` (manager.py:517-558), with the rules for names. -/
def resyncArcsNamed {P : Type} (E : NameEnv) (X : Parser P) (maxDocs : Nat) (db : PyStr) (m : Mongo) (es : ES P) :
    Except NamedErr (ES P) :=
  let es := es.deleteArcs
  match generateOps X maxDocs (committedOptionsOf db m) none es.arcStatus ((m.data db).filter (fun r => r.version.isSome)) with
  | .error e => .error (.raised e)
  | .ok (ops, _) =>
    let ops := ops.filter (fun op => decide (op.ix ≠ .latest))
    if indicesOk E db es ops then .ok (es.applyOps ops) else .error .invalidIndexName

end Splitgill
