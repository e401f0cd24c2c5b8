import Verif.Model.World
/-!
# Model of the index operations (`splitgill/indexing/index.py`) and of `sync` (`splitgill/manager.py`)

`parse` and the equality of its results are parameters here (`Parser`); `Verif.Model.Parse` models
`splitgill/indexing/parser.py`.  Index names are abstract here (`Ix`); `Verif.Model.Names` models the strings.
-/

namespace Splitgill

/-- `parse(data, options)` (indexing/parser.py:23-53) with results in `P`, and `==` on the results: `eq` if they come
from different data objects, `eq` or `eqSame` if they come from the same data object (Python's `==` on containers takes
an object to be equal to itself, even a NaN). -/
structure Parser (P : Type) where
  parse : Dict → ParsingOptions → P
  eq : P → P → Bool
  eqSame : P → P → Bool := eq

/-- `RecordVersion` (indexing/index.py:124-139). Simplified: the `next` pointer is the following element of
the list the record version is in. -/
structure RecordVersion (P : Type) where
  recordId : PyStr
  version : Int
  parsed : P
  deletedAt : Option Int := none
deriving DecidableEq

/-- `version_end` (indexing/index.py:141-155), given `next`. -/
def RecordVersion.versionEnd {P : Type} (rv : RecordVersion P) (next : Option (RecordVersion P)) : Option Int :=
  match rv.deletedAt with
  | some d => some d
  | none => next.map (·.version)

/-- The document of a record version: `DocumentField` id, version, versions (`gte`, `lt`), next; `parsed` stands
for the fields data, data_types and parsed_types. -/
structure Doc (P : Type) where
  id : PyStr
  version : Int
  gte : Int
  lt : Option Int
  next : Option Int
  parsed : P
deriving DecidableEq

/-- `create_doc` (indexing/index.py:157-175) -/
def RecordVersion.createDoc {P : Type} (rv : RecordVersion P) (next : Option (RecordVersion P)) : Doc P where
  id := rv.recordId
  version := rv.version
  gte := rv.version
  lt := rv.versionEnd next
  next := rv.versionEnd next
  parsed := rv.parsed

/-- `doc == last` (indexing/index.py:177-192): the operand on the left is `other`. `sameData` says that both were
parsed from the same data object, so that a NaN in both is one object. -/
def RecordVersion.eq {P : Type} (X : Parser P) (sameData : Bool) (doc last : RecordVersion P) : Bool :=
  doc.deletedAt.isNone && last.deletedAt.isNone &&
    (X.eq last.parsed doc.parsed || (sameData && X.eqSame last.parsed doc.parsed))

/-- The variables of the loop of `RecordVersions.build`: `rvs` is the linked list, newest first (so its head
is `record_versions.last`; `[]` is `None`). -/
structure BuildState (P : Type) where
  data : Dict
  options : ParsingOptions
  rvs : List (RecordVersion P) := []

/-- One round of the loop (indexing/index.py:226-246). At a version that is in `all_options` only, `data` is the object
of the round before. (At a version of the data it is another object, and so are its NaNs: the stored diff of two
versions has every NaN in it, see `Verif.Model.Diff`.) -/
def buildStep {P : Type} (X : Parser P) (id : PyStr) (allData : List (Int × Dict))
    (allOptions : List (Int × ParsingOptions)) (first : Int) (st : BuildState P) (version : Int) :
    Except PyErr (BuildState P) :=
  if version < first then .ok st
  else
    let data := (aget version allData).getD st.data
    let options := (aget version allOptions).getD st.options
    if data.isEmpty then
      match st.rvs with
      | [] => .error .attributeError
      | last :: rest =>
        .ok ⟨data, options, (if last.deletedAt.isNone then { last with deletedAt := some version } else last) :: rest⟩
    else
      let doc : RecordVersion P := ⟨id, version, X.parse data options, none⟩
      match st.rvs with
      | [] => .ok ⟨data, options, [doc]⟩
      | last :: rest =>
        .ok ⟨data, options, if doc.eq X (aget version allData).isNone last then last :: rest else doc :: last :: rest⟩

/-- The loop (indexing/index.py:225-246). -/
def buildLoop {P : Type} (X : Parser P) (id : PyStr) (allData : List (Int × Dict))
    (allOptions : List (Int × ParsingOptions)) (first : Int) : BuildState P → List Int → Except PyErr (BuildState P)
  | st, [] => .ok st
  | st, v :: vs =>
    match buildStep X id allData allOptions first st v with
    | .error e => .error e
    | .ok st => buildLoop X id allData allOptions first st vs

/-- `sorted(set(...))` -/
def sortedSet (l : List Int) : List Int := sortAsc (l.foldl (fun s x => if x ∈ s then s else s ++ [x]) [])

/-- `RecordVersions.build` after `all_data = dict(record.iter())` (indexing/index.py:217-248): the record
versions, oldest first.  `min` of an empty dict is a `ValueError`. -/
def buildFrom {P : Type} (X : Parser P) (id : PyStr) (allData : List (Int × Dict))
    (allOptions : List (Int × ParsingOptions)) : Except PyErr (List (RecordVersion P)) :=
  match (akeys allData).min?, (akeys allOptions).min? with
  | some first, some firstOptions =>
    match aget first allData, aget firstOptions allOptions with
    | some data, some options =>
      match buildLoop X id allData allOptions first ⟨data, options, []⟩
          (sortedSet (akeys allOptions ++ akeys allData)) with
      | .error e => .error e
      | .ok st => .ok st.rvs.reverse
    | _, _ => .error .keyError
  | _, _ => .error .valueError

/-- The versions as ints. `None` among them makes `min` or `sorted` raise a `TypeError`. -/
def intVersions : List VersionedData → Except PyErr (List (Int × Dict))
  | [] => .ok []
  | (none, _) :: _ => .error .typeError
  | (some v, d) :: rest =>
    match intVersions rest with
    | .error e => .error e
    | .ok r => .ok ((v, d) :: r)

/-- `RecordVersions.build(record, all_options)` (indexing/index.py:205-248) -/
def build {P : Type} (X : Parser P) (record : MongoRecord) (allOptions : List (Int × ParsingOptions)) :
    Except PyErr (List (RecordVersion P)) :=
  match record.iter with
  | .error e => .error e
  | .ok items =>
    match intVersions items with
    | .error e => .error e
    | .ok allData => buildFrom X record.id (aofList allData) allOptions

/-- `[rv.create_doc() for rv in record_versions]` (indexing/index.py:250-257) -/
def createDocs {P : Type} : List (RecordVersion P) → List (Doc P)
  | [] => []
  | rv :: rest => rv.createDoc rest.head? :: createDocs rest

/-! ## Operations -/

/-- The indices of a database (indexing/index.py:29-72). -/
inductive Ix
  | latest
  | arc (n : Nat)
deriving DecidableEq

/-- `IndexOp`, `DeleteOp` (indexing/index.py:75-121) -/
inductive BulkOp (P : Type)
  | index (ix : Ix) (docId : Option PyStr) (doc : Doc P)
  | delete (ix : Ix) (docId : PyStr)
deriving DecidableEq

/-- `v > after`, with `after = -math.inf` for `None` (indexing/index.py:294-296). -/
def gtAfter (after : Option Int) (v : Int) : Bool :=
  match after with
  | none => true
  | some a => decide (a < v)

/-- The choice of the archive index (indexing/index.py:316-320) with `MAX_DOCS_PER_ARC` as a parameter: the
archive to use, and the state of `arc_index`, `arc_count` afterwards. -/
def nextArc (maxDocs : Nat) (arc : Nat × Nat) : Nat × Nat :=
  if arc.2 ≥ maxDocs then (arc.1 + 1, 1) else (arc.1, arc.2 + 1)

/-- The inner loop of `generate_index_ops` (indexing/index.py:298-321) -/
def rvOps {P : Type} (maxDocs : Nat) (after : Option Int) (id : PyStr) :
    Nat × Nat → List (RecordVersion P) → List (BulkOp P) × (Nat × Nat)
  | arc, [] => ([], arc)
  | arc, rv :: rest =>
    let next := rest.head?
    if gtAfter after rv.version && next.isNone && rv.deletedAt.isNone then
      match rvOps maxDocs after id arc rest with
      | (ops, arc) => (.index .latest (some id) (rv.createDoc next) :: ops, arc)
    else
      let archive (pre : List (BulkOp P)) : List (BulkOp P) × (Nat × Nat) :=
        let arc := nextArc maxDocs arc
        match rvOps maxDocs after id arc rest with
        | (ops, arc') => (pre ++ .index (.arc arc.1) none (rv.createDoc next) :: ops, arc')
      if gtAfter after rv.version then archive []
      else
        match rv.versionEnd next with
        | some e =>
          if gtAfter after e then
            if next.isNone then archive [.delete .latest id] else archive []
          else rvOps maxDocs after id arc rest
        | none => rvOps maxDocs after id arc rest

/-- `generate_index_ops` (indexing/index.py:260-321): all ops, and `arc_index`, `arc_count` at the end.
Simplified: the code yields the ops one by one, an exception ends the stream after the ops before it. -/
def generateOps {P : Type} (X : Parser P) (maxDocs : Nat) (allOptions : List (Int × ParsingOptions))
    (after : Option Int) : Nat × Nat → List MongoRecord → Except PyErr (List (BulkOp P) × (Nat × Nat))
  | arc, [] => .ok ([], arc)
  | arc, record :: rest =>
    match build X record allOptions with
    | .error e => .error e
    | .ok [] => .error .typeError
    | .ok rvs =>
      match rvOps maxDocs after record.id arc rvs with
      | (ops, arc) =>
        match generateOps X maxDocs allOptions after arc rest with
        | .error e => .error e
        | .ok (ops', arc) => .ok (ops ++ ops', arc)

/-! ## Elasticsearch -/

/-- The documents of an index, with their ids (`none` for an id made by Elasticsearch). -/
abbrev Index (P : Type) := List (Option PyStr × Doc P)

/-- The indices of a database that exist, with their documents. -/
abbrev ES (P : Type) := List (Ix × Index P)

/-- The documents in an index; none if it does not exist. -/
def ES.docs {P : Type} (es : ES P) (ix : Ix) : Index P := (aget ix es).getD []

/-- Indexing a document in an index (Elasticsearch): replaces the one with the same id. -/
def indexDoc {P : Type} (docId : Option PyStr) (doc : Doc P) (docs : Index P) : Index P :=
  match docId with
  | none => docs ++ [(none, doc)]
  | some id => aset (some id) doc docs

/-- The effect of an operation (Elasticsearch): an index that does not exist is created. Deleting a document
that does not exist is no error. -/
def BulkOp.apply {P : Type} (es : ES P) : BulkOp P → ES P
  | .index ix docId doc => aset ix (indexDoc docId doc (es.docs ix)) es
  | .delete ix docId => aset ix (aerase (some docId) (es.docs ix)) es

/-- The operations one after another. -/
def ES.applyOps {P : Type} (es : ES P) (ops : List (BulkOp P)) : ES P := ops.foldl BulkOp.apply es

/-- The documents of all indices (`data-<name>-*`). -/
def ES.all {P : Type} (es : ES P) : List (Doc P) := es.flatMap (fun x => x.2.map Prod.snd)

/-- `get_elasticsearch_version()` (manager.py:188-212). Simplified: the aggregation uses doubles, which is
exact up to 2^53 (see `Verif.Model.Doubles` and C105). -/
def ES.version {P : Type} (es : ES P) : Option Int :=
  (es.all.map (·.version) ++ es.all.filterMap (·.next)).max?

/-- The numbers of the archive indices. -/
def ES.arcs {P : Type} (es : ES P) : List Nat :=
  es.filterMap (fun x => match x.1 with | .arc n => some n | .latest => none)

/-- `get_arc_status()` (manager.py:136-160) -/
def ES.arcStatus {P : Type} (es : ES P) : Nat × Nat :=
  match es.arcs.max? with
  | none => (0, 0)
  | some n => (n, (es.docs (.arc n)).length)

/-- Deleting all archive indices (manager.py:495-501, 526-531). -/
def ES.deleteArcs {P : Type} (es : ES P) : ES P := es.filter (fun x => decide (x.1 = .latest))

/-- The committed options by version: `get_options(include_uncommitted=False)` (manager.py:414-426). -/
def committedOptionsOf (db : PyStr) (m : Mongo) : List (Int × ParsingOptions) :=
  (getOptions db false m).filterMap (fun vo => vo.1.map (fun v => (v, vo.2)))

/-- The filter `{"version": {"$gt": last_sync}}` (manager.py:493); `null` is not greater than a number. -/
def newerThan (lastSync : Int) (r : MongoRecord) : Bool :=
  match r.version with
  | none => false
  | some v => decide (v > lastSync)

/-- The records to sync and `last_sync`; `none` if there is nothing to do (manager.py:476-493). -/
def syncScope {P : Type} (db : PyStr) (resync : Bool) (m : Mongo) (es : ES P) :
    Except PyErr (Option ((MongoRecord → Bool) × Option Int)) :=
  let allOptions := committedOptionsOf db m
  match (if resync then none else es.version) with
  | none => .ok (some (fun r => r.version.isSome, none))
  | some lastSync =>
    match getCommittedVersion db m with
    | none => .error .typeError
    | some committed =>
      if lastSync ≥ committed then .ok none
      else if (akeys allOptions).any (fun v => decide (v > lastSync)) then
        .ok (some (fun r => r.version.isSome, some lastSync))
      else .ok (some (newerThan lastSync, some lastSync))

/-- The operations of `sync(resync)`, after deleting archives (manager.py:473-515). -/
def syncOps {P : Type} (X : Parser P) (maxDocs : Nat) (db : PyStr) (resync : Bool) (m : Mongo) (es : ES P) :
    Except PyErr (ES P × List (BulkOp P)) :=
  if !hasData db m then .ok (es, [])
  else
    match syncScope db resync m es with
    | .error e => .error e
    | .ok none => .ok (es, [])
    | .ok (some (sel, lastSync)) =>
      let es := if resync then es.deleteArcs else es
      match generateOps X maxDocs (committedOptionsOf db m) lastSync es.arcStatus ((m.data db).filter sel) with
      | .error e => .error e
      | .ok (ops, _) => .ok (es, ops)

/-- `sync(resync)` (manager.py:441-515) of a database that nobody writes to at the same time, with `write_ops`
applying all operations in order (see `Verif.Model.Bulk` for how it does that). -/
def sync {P : Type} (X : Parser P) (maxDocs : Nat) (db : PyStr) (resync : Bool) (m : Mongo) (es : ES P) :
    Except PyErr (ES P) :=
  match syncOps X maxDocs db resync m es with
  | .error e => .error e
  | .ok (es, ops) => .ok (es.applyOps ops)

/-- `sync()` (manager.py:441-515) of a database that others may write to at the same time. What it reads first - whether
there is data, the options and the committed version (manager.py:473-493) - is read from `m`; we simplify in
that these reads happen at one time. The records come from a cursor (`iter_records`, manager.py:428-439) that is
read while the operations are made, so they can be from different times: `cursor sel` are the records that it
gives for the filter `sel`. -/
def syncOver {P : Type} (X : Parser P) (maxDocs : Nat) (db : PyStr) (m : Mongo)
    (cursor : (MongoRecord → Bool) → List MongoRecord) (es : ES P) : Except PyErr (ES P) :=
  if !hasData db m then .ok es
  else
    match syncScope db false m es with
    | .error e => .error e
    | .ok none => .ok es
    | .ok (some (sel, lastSync)) =>
      match generateOps X maxDocs (committedOptionsOf db m) lastSync es.arcStatus (cursor sel) with
      | .error e => .error e
      | .ok (ops, _) => .ok (es.applyOps ops)

/-- The index an op is for. -/
def BulkOp.ix {P : Type} : BulkOp P → Ix
  | .index ix _ _ => ix
  | .delete ix _ => ix

/-- `resync_arcs()` (manager.py:517-558) -/
def resyncArcs {P : Type} (X : Parser P) (maxDocs : Nat) (db : PyStr) (m : Mongo) (es : ES P) : Except PyErr (ES P) :=
  let es := es.deleteArcs
  match generateOps X maxDocs (committedOptionsOf db m) none es.arcStatus
      ((m.data db).filter (fun r => r.version.isSome)) with
  | .error e => .error e
  | .ok (ops, _) => .ok (es.applyOps (ops.filter (fun op => decide (op.ix ≠ .latest))))

end Splitgill
