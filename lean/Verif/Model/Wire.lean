import Verif.Model.FieldLimit
import Verif.Model.RealParser
import Verif.Model.Utils
import Verif.Spec.Bson
/-!
# Model of syncs and searches as Elasticsearch sees them: requests are texts, documents are JSON

The other models of syncs have documents with fields for what `create_doc` makes, and hand them from the operations to the indices. Here the
operations are written as texts and read again, an index has fields with types and takes a document only if it fits, and everything that the code
reads from Elasticsearch it reads from JSON documents in indices that are found by their names. Simplified: one chunk is sent after the other
(for the workers see `Verif.Model.Bulk`), a write is seen when it is done (see `Verif.Model.Visible`), and the first document that is rejected
ends the sync.
-/

namespace Splitgill

/-- An index (Elasticsearch): the types of its fields, and its documents with their ids (`none` for an id made by Elasticsearch). -/
structure JsonIndex where
  mapping : Mapping
  docs : List (Option PyStr × Dict)

/-- The indices of Elasticsearch by name. -/
abbrev Server := List (PyStr × JsonIndex)

/-- Why a sync ends: an exception in Splitgill, a document that could not be made (`parse` raised), a request that Elasticsearch cannot read, a
document that it does not take. -/
inductive WireErr
  | py (e : PyErr)
  | parse
  | malformed
  | rejected

/-- An index; a new one has the fields of the template (templates.py:91-117). -/
def Server.index (s : Server) (name : PyStr) : JsonIndex := (aget name s).getD ⟨initialMapping, []⟩

/-- A document is put into an index (Elasticsearch): it replaces the one with its id. -/
def putDoc (docId : Option PyStr) (doc : Dict) (docs : List (Option PyStr × Dict)) : List (Option PyStr × Dict) :=
  match docId with
  | none => docs ++ [(none, doc)]
  | some id => aset (some id) doc docs

/-- An operation of a request (Elasticsearch); see `BulkOp.apply`. -/
def WireOp.apply (S : EsEnv) (s : Server) : WireOp → Except WireErr Server
  | .index name docId doc =>
    match limitDoc S fieldLimit (s.index name).mapping doc with
    | none => .error .rejected
    | some mapping => .ok (aset name ⟨mapping, putDoc docId doc (s.index name).docs⟩ s)
  | .delete name docId => .ok (aset name ⟨(s.index name).mapping, aerase (some docId) (s.index name).docs⟩ s)

/-- The operations of a request, one after another. -/
def Server.applyAll (S : EsEnv) : Server → List WireOp → Except WireErr Server
  | s, [] => .ok s
  | s, op :: ops =>
    match op.apply S s with
    | .error e => .error e
    | .ok s => Server.applyAll S s ops

/-- `client.bulk(operations=[op.serialise() for op in chunk])` (indexing/syncing.py:230-232): Elasticsearch gets the text. -/
def Server.bulk (F : FloatText) (S : EsEnv) (db : PyStr) (s : Server) (chunk : List (BulkOp ParsedData)) : Except WireErr Server :=
  match bulkBody F db chunk with
  | .error e => .error (.py e)
  | .ok body =>
    match readBulk F (lines body) with
    | none => .error .malformed
    | some ops => s.applyAll S ops

/-- The chunks, one after another (indexing/syncing.py:167-192). -/
def Server.bulks (F : FloatText) (S : EsEnv) (db : PyStr) : Server → List (List (BulkOp ParsedData)) → Except WireErr Server
  | s, [] => .ok s
  | s, chunk :: chunks =>
    match s.bulk F S db chunk with
    | .error e => .error e
    | .ok s => Server.bulks F S db s chunks

/-- The operations with what was parsed; `none` if `parse` raised for one of them. -/
def writtenOps : List (BulkOp (Option ParsedData)) → Option (List (BulkOp ParsedData))
  | [] => some []
  | op :: ops =>
    match op.written, writtenOps ops with
    | some op, some ops => some (op :: ops)
    | _, _ => none

/-! ## Reading -/

/-- The documents of the indices that match a pattern (Elasticsearch). -/
def Server.hits (pattern : PyStr) (s : Server) : List Dict :=
  (s.filter (fun x => glob pattern x.1)).flatMap (fun x => x.2.docs.map Prod.snd)

/-- An int in a field. -/
def intField (k : PyStr) (doc : Dict) : Option Int :=
  match aget k doc with
  | some (.int i) => some i
  | _ => none

/-- `get_elasticsearch_version()` (manager.py:188-212): the maxima of two fields. -/
def Server.version (db : PyStr) (s : Server) : Option Int :=
  let docs := s.hits (wildcardName db)
  (docs.filterMap (intField "version".toList) ++ docs.filterMap (intField "next".toList)).max?

/-- `get_arc_status()` (manager.py:136-160) -/
def Server.arcStatus (db : PyStr) (s : Server) : Except PyErr (Nat × Nat) :=
  match pyInts ((s.filter (fun x => glob (arcWildcardName db) x.1)).map (fun x => lastPart x.1)) with
  | none => .error .valueError
  | some ns =>
    match ns.max? with
    | none => .ok (0, 0)
    | some n =>
      match aget (indexName db (.arc n)) s with
      | none => .error .notFound
      | some index => .ok (n, index.docs.length)

/-- Deleting the archives (manager.py:495-501, 526-531). -/
def Server.deleteArcs (db : PyStr) (s : Server) : Server := s.filter (fun x => !glob (arcWildcardName db) x.1)

/-- A value is in a range (Elasticsearch). -/
def jsonInRange (range : Dict) (v : Int) : Bool :=
  range.all (fun kb => match kb.2 with
    | .int i =>
      (decide (kb.1 = "gte".toList) && decide (i ≤ v)) || (decide (kb.1 = "gt".toList) && decide (i < v)) ||
      (decide (kb.1 = "lte".toList) && decide (v ≤ i)) || (decide (kb.1 = "lt".toList) && decide (v < i))
    | _ => false)

/-- `version_query(v)` (search.py:46-55) on a document: a term query on the range `versions`. -/
def versionQuery (v : Int) (doc : Dict) : Bool :=
  match aget "versions".toList doc with
  | some (.dict range) => jsonInRange range v
  | _ => false

/-- The documents that `search(version)` finds (manager.py:560-604). -/
def Server.search (db : PyStr) (s : Server) : SearchAt → List Dict
  | .latest => s.hits (indexName db .latest)
  | .all => s.hits (wildcardName db)
  | .version v =>
    match s.version db with
    | some current =>
      if current ≤ v then s.hits (indexName db .latest) else (s.hits (wildcardName db)).filter (versionQuery v)
    | none => (s.hits (wildcardName db)).filter (versionQuery v)

/-- Those with a record id. -/
def Server.searchFor (db : PyStr) (s : Server) (at_ : SearchAt) (id : PyStr) : List Dict :=
  (s.search db at_).filter (fun doc => decide (aget "id".toList doc = some (.str id)))

/-! ## Syncs -/

/-- The records to sync and `last_sync`; `none` if there is nothing to do (manager.py:476-493), given the version of the indices. -/
def scopeSince (db : PyStr) (resync : Bool) (m : Mongo) (version : Option Int) :
    Except PyErr (Option ((MongoRecord → Bool) × Option Int)) :=
  let allOptions := committedOptionsOf db m
  match (if resync then none else version) with
  | none => .ok (some (fun r => r.version.isSome, none))
  | some lastSync =>
    match getCommittedVersion db m with
    | none => .error .typeError
    | some committed =>
      if lastSync ≥ committed then .ok none
      else if (akeys allOptions).any (fun v => decide (v > lastSync)) then
        .ok (some (fun r => r.version.isSome, some lastSync))
      else .ok (some (newerThan lastSync, some lastSync))

/-- `sync(resync)` (manager.py:441-515) with chunks of a size. -/
def Server.sync (E : ParseEnv) (F : FloatText) (S : EsEnv) (maxDocs chunkSize : Nat) (db : PyStr) (resync : Bool) (m : Mongo) (s : Server) :
    Except WireErr Server :=
  if !hasData db m then .ok s
  else
    match scopeSince db resync m (s.version db) with
    | .error e => .error (.py e)
    | .ok none => .ok s
    | .ok (some (sel, lastSync)) =>
      let s := if resync then s.deleteArcs db else s
      match s.arcStatus db with
      | .error e => .error (.py e)
      | .ok arc =>
        match generateOps (realParser E) maxDocs (committedOptionsOf db m) lastSync arc ((m.data db).filter sel) with
        | .error e => .error (.py e)
        | .ok (ops, _) =>
          match writtenOps ops with
          | none => .error .parse
          | some ops => s.bulks F S db (partition ops chunkSize)

/-- Syncs one after another, each with what is in MongoDB then. -/
def Server.syncs (E : ParseEnv) (F : FloatText) (S : EsEnv) (maxDocs chunkSize : Nat) (db : PyStr) : Server → List Mongo → Except WireErr Server
  | s, [] => .ok s
  | s, m :: ms =>
    match s.sync E F S maxDocs chunkSize db false m with
    | .error e => .error e
    | .ok s => Server.syncs E F S maxDocs chunkSize db s ms

/-- `resync_arcs()` (manager.py:517-558) -/
def Server.resyncArcs (E : ParseEnv) (F : FloatText) (S : EsEnv) (maxDocs chunkSize : Nat) (db : PyStr) (m : Mongo) (s : Server) :
    Except WireErr Server :=
  let s := s.deleteArcs db
  match s.arcStatus db with
  | .error e => .error (.py e)
  | .ok arc =>
    match generateOps (realParser E) maxDocs (committedOptionsOf db m) none arc ((m.data db).filter (fun r => r.version.isSome)) with
    | .error e => .error (.py e)
    | .ok (ops, _) =>
      match writtenOps (ops.filter (fun op => decide (indexName db op.ix ≠ indexName db .latest))) with
      | none => .error .parse
      | some ops => s.bulks F S db (partition ops chunkSize)

end Splitgill
