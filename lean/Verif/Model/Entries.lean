import Verif.Model.Filter
import Verif.Model.Wire
/-!
# Model of queries on what Elasticsearch has indexed (`splitgill/indexing/templates.py`, `splitgill/search.py`)

`Verif.Model.Query` tells whether a query matches from the data of a document and the names in the path of the query. Here it is told as
Elasticsearch does: from the entries that it made for the fields of the document when it was indexed, and from the types that these fields have in
the index.
-/

namespace Splitgill

/-- The entry for a value that is not a list or object (Elasticsearch). -/
def leafEntries (m : Mapping) (path : PyStr) (v : Value) : List (PyStr × Value) :=
  match aget path m with
  | none => []
  | some .object => []
  | some .disabled => []
  | some _ => [(path, v)]

mutual
/-- The entries for a value at a path (Elasticsearch): the path of the field and the value. Nothing is indexed for `null` and inside of objects with
`enabled` false (templates.py:120-138). Simplified: nor for ranges; only `versions` is one (see `versionQuery`). -/
def entries (m : Mapping) (path : PyStr) : Value → List (PyStr × Value)
  | .none => []
  | .list l => entriesElems m path l
  | .dict d =>
    match aget path m with
    | some .object => entriesItems m path d
    | _ => []
  | .bool b => leafEntries m path (.bool b)
  | .int i => leafEntries m path (.int i)
  | .float f => leafEntries m path (.float f)
  | .str s => leafEntries m path (.str s)
/-- The elements of a list: they are values of the same field. -/
def entriesElems (m : Mapping) (path : PyStr) : List Value → List (PyStr × Value)
  | [] => []
  | v :: r => entries m path v ++ entriesElems m path r
/-- The fields of an object. -/
def entriesItems (m : Mapping) (path : PyStr) : Dict → List (PyStr × Value)
  | [] => []
  | (k, v) :: r => entries m (dotted path k) v ++ entriesItems m path r
end

/-- `copy_to` of the dynamic templates (templates.py:139-180), by the type. -/
def EsType.copyTo : EsType → Option PyStr
  | .geoPoint => some "all_points".toList
  | .geoShape => some "all_shapes".toList
  | .text => some "all_text".toList
  | _ => none

/-- The entries for a document, without copies (Elasticsearch). -/
def ownEntries (m : Mapping) (doc : Dict) : List (PyStr × Value) := doc.flatMap (fun kv => entries m kv.1 kv.2)

/-- All entries for a document (Elasticsearch). -/
def indexEntries (m : Mapping) (doc : Dict) : List (PyStr × Value) :=
  ownEntries m doc ++ (ownEntries m doc).filterMap (fun e => ((aget e.1 m).bind EsType.copyTo).map (fun target => (target, e.2)))

/-- A keyword without a normalizer. -/
def plainKeyword : Value → Option PyStr
  | .str s => some s
  | _ => none

/-- Does the value of an entry match a term, by the type of the field (Elasticsearch)? Simplified: false for text and places. -/
def EsType.termMatches (Q : QueryEnv) : EsType → Value → Value → Bool
  | .keyword true, s, v => esTermValue (esKeyword Q) s v
  | .keyword false, s, v => esTermValue plainKeyword s v
  | .double, s, v => esTermValue esDouble s v
  | .date, s, v => esTermValue esDate s v
  | .boolean, s, v => esTermValue esBool s v
  | _, _, _ => false

/-- Is the value of an entry in a range, by the type of the field (Elasticsearch)? Simplified: false for text and places. -/
def EsType.rangeMatches (Q : QueryEnv) : EsType → Value → Bounds Value → Bool
  | .keyword true, s, b => esRangeValue strLe (esKeyword Q) s b
  | .keyword false, s, b => esRangeValue strLe plainKeyword s b
  | .double, s, b => esRangeValue (fun a b : ℚ => decide (a ≤ b)) esDouble s b
  | .date, s, b => esRangeValue (fun a b : ℤ => decide (a ≤ b)) esDate s b
  | .boolean, s, b => esRangeValue (fun a b : Bool => decide (a ≤ b)) esBool s b
  | _, _, _ => false

/-- Does a document match a query (Elasticsearch), in an index with these types? A field that the index does not have matches nothing. An exists
query on an object asks for all fields below. -/
def EsQuery.matchesIn (Q : QueryEnv) (m : Mapping) (doc : Dict) : EsQuery → Bool
  | .term q =>
    match aget q.path m with
    | none => false
    | some t => (indexEntries m doc).any (fun e => decide (e.1 = q.path) && t.termMatches Q e.2 q.value)
  | .range q =>
    match aget q.path m with
    | none => false
    | some t => (indexEntries m doc).any (fun e => decide (e.1 = q.path) && t.rangeMatches Q e.2 q.bounds)
  | .exists_ path => (indexEntries m doc).any (fun e => decide (e.1 = path) || (path ++ ['.']).isPrefixOf e.1)
  | .match_ q =>
    match aget q.path m with
    | some .text =>
      let words := (indexEntries m doc).flatMap (fun e => if e.1 = q.path then esWords Q e.2 else [])
      let wanted := Q.analyse q.query
      if q.every then !wanted.isEmpty && wanted.all (fun w => decide (w ∈ words)) else wanted.any (fun w => decide (w ∈ words))
    | _ => false

/-- The documents in the indices that match a pattern, with the types of their index (Elasticsearch). -/
def Server.hitsIn (pattern : PyStr) (s : Server) : List (Mapping × Dict) :=
  (s.filter (fun x => glob pattern x.1)).flatMap (fun x => x.2.docs.map (fun d => (x.2.mapping, d.2)))

/-- The documents that `search(version)` finds (manager.py:560-604), with the types of their index. See `Server.search`. -/
def Server.foundIn (db : PyStr) (s : Server) : SearchAt → List (Mapping × Dict)
  | .latest => s.hitsIn (indexName db .latest)
  | .all => s.hitsIn (wildcardName db)
  | .version v =>
    match s.version db with
    | some current =>
      if current ≤ v then s.hitsIn (indexName db .latest) else (s.hitsIn (wildcardName db)).filter (fun x => versionQuery v x.2)
    | none => (s.hitsIn (wildcardName db)).filter (fun x => versionQuery v x.2)

/-- `search(version).filter(query)` (manager.py:560-604); the query may be missing. -/
def Server.askIn (Q : QueryEnv) (db : PyStr) (s : Server) (at_ : SearchAt) : Option EsQuery → List (Mapping × Dict)
  | some q => (s.foundIn db at_).filter (fun x => q.matchesIn Q x.1 x.2)
  | none => s.foundIn db at_

/-- The documents that `search(version).filter(query)` finds. -/
def Server.ask (Q : QueryEnv) (db : PyStr) (s : Server) (at_ : SearchAt) (q : EsQuery) : List Dict := (s.askIn Q db at_ (some q)).map Prod.snd

/-! ## Aggregations -/

/-- The values of a keyword field in a document, for aggregations (Elasticsearch). -/
def keywordsAt (path : PyStr) (x : Mapping × Dict) : List PyStr :=
  (indexEntries x.1 x.2).filterMap (fun e => if e.1 = path then plainKeyword e.2 else none)

/-- The values of a date field in a document, for aggregations (Elasticsearch): milliseconds. -/
def datesAt (path : PyStr) (x : Mapping × Dict) : List Int :=
  (indexEntries x.1 x.2).filterMap (fun e => if e.1 = path then esDate e.2 else none)

/-- `get_version_changed_counts()` (manager.py:606-626) -/
def Server.changedCounts (db : PyStr) (s : Server) : Option (List (Int × Nat)) := do
  let docs := s.foundIn db .all
  let versions ← iterTerms (docs.map (datesAt "version".toList)) defaultChunk
  let nexts ← iterTerms (docs.map (datesAt "next".toList)) defaultChunk
  return aupdate (aofList versions) nexts

/-- `get_versions()` (manager.py:628-637) -/
def Server.versions (db : PyStr) (s : Server) : Option (List Int) := (s.changedCounts db).map (fun c => sortAsc (akeys c))

/-- `get_rounded_version(version)` (manager.py:214-230) -/
def Server.roundedVersion (db : PyStr) (s : Server) (v : Int) : Option (Option Int) :=
  (s.versions db).map (fun versions =>
    match versions with
    | [] => none
    | first :: _ => if v < first then none else versions[bisectRight versions v - 1]?)

/-- `get_data_fields(version, query)` (manager.py:639-688) -/
def Server.fieldsOfData (Q : QueryEnv) (db : PyStr) (s : Server) (at_ : SearchAt) (q : Option EsQuery) : Option (Except PyErr (List DataField)) :=
  getDataFields ((s.askIn Q db at_ q).map (keywordsAt "data_types".toList))

/-- `get_parsed_fields(version, query)` (manager.py:690-727) -/
def Server.fieldsOfParsed (Q : QueryEnv) (db : PyStr) (s : Server) (at_ : SearchAt) (q : Option EsQuery) :
    Option (Except PyErr (List (FieldCounts PType))) :=
  getParsedFields ((s.askIn Q db at_ q).map (keywordsAt "parsed_types".toList))

end Splitgill
