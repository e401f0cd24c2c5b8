import Verif.Model.Search
/-!
# Model of the names of indices, and of several databases in Elasticsearch

`IndexNames`, `DeleteOp.serialise` (indexing/index.py), `create_templates` (indexing/templates.py), and the parts of
manager.py that use wildcards, for an Elasticsearch with the indices of many databases.
-/

namespace Splitgill

/-- `IndexNames.latest`, `IndexNames.get_arc` (indexing/index.py:52-72) -/
def indexName (db : PyStr) : Ix → PyStr
  | .latest => "data-".toList ++ db ++ "-latest".toList
  | .arc n => "data-".toList ++ db ++ "-arc".toList ++ "-".toList ++ Nat.toDigits 10 n

/-- `IndexNames.wildcard` (indexing/index.py:61) -/
def wildcardName (db : PyStr) : PyStr := "data-".toList ++ db ++ "-*".toList

/-- `IndexNames.arc_wildcard` (indexing/index.py:63) -/
def arcWildcardName (db : PyStr) : PyStr := "data-".toList ++ db ++ "-arc".toList ++ "-*".toList

/-- Whether a name matches a pattern in which `*` is any string (Elasticsearch). -/
def glob : PyStr → PyStr → Bool
  | [], s => s.isEmpty
  | c :: p, s =>
    if c = '*' then s.tails.any (glob p)
    else
      match s with
      | [] => false
      | d :: s => decide (c = d) && glob p s

/-! ## Many databases -/

/-- The indices of all databases. An index is identified by its database and `Ix`; its name is `indexName`. (Different
indices have different names, `C46_names`.) -/
abbrev Cluster (P : Type) := List ((PyStr × Ix) × Index P)

/-- The indices of a database. -/
def Cluster.of {P : Type} (db : PyStr) (c : Cluster P) : ES P :=
  c.filterMap (fun x => if x.1.1 = db then some (x.1.2, x.2) else none)

/-- The indices whose name matches a pattern (Elasticsearch). -/
def Cluster.matching {P : Type} (pattern : PyStr) (c : Cluster P) : Cluster P :=
  c.filter (fun x => glob pattern (indexName x.1.1 x.1.2))

/-- What a request for a pattern sees. -/
def Cluster.seen {P : Type} (pattern : PyStr) (c : Cluster P) : ES P :=
  (c.matching pattern).map (fun x => (x.1.2, x.2))

/-- `get_elasticsearch_version()` of one of the databases (manager.py:188-212). -/
def Cluster.version {P : Type} (db : PyStr) (c : Cluster P) : Option Int := (c.seen (wildcardName db)).version

/-- `name.split("-")[-1]` -/
def lastPart (name : PyStr) : PyStr := (name.reverse.takeWhile (fun c => decide (c ≠ '-'))).reverse

/-- `int(s)`; `none` for `ValueError`. Simplified: Python also takes signs, underscores, spaces and other digits. -/
def pyInt (s : PyStr) : Option Nat :=
  if !s.isEmpty && s.all Char.isDigit then some (Nat.ofDigitChars 10 s 0) else none

/-- `int(...)` for each; `none` if one fails. -/
def pyInts : List PyStr → Option (List Nat)
  | [] => some []
  | s :: l =>
    match pyInt s, pyInts l with
    | some n, some ns => some (n :: ns)
    | _, _ => none

/-- `get_arc_status()` (manager.py:136-160) -/
def Cluster.arcStatus {P : Type} (db : PyStr) (c : Cluster P) : Except PyErr (Nat × Nat) :=
  match pyInts ((c.matching (arcWildcardName db)).map (fun x => lastPart (indexName x.1.1 x.1.2))) with
  | none => .error .valueError
  | some ns =>
    match ns.max? with
    | none => .ok (0, 0)
    | some n =>
      match aget (db, .arc n) c with
      | none => .error .notFound
      | some docs => .ok (n, docs.length)

/-- Deleting the indices that match `arc_wildcard` (manager.py:495-501, 526-531). -/
def Cluster.deleteArcs {P : Type} (db : PyStr) (c : Cluster P) : Cluster P :=
  c.filter (fun x => !glob (arcWildcardName db) (indexName x.1.1 x.1.2))

/-- The documents of an index of a database. -/
def Cluster.docs {P : Type} (db : PyStr) (ix : Ix) (c : Cluster P) : Index P := (aget (db, ix) c).getD []

/-- The effect of an operation of a database (Elasticsearch); see `BulkOp.apply`. -/
def BulkOp.applyIn {P : Type} (db : PyStr) (c : Cluster P) : BulkOp P → Cluster P
  | .index ix docId doc => aset (db, ix) (indexDoc docId doc (c.docs db ix)) c
  | .delete ix docId => aset (db, ix) (aerase (some docId) (c.docs db ix)) c

/-- `sync(resync)` of one of the databases (manager.py:441-515). -/
def Cluster.sync {P : Type} (X : Parser P) (maxDocs : Nat) (db : PyStr) (resync : Bool) (m : Mongo) (c : Cluster P) :
    Except PyErr (Cluster P) :=
  if !hasData db m then .ok c
  else
    match syncScope db resync m (c.seen (wildcardName db)) with
    | .error e => .error e
    | .ok none => .ok c
    | .ok (some (sel, lastSync)) =>
      let c := if resync then c.deleteArcs db else c
      match c.arcStatus db with
      | .error e => .error e
      | .ok arc =>
        match generateOps X maxDocs (committedOptionsOf db m) lastSync arc ((m.data db).filter sel) with
        | .error e => .error e
        | .ok (ops, _) => .ok (ops.foldl (BulkOp.applyIn db) c)

/-- `resync_arcs()` of one of the databases (manager.py:517-558). -/
def Cluster.resyncArcs {P : Type} (X : Parser P) (maxDocs : Nat) (db : PyStr) (m : Mongo) (c : Cluster P) :
    Except PyErr (Cluster P) :=
  let c := c.deleteArcs db
  match c.arcStatus db with
  | .error e => .error e
  | .ok arc =>
    match generateOps X maxDocs (committedOptionsOf db m) none arc ((m.data db).filter (fun r => r.version.isSome)) with
    | .error e => .error e
    | .ok (ops, _) => .ok ((ops.filter (fun op => decide (op.ix ≠ .latest))).foldl (BulkOp.applyIn db) c)

/-- The documents that `search(version)` of one of the databases finds (manager.py:560-604). -/
def Cluster.search {P : Type} (db : PyStr) (c : Cluster P) (at_ : SearchAt) : List (Doc P) :=
  let s := (c.seen (wildcardName db)).search at_
  let docs := match s.index with
    | .latest => (c.docs db .latest).map Prod.snd
    | .wildcard => (c.seen (wildcardName db)).all
  match s.filter with
  | none => docs
  | some v => docs.filter (fun d => d.inRange v)

/-! ## Templates -/

/-- The index templates. -/
inductive Template
  | latest
  | arc
deriving DecidableEq

/-- `index_patterns` and `priority` of the templates (indexing/templates.py:22-58). -/
def Template.pattern : Template → PyStr
  | .latest => "data-*-latest".toList
  | .arc => "data-*-arc-*".toList

def Template.priority : Template → Nat
  | .latest => 800
  | .arc => 700

/-- The template for a new index: of those whose pattern matches its name, the one with the highest priority
(Elasticsearch). `create_templates` makes these two (indexing/templates.py:6-19). -/
def templateFor (name : PyStr) : Option Template :=
  ([Template.arc, Template.latest].filter (fun t => glob t.pattern name)).foldl
    (fun best t => match best with
      | none => some t
      | some b => if b.priority < t.priority then some t else some b) none

/-! ## Delete ops -/

/-- `DeleteOp.serialise` (indexing/index.py:115-121) -/
def serialiseDelete (index docId : PyStr) : PyStr :=
  "{\"delete\":{\"_index\":\"".toList ++ index ++ "\",\"_id\":\"".toList ++ docId ++ "\"}}".toList

end Splitgill
