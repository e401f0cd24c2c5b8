import Verif.Model.Index
import Mathlib.Data.List.Dedup
import Mathlib.Data.Int.Order.Basic
/-!
# Model of searching at a version

`SplitgillDatabase.search`, `get_version_changed_counts`, `get_versions`, `get_rounded_version` (manager.py),
`index_specific_version_filter` (search.py) and `iter_terms` (utils.py).
-/

namespace Splitgill

/-! ## Searches -/

/-- The parameter of `search`: a `SearchVersion` or an int. -/
inductive SearchAt
  | latest
  | all
  | version (v : Int)

/-- The indices a `Search` looks at: `data-<name>-latest` or `data-<name>-*`. -/
inductive SearchIndex
  | latest
  | wildcard

/-- A `Search` of elasticsearch-dsl: the indices and the version of the filter `version_query`
(search.py:46-55). -/
structure Search where
  index : SearchIndex
  filter : Option Int

/-- `search(version)` (manager.py:560-604) -/
def ES.search {P : Type} (es : ES P) : SearchAt → Search
  | .version v =>
    match es.version with
    | some current => if current ≤ v then ⟨.latest, none⟩ else ⟨.wildcard, some v⟩
    | none => ⟨.wildcard, some v⟩
  | .latest => ⟨.latest, none⟩
  | .all => ⟨.wildcard, none⟩

/-- `version_query(v)` on the range field `versions` `{"gte": .., "lt": ..}` (search.py:46-55): Elasticsearch
matches the documents whose range contains the value. -/
def Doc.inRange {P : Type} (d : Doc P) (v : Int) : Bool :=
  decide (d.gte ≤ v) && (match d.lt with | none => true | some e => decide (v < e))

/-- The documents a search finds (Elasticsearch). -/
def Search.run {P : Type} (s : Search) (es : ES P) : List (Doc P) :=
  let docs := match s.index with
    | .latest => (es.docs .latest).map Prod.snd
    | .wildcard => es.all
  match s.filter with
  | none => docs
  | some v => docs.filter (fun d => d.inRange v)

/-! ## Terms aggregations -/

section
variable {α : Type} [LinearOrder α]

/-- All buckets of a composite aggregation on the values of a field (Elasticsearch): one for each value, with the number
of documents that have it, in the order of the values. `docs` are the values of the field in each document
found. -/
def buckets (docs : List (List α)) : List (α × Nat) :=
  (sortBy (fun a b => decide (a ≤ b)) docs.flatten.dedup).map (fun a => (a, docs.countP (fun d => decide (a ∈ d))))

/-- One response: the first `size` buckets after the key `after` (Elasticsearch). -/
def bucketsPage (docs : List (List α)) (size : Nat) (after : Option α) : List (α × Nat) :=
  ((buckets docs).filter (fun b => match after with | none => true | some a => decide (a < b.1))).take size

/-- The loop of `iter_terms` (utils.py:100-123): the terms it yields, if it ends after at most `n` requests.
`after_key` is the key of the last bucket of the response. -/
def iterTermsN (docs : List (List α)) (size : Nat) : Nat → Option α → Option (List (α × Nat))
  | 0, _ => none
  | n + 1, after =>
    match (bucketsPage docs size after).getLast? with
    | none => some []
    | some last => (iterTermsN docs size n (some last.1)).map (bucketsPage docs size after ++ ·)

/-- `iter_terms(search, field, chunk_size)` (utils.py:88-123), cut off after more requests than there can be
values: `none` if it goes on for longer. -/
def iterTerms (docs : List (List α)) (size : Nat) : Option (List (α × Nat)) :=
  iterTermsN docs size (docs.flatten.length + 1) none

end

/-! ## Versions -/

/-- The values of the field `version` in the documents. -/
def versionValues {P : Type} (docs : List (Doc P)) : List (List Int) := docs.map (fun d => [d.version])
/-- The values of the field `next` in the documents. -/
def nextValues {P : Type} (docs : List (Doc P)) : List (List Int) := docs.map (fun d => d.next.toList)

/-- `chunk_size` is 50 unless given (utils.py:88). -/
def defaultChunk : Nat := 50

/-- `get_version_changed_counts()` (manager.py:606-626) -/
def ES.changedCounts {P : Type} (es : ES P) : Option (List (Int × Nat)) := do
  let docs := (es.search .all).run es
  let versions ← iterTerms (versionValues docs) defaultChunk
  let nexts ← iterTerms (nextValues docs) defaultChunk
  return aupdate (aofList versions) nexts

/-- `get_versions()` (manager.py:628-637) -/
def ES.versions {P : Type} (es : ES P) : Option (List Int) := es.changedCounts.map (fun c => sortAsc (akeys c))

/-- `bisect_right(l, v)` for a list in ascending order. -/
def bisectRight (l : List Int) (v : Int) : Nat := (l.takeWhile (fun w => decide (w ≤ v))).length

/-- `get_rounded_version(version)` (manager.py:214-230). The outer option is that of `versions`. -/
def ES.roundedVersion {P : Type} (es : ES P) (v : Int) : Option (Option Int) :=
  es.versions.map (fun versions =>
    match versions with
    | [] => none
    | first :: _ => if v < first then none else versions[bisectRight versions v - 1]?)

/-! ## Filters on several indices -/

/-- The queries that `index_specific_version_filter` makes. -/
inductive VQuery
  /-- `Q("term", _index=name)` -/
  | indexTerm (name : PyStr)
  /-- `Q("terms", _index=names)` -/
  | indexTerms (names : List PyStr)
  /-- `version_query(v)` -/
  | version (v : Int)
  /-- `Bool(filter=[a, b])` -/
  | both (a b : VQuery)
  /-- `Bool(should=qs, minimum_should_match=1)`; without queries Elasticsearch takes it for a query that matches everything. -/
  | anyOf (qs : List VQuery)

mutual
/-- The documents that a query matches (Elasticsearch), given the name of the index of the document. -/
def VQuery.matches {P : Type} : VQuery → PyStr → Doc P → Bool
  | .indexTerm name, i, _ => decide (i = name)
  | .indexTerms names, i, _ => decide (i ∈ names)
  | .version v, _, d => d.inRange v
  | .both a b, i, d => a.matches i d && b.matches i d
  | .anyOf [], _, _ => true
  | .anyOf (q :: qs), i, d => q.matches i d || matchesAny qs i d
/-- Whether one of the queries matches. -/
def matchesAny {P : Type} : List VQuery → PyStr → Doc P → Bool
  | [], _, _ => false
  | q :: qs, i, d => q.matches i d || matchesAny qs i d
end

/-- `by_version` (search.py:75-77): the names grouped by version. -/
def groupByVersion (m : List (PyStr × Int)) : List (Int × List PyStr) :=
  m.foldl (fun acc iv => aset iv.2 ((aget iv.2 acc).getD [] ++ [iv.1]) acc) []

/-- `index_specific_version_filter(indexes_and_versions)` (search.py:58-97) -/
def indexSpecificVersionFilter (m : List (PyStr × Int)) : VQuery :=
  match groupByVersion m with
  | [(v, _)] => .version v
  | groups => .anyOf (groups.map (fun g =>
      match g.2 with
      | [i] => .both (.indexTerm i) (.version g.1)
      | is => .both (.indexTerms is) (.version g.1)))

end Splitgill
