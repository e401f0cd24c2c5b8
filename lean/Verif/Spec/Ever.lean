import Verif.Spec.Search
import Verif.Spec.Filter
import Verif.Spec.Text
import Verif.Spec.Places
import Verif.Spec.Index
/-!
# Specification: what searches of all versions find

`search(SearchVersion.all)` finds documents of all versions. The field `versions` of a document says which versions it is for.
-/

namespace Splitgill

/-- The documents that are found when all versions are searched: each is for some versions, searches at just these find it, no two documents of a
record are for the same version, and none is there twice. -/
structure AllVersions {P : Type} (es : ES P) : Prop where
  at_version : ∀ d v, d ∈ found es (.version v) ↔ d ∈ found es .all ∧ d.covers v
  some_version : ∀ d ∈ found es .all, d.covers d.version
  apart : ∀ d ∈ found es .all, ∀ d' ∈ found es .all, d.id = d'.id → ∀ v, d.covers v → d'.covers v → d = d'
  once : (found es .all).Nodup

/-- A query on all versions finds documents for just the records and versions for which `holds`. -/
def FindsEver (Q : QueryEnv) (es : ES (Option ParsedData)) (q : EsQuery) (holds : PyStr → Int → Prop) : Prop :=
  (∀ id v, holds id v ↔ ∃ d ∈ es.searchFor Q .all q, d.id = id ∧ d.covers v) ∧
  (∀ id, id ∈ foundIds (es.searchFor Q .all q) ↔ ∃ v, holds id v)

/-- The queries that `term_query`, `range_query`, `match_query`, `exists_query` and `has_geo` make, on all versions, find documents for just the
records and versions that have what they ask for. -/
structure AnswersEver (E : ParseEnv) (s : Store) (opts : List (Int × ParsingOptions)) (es : ES (Option ParsedData)) : Prop where
  /-- `term_query` and `range_query` -/
  asked : (∀ x ∈ opts, 0 ≤ x.2.keywordLength) → ∀ (Q : QueryEnv) (field : PyStr) (k : Asked), k.Bounded → ∃ q, k.query Q field = .ok q ∧
    FindsEver Q es q (fun id v => HoldsAsOf s opts v id (fun a o => HasInField a field (k.holds Q E o)))
  /-- `match_query` -/
  text : ∀ (Q : QueryEnv) (query : PyStr) (field : Option PyStr) (every : Bool),
    FindsEver Q es (.match_ (matchQuery query field every))
      (fun id v => HoldsAsOf s opts v id (fun a o => MatchesText Q.analyse every query (IsTextOf E o a field)))
  /-- `exists_query` -/
  values : E.PlacesHaveValues → ∀ (Q : QueryEnv) (field : PyStr), (∀ k ∈ splitDots field, FieldName k) →
    FindsEver Q es (.exists_ (existsQuery field)) (fun id v => (s id).pending = none ∧
      ∃ a, AsOf (s id).committed v a ∧ ∃ p x, fieldPath p = field ∧ getAt p (.dict a) = some x ∧ HasValue x)
  /-- `has_geo` -/
  places : ∀ (Q : QueryEnv), FindsEver Q es (.exists_ hasGeo) (fun id v => HoldsAsOf s opts v id (fun a o => ∃ p g, PlaceAt E o a p g))

end Splitgill
