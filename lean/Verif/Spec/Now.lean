import Verif.Spec.FieldCalls
import Verif.Spec.Search
import Verif.Spec.Filter
import Verif.Spec.Text
import Verif.Spec.Places
/-!
# Specification: what searches without a version find

`search()`, `get_data_fields()` and `get_parsed_fields()` without a version are about the newest data of the records and the newest options.
-/

namespace Splitgill

/-- The record has nothing uncommitted, and this holds for its newest data and the newest options. The options are the committed ones, as far as they
are not from before the record. -/
def HoldsNow (s : Store) (options : List (Int × ParsingOptions)) (id : PyStr) (P : Dict → ParsingOptions → Prop) : Prop :=
  (s id).pending = none ∧ ∃ a o, Newest (s id).committed a ∧ Newest (effectiveOptions (s id).committed options) o ∧ P a o

/-- The queries that `term_query`, `range_query`, `match_query`, `exists_query` and `has_geo` make, without a version, find the records that have what
they ask for in their newest data, each once. -/
structure AnswersNow (E : ParseEnv) (s : Store) (opts : List (Int × ParsingOptions)) (es : ES (Option ParsedData)) : Prop where
  /-- `term_query` and `range_query` -/
  asked : (∀ x ∈ opts, 0 ≤ x.2.keywordLength) → ∀ (Q : QueryEnv) (field : PyStr) (k : Asked), k.Bounded → ∃ q, k.query Q field = .ok q ∧
    (foundIds (es.searchFor Q .latest q)).Nodup ∧ ∀ id, id ∈ foundIds (es.searchFor Q .latest q) ↔
      HoldsNow s opts id (fun a o => HasInField a field (k.holds Q E o))
  /-- `match_query` -/
  text : ∀ (Q : QueryEnv) (query : PyStr) (field : Option PyStr) (every : Bool),
    (foundIds (es.searchFor Q .latest (.match_ (matchQuery query field every)))).Nodup ∧
    ∀ id, id ∈ foundIds (es.searchFor Q .latest (.match_ (matchQuery query field every))) ↔
      HoldsNow s opts id (fun a o => MatchesText Q.analyse every query (IsTextOf E o a field))
  /-- `exists_query` -/
  values : E.PlacesHaveValues → ∀ (Q : QueryEnv) (field : PyStr), (∀ k ∈ splitDots field, FieldName k) →
    (foundIds (es.searchFor Q .latest (.exists_ (existsQuery field)))).Nodup ∧
    ∀ id, id ∈ foundIds (es.searchFor Q .latest (.exists_ (existsQuery field))) ↔
      (s id).pending = none ∧ ∃ a, Newest (s id).committed a ∧ ∃ p x, fieldPath p = field ∧ getAt p (.dict a) = some x ∧ HasValue x
  /-- `has_geo` -/
  places : ∀ (Q : QueryEnv), (foundIds (es.searchFor Q .latest (.exists_ hasGeo))).Nodup ∧
    ∀ id, id ∈ foundIds (es.searchFor Q .latest (.exists_ hasGeo)) ↔ HoldsNow s opts id (fun a o => ∃ p g, PlaceAt E o a p g)

/-- `get_data_fields(query=q)` and `get_parsed_fields(query=q)` list the fields of the newest data of the records that the query finds, with the numbers
of records; they agree with each other and with exists queries. -/
def ListsNow (E : ParseEnv) (s : Store) (opts : List (Int × ParsingOptions)) (ids : List PyStr) (es : ES (Option ParsedData)) : Prop :=
  ∀ (Q : QueryEnv) (q : Option EsQuery), ∃ fs gs, es.fieldsOfData Q .latest q = some (.ok fs) ∧ es.fieldsOfParsed Q .latest q = some (.ok gs) ∧
    ListsFields DType.name ids (fun id p t => id ∈ foundIds (es.foundDocs Q .latest q) ∧ ∃ a, Newest (s id).committed a ∧ DataTypeAt a p t)
      (fs.map DataField.toFieldCounts) ∧ LinksFields fs ∧
    ListsFields PType.name ids (fun id p t => id ∈ foundIds (es.foundDocs Q .latest q) ∧ ∃ a o, Newest (s id).committed a ∧
      Newest (effectiveOptions (s id).committed opts) o ∧ ParsedTypeAt E o a p t) gs ∧
    FieldsAgree fs gs ∧ ParentsContain fs ∧ FoundFieldQueries Q (es.foundDocs Q .latest q) gs

end Splitgill
