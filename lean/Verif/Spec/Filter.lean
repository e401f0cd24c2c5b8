import Verif.Model.Filter
import Verif.Spec.Query
import Verif.Spec.Search
/-!
# Specification: what is asked for with a query
-/

namespace Splitgill

/-- The query: `term_query(field, value)` or `range_query(field, ...)`. -/
def Asked.query (Q : QueryEnv) (field : PyStr) : Asked → Except PyErr EsQuery
  | .string s => (termQuery Q field (.value (.str s)) none).map .term
  | .number n => (termQuery Q field (.value n.value) none).map .term
  | .boolean b => (termQuery Q field (.value (.bool b)) none).map .term
  | .moment m => (termQuery Q field m.arg none).map .term
  | .strings b => (rangeQuery Q field (b.map (fun s => .value (.str s))) none).map .range
  | .numbers b => (rangeQuery Q field (b.map (fun n => .value n.value)) none).map .range
  | .booleans b => (rangeQuery Q field (b.map (fun x => .value (.bool x))) none).map .range
  | .moments b => (rangeQuery Q field (b.map Moment.arg) none).map .range

/-- The ids of the records that a search finds. -/
def foundIds (docs : List (Doc (Option ParsedData))) : List PyStr := docs.map (fun d => d.id)

/-- The record has nothing uncommitted, and there is data of it as of `v`, and options as of `v`, for which this holds. The options are the
committed ones, as far as they are not from before the record. -/
def HoldsAsOf (s : Store) (options : List (Int × ParsingOptions)) (v : Int) (id : PyStr) (P : Dict → ParsingOptions → Prop) : Prop :=
  (s id).pending = none ∧ ∃ a o, AsOf (s id).committed v a ∧ OptionsAsOf (effectiveOptions (s id).committed options) v o ∧ P a o

/-- The record is found by the search. -/
def FoundBy (Q : QueryEnv) (es : ES (Option ParsedData)) (v : Int) (q : Option EsQuery) (id : PyStr) : Prop :=
  match q with
  | some q => id ∈ foundIds (es.searchFor Q (.version v) q)
  | none => foundFor es (.version v) id ≠ []

end Splitgill
