import Verif.Model.Entries
import Verif.Spec.Parse
/-!
# Specification: the queries of `splitgill/search.py`
-/

namespace Splitgill

/-- The queries that `term_query`, `range_query` (on keywords, numbers, dates and booleans), `exists_query` (for names of fields), `has_geo` and
`match_query` make. -/
inductive EsQuery.Made : EsQuery → Prop
  | term (field : PyStr) (t : PType) (v : Value) : t = .keyword ∨ t = .number ∨ t = .date ∨ t = .boolean → Made (.term ⟨parsedPath field t, v⟩)
  | range (field : PyStr) (t : PType) (b : Bounds Value) : t = .keyword ∨ t = .number ∨ t = .date ∨ t = .boolean → Made (.range ⟨parsedPath field t, b⟩)
  | exists_ (field : PyStr) : (∀ k ∈ splitDots field, FieldName k) → Made (.exists_ (existsQuery field))
  | hasGeo : Made (.exists_ hasGeo)
  | match_ (query : PyStr) (field : Option PyStr) (every : Bool) : Made (.match_ (matchQuery query field every))

/-- The query is an `exists_query`. -/
def EsQuery.AsksValues (q : EsQuery) : Prop := ∃ field, q = .exists_ (existsQuery field)

/-- The ids of the records of documents that were found. -/
def askedIds (docs : List Dict) : List PyStr :=
  docs.filterMap (fun doc : Dict => match aget "id".toList doc with
    | some (Value.str id) => some id
    | _ => none)

/-- The record is found by the search `search(version=v)`, with the query if there is one. -/
def ServerFinds (Q : QueryEnv) (db : PyStr) (s : Server) (v : Int) (q : Option EsQuery) (id : PyStr) : Prop :=
  id ∈ askedIds ((s.askIn Q db (.version v) q).map Prod.snd)

end Splitgill
