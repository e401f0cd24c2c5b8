import Verif.Model.Filter
import Verif.Spec.FieldProps
/-!
# Specification: exists queries among the documents that a search finds
-/

namespace Splitgill

/-- The documents that a search with or without a query finds. -/
def ES.foundDocs (Q : QueryEnv) (es : ES (Option ParsedData)) (at_ : SearchAt) : Option EsQuery → List (Doc (Option ParsedData))
  | some q => es.searchFor Q at_ q
  | none => (es.search at_).run es

/-- An exists query on `parsed_path(field, type)` finds as many of these documents as the listing of the parsed fields says. Unparsed values are
not indexed. -/
def FoundFieldQueries (Q : QueryEnv) (docs : List (Doc (Option ParsedData))) (gs : List (FieldCounts PType)) : Prop :=
  ∀ field t, t ≠ PType.unparsed →
    (∀ g ∈ gs, g.path = field → (docs.filter (fun d => (EsQuery.exists_ (parsedPath field t)).finds Q d)).length = g.countOf t) ∧
    (field ∉ gs.map FieldCounts.path → docs.filter (fun d => (EsQuery.exists_ (parsedPath field t)).finds Q d) = [])

end Splitgill
