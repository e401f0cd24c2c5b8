import Verif.Model.RealParser
import Verif.Model.Query
import Verif.Model.Fields
/-!
# Searches with a query, and the fields of what is found, with the parser of the code
-/

namespace Splitgill

/-- The queries of `splitgill/search.py` as Elasticsearch gets them. -/
inductive EsQuery
  | term (q : EsTerm)
  | range (q : EsRange)
  /-- `Q("exists", field=path)` -/
  | exists_ (path : PyStr)
  | match_ (q : EsMatch)

/-- Does a document match a query? -/
def EsQuery.matches (Q : QueryEnv) : EsQuery → Dict → Bool
  | .term q, parsed => q.matches Q parsed
  | .range q, parsed => q.matches Q parsed
  | .exists_ path, parsed => existsMatches path parsed
  | .match_ q, parsed => q.matches Q parsed

/-- Does a document of the indices match a query? -/
def EsQuery.finds (Q : QueryEnv) (q : EsQuery) (d : Doc (Option ParsedData)) : Bool :=
  match d.parsed with
  | some p => q.matches Q p.parsed
  | none => false

/-- `search(version).filter(query)` (manager.py:560-604) -/
def ES.searchFor (Q : QueryEnv) (es : ES (Option ParsedData)) (at_ : SearchAt) (q : EsQuery) : List (Doc (Option ParsedData)) :=
  ((es.search at_).run es).filter (fun d => q.finds Q d)

/-- The entries of the types in a document. -/
def Doc.dataTypes (d : Doc (Option ParsedData)) : List PyStr := match d.parsed with | some p => p.dataTypes | none => []
def Doc.parsedTypes (d : Doc (Option ParsedData)) : List PyStr := match d.parsed with | some p => p.parsedTypes | none => []

/-- `get_data_fields(version, query)` (manager.py:639-688); the query may be missing. -/
def ES.fieldsOfData (Q : QueryEnv) (es : ES (Option ParsedData)) (at_ : SearchAt) (q : Option EsQuery) :
    Option (Except PyErr (List DataField)) :=
  getDataFields ((match q with | some q => es.searchFor Q at_ q | none => (es.search at_).run es).map Doc.dataTypes)

/-- `get_parsed_fields(version, query)` (manager.py:690-727); the query may be missing. -/
def ES.fieldsOfParsed (Q : QueryEnv) (es : ES (Option ParsedData)) (at_ : SearchAt) (q : Option EsQuery) :
    Option (Except PyErr (List (FieldCounts PType))) :=
  getParsedFields ((match q with | some q => es.searchFor Q at_ q | none => (es.search at_).run es).map Doc.parsedTypes)

end Splitgill
