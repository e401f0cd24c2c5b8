import Verif.Model.Filter
/-!
# Zeros with a sign in queries

In Verif.Model.Query the doubles of Elasticsearch are rational numbers, with one zero. A double has two: `-0.0` and `0.0` are different terms
of a `double` field, and `-0.0` is the one before `0.0` (Lucene compares doubles by their sortable bits). Here the queries are modelled with
both zeros.
-/

namespace Splitgill

/-- A double: a number, and for zero whether it is `0.0`; of other numbers the sign is not looked at. -/
structure Signed where
  number : ℚ
  plus : Bool
  deriving DecidableEq

/-- A value of a `double` field (indexing/templates.py:193-199): the nearest double, with both zeros. An int `0` is `0.0`. -/
def esSigned : Value → Option Signed
  | .int i => some ⟨fl i, true⟩
  | .float (.fin q) => some ⟨fl q, true⟩
  | .float .negZero => some ⟨0, false⟩
  | _ => none

/-- The order of the doubles in a `double` field: by number, and `-0.0` before `0.0`. -/
def leSigned (a b : Signed) : Bool := decide (a.number < b.number) || (decide (a.number = b.number) && (!a.plus || b.plus))

/-- Does a document match the query of `term_query` (search.py:143-165), with both zeros? -/
def EsTerm.matchesSigned (Q : QueryEnv) (q : EsTerm) (parsed : Dict) : Bool :=
  match (esField q.path parsed).2 with
  | some .number => (esField q.path parsed).1.any (fun s => esTermValue esSigned s q.value)
  | _ => q.matches Q parsed

/-- Does a document match the query of `range_query` (search.py:186-233), with both zeros? -/
def EsRange.matchesSigned (Q : QueryEnv) (q : EsRange) (parsed : Dict) : Bool :=
  match (esField q.path parsed).2 with
  | some .number => (esField q.path parsed).1.any (fun s => esRangeValue leSigned esSigned s q.bounds)
  | _ => q.matches Q parsed

/-- Does a document match a query (search.py:110-233), with both zeros? Only terms and ranges compare numbers. -/
def EsQuery.matchesSigned (Q : QueryEnv) : EsQuery → Dict → Bool
  | .term q, parsed => q.matchesSigned Q parsed
  | .range q, parsed => q.matchesSigned Q parsed
  | q, parsed => q.matches Q parsed

/-- Does a document of the indices match a query (search.py:110-233), with both zeros? -/
def EsQuery.findsSigned (Q : QueryEnv) (q : EsQuery) (d : Doc (Option ParsedData)) : Bool :=
  match d.parsed with
  | some p => q.matchesSigned Q p.parsed
  | none => false

/-- `search(version).filter(query)` (manager.py:560-604), with both zeros -/
def ES.searchSigned (Q : QueryEnv) (es : ES (Option ParsedData)) (at_ : SearchAt) (q : EsQuery) : List (Doc (Option ParsedData)) :=
  ((es.search at_).run es).filter (fun d => q.findsSigned Q d)

end Splitgill
