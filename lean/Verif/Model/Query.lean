import Verif.Model.Parse
import Verif.Model.Time
/-!
# Model of the queries of `splitgill/search.py` (lines 35-43 and 100-233), and of what they match

Elasticsearch is modelled by its documented behaviour: a path finds values inside lists too, and a query on a field
with several values matches if one of them matches.
-/

namespace Splitgill

/-- What queries ask from their surroundings. -/
structure QueryEnv where
  /-- The normalizer of keyword fields, `lowercase` (indexing/templates.py:61-69 and 181-192). -/
  normalise : PyStr → PyStr
  /-- The offset of local time from UTC at a local time, in microseconds. -/
  localOffset : ℤ → ℤ
  /-- The words that the analyzer of text fields finds in a text (the standard analyzer: indexing/templates.py:103,
  169-180 name none). -/
  analyse : PyStr → List PyStr

/-- An argument of a query: a value, a time zone aware datetime (microseconds since the epoch), or a naive datetime or a
date (microseconds between `1970-01-01T00:00:00` and it). -/
inductive Arg
  | value (v : Value)
  | aware (us : ℤ)
  | naive (us : ℤ)

/-- The value of an argument in a query; `to_timestamp` (utils.py:12-29) of datetimes and dates. A naive datetime is in
local time for `timestamp()`. Simplified: the timestamp of the same moment with a time zone, which is that of Python for dates and from 1697 to
2242 but for the days next to the epoch (`C54_date`, `C54_naive_partial`). -/
def Arg.toValue (Q : QueryEnv) : Arg → Value
  | .value v => v
  | .aware us => .int (toTimestamp us)
  | .naive us => .int (toTimestamp (us - Q.localOffset us))

/-- `infer_parsed_type` (search.py:120-140) -/
def inferParsedType : Arg → Except PyErr PType
  | .value (.str _) => .ok .keyword
  | .value (.bool _) => .ok .boolean
  | .value (.int _) => .ok .number
  | .value (.float _) => .ok .number
  | .value _ => .error .valueError
  | .aware _ => .ok .date
  | .naive _ => .ok .date

/-- The `parsed_type` argument or the inferred type (search.py:158-159, 226-227). -/
def typeOrInfer : Option PType → Arg → Except PyErr PType
  | some t, _ => .ok t
  | none, a => inferParsedType a

/-- `parsed_path` (indexing/fields.py:84-107) with a type and with `full=True` -/
def parsedPath (field : PyStr) (t : PType) : PyStr := "data".toList ++ '.' :: (field ++ '.' :: t.name)

/-- A `term` query. -/
structure EsTerm where
  path : PyStr
  value : Value

/-- `term_query` (search.py:143-165). Simplified: a datetime with a type other than date is not modelled. -/
def termQuery (Q : QueryEnv) (field : PyStr) (a : Arg) (t : Option PType) : Except PyErr EsTerm :=
  match typeOrInfer t a with
  | .error e => .error e
  | .ok t =>
    match a with
    | .value v => .ok ⟨parsedPath field t, v⟩
    | a => if t = .date then .ok ⟨parsedPath field t, a.toValue Q⟩ else .error .unsupported

/-- `id_query` (search.py:35-43) -/
def idQuery (Q : QueryEnv) (id : PyStr) : Except PyErr EsTerm := termQuery Q dataIdField (.value (.str id)) (some .keyword)

/-- The bounds of a range query. -/
structure Bounds (α : Type) where
  gte : Option α := none
  lt : Option α := none
  gt : Option α := none
  lte : Option α := none

def Bounds.map {α β : Type} (f : α → β) (b : Bounds α) : Bounds β := ⟨b.gte.map f, b.lt.map f, b.gt.map f, b.lte.map f⟩

/-- A `range` query. -/
structure EsRange where
  path : PyStr
  bounds : Bounds Value

/-- The first bound given, in the order of the loop (search.py:212-216). -/
def Bounds.first {α : Type} (b : Bounds α) : Option α := [b.gte, b.lt, b.gt, b.lte].findSome? id

/-- `range_query` (search.py:186-233) without `range_kwargs`. -/
def rangeQuery (Q : QueryEnv) (field : PyStr) (b : Bounds Arg) (t : Option PType) : Except PyErr EsRange :=
  match b.first with
  | none => .error .valueError
  | some a =>
    match typeOrInfer t a with
    | .error e => .error e
    | .ok t => .ok ⟨parsedPath field t, b.map (Arg.toValue Q)⟩

/-! ## Matching in Elasticsearch -/

/-- The names in a path. -/
def splitDots : PyStr → List PyStr
  | [] => [[]]
  | c :: s =>
    if c = '.' then [] :: splitDots s
    else
      match splitDots s with
      | a :: r => (c :: a) :: r
      | [] => [[c]]

mutual
/-- The values of a document at a path, through lists. -/
def esValues : Value → List PyStr → List Value
  | .dict d, k :: ks => esItems d k ks
  | .dict _, [] => []
  | .list l, ks => esElems l ks
  | .none, _ => []
  | v, [] => [v]
  | _, _ :: _ => []
def esItems : Dict → PyStr → List PyStr → List Value
  | [], _, _ => []
  | (k', v) :: r, k, ks => if k' = k then esValues v ks else esItems r k ks
def esElems : List Value → List PyStr → List Value
  | [], _ => []
  | v :: r, ks => esValues v ks ++ esElems r ks
end

/-- The values of a document with this data at the path of a query, and the type of the field (the dynamic templates of
indexing/templates.py:119-214: by the last name). Simplified: only keywords, numbers, dates and booleans. -/
def esField (path : PyStr) (parsed : Dict) : List Value × Option PType :=
  match splitDots path with
  | [] => ([], none)
  | k :: ks => (if k = "data".toList then esValues (.dict parsed) ks else [],
    [PType.keyword, .number, .date, .boolean].find? (fun t => some t.name = ks.getLast?))

/-- A value of a keyword field (indexing/templates.py:181-192). -/
def esKeyword (Q : QueryEnv) : Value → Option PyStr
  | .str s => some (Q.normalise s)
  | _ => none

/-- A value of a `double` field (indexing/templates.py:193-199): the nearest double. Simplified: `-0.0` is `0.0`
(Verif.Model.Zeros has both). -/
def esDouble : Value → Option ℚ
  | .int i => some (fl i)
  | .float (.fin q) => some (fl q)
  | .float .negZero => some 0
  | _ => none

/-- A value of a date field with the format `epoch_millis` (indexing/templates.py:200-206). -/
def esDate : Value → Option ℤ
  | .int i => some i
  | _ => none

/-- A value of a boolean field (indexing/templates.py:207-213). -/
def esBool : Value → Option Bool
  | .bool b => some b
  | _ => none

/-- Does a value match a term? A value that is not of the type of the field never does; Elasticsearch would convert some
and reject others. -/
def esTermValue {α : Type} [DecidableEq α] (conv : Value → Option α) (stored value : Value) : Bool :=
  match conv stored, conv value with
  | some a, some b => decide (a = b)
  | _, _ => false

/-- Does a document match a term query? -/
def EsTerm.matches (Q : QueryEnv) (q : EsTerm) (parsed : Dict) : Bool :=
  let f := esField q.path parsed
  f.1.any (fun s =>
    match f.2 with
    | some .keyword => esTermValue (esKeyword Q) s q.value
    | some .number => esTermValue esDouble s q.value
    | some .date => esTermValue esDate s q.value
    | some .boolean => esTermValue esBool s q.value
    | _ => false)

/-- Is a bound kept? -/
def esBound {α : Type} (conv : Value → Option α) (b : Option Value) (ok : α → Bool) : Bool :=
  match b with
  | none => true
  | some v =>
    match conv v with
    | some y => ok y
    | none => false

/-- Does a value match a range? As for terms, a bound that is not of the type of the field is never kept. -/
def esRangeValue {α : Type} (le : α → α → Bool) (conv : Value → Option α) (stored : Value) (b : Bounds Value) : Bool :=
  match conv stored with
  | some x => esBound conv b.gte (fun y => le y x) && esBound conv b.lt (fun y => !le y x) &&
      esBound conv b.gt (fun y => !le x y) && esBound conv b.lte (fun y => le x y)
  | none => false

/-- Does a document match a range query? One value has to be inside. -/
def EsRange.matches (Q : QueryEnv) (q : EsRange) (parsed : Dict) : Bool :=
  let f := esField q.path parsed
  f.1.any (fun s =>
    match f.2 with
    | some .keyword => esRangeValue strLe (esKeyword Q) s q.bounds
    | some .number => esRangeValue (fun a b : ℚ => decide (a ≤ b)) esDouble s q.bounds
    | some .date => esRangeValue (fun a b : ℤ => decide (a ≤ b)) esDate s q.bounds
    | some .boolean => esRangeValue (fun a b : Bool => decide (a ≤ b)) esBool s q.bounds
    | _ => false)

/-! ## Exists queries -/

/-- The field of `exists_query` (search.py:110-117): `parsed_path` without a type. -/
def existsQuery (field : PyStr) : PyStr := "data".toList ++ '.' :: field

mutual
/-- Is there an indexed value in a value of a document? Unparsed values are not indexed
(indexing/templates.py:122-141). -/
def esHas : Value → Bool
  | .dict d => esHasItems d
  | .list l => esHasElems l
  | .none => false
  | _ => true
def esHasItems : Dict → Bool
  | [] => false
  | (k, v) :: r => (decide (k ≠ PType.unparsed.name) && esHas v) || esHasItems r
def esHasElems : List Value → Bool
  | [] => false
  | v :: r => esHas v || esHasElems r
end

mutual
/-- Does a document have an indexed value at a path or below? -/
def esExists : Value → List PyStr → Bool
  | v, [] => esHas v
  | .dict d, k :: ks => esExistsItems d k ks
  | .list l, k :: ks => esExistsElems l (k :: ks)
  | _, _ :: _ => false
def esExistsItems : Dict → PyStr → List PyStr → Bool
  | [], _, _ => false
  | (k', v) :: r, k, ks => if k' = k then esExists v ks else esExistsItems r k ks
def esExistsElems : List Value → List PyStr → Bool
  | [], _ => false
  | v :: r, ks => esExists v ks || esExistsElems r ks
end

/-! ## Fields with copies -/

mutual
/-- The values in a value of a document that are at a path with this last name. -/
def esUnder (t : PyStr) : Value → List Value
  | .dict d => esUnderItems t d
  | .list l => esUnderElems t l
  | _ => []
def esUnderItems (t : PyStr) : Dict → List Value
  | [] => []
  | (k, v) :: r => (if k = t then esValues v [] else []) ++ esUnder t v ++ esUnderItems t r
def esUnderElems (t : PyStr) : List Value → List Value
  | [] => []
  | v :: r => esUnder t v ++ esUnderElems t r
end

/-- The values that `copy_to` puts in a field of its own: those of all fields with the path `data.*.<type>`
(indexing/templates.py:139-180; a `*` stands for names with dots too). -/
def esCopied (t : PType) : Dict → List Value
  | [] => []
  | (_, v) :: r => esUnder t.name v ++ esCopied t r

/-- `DocumentField.ALL_TEXT`, `ALL_POINTS` and `ALL_SHAPES` (indexing/fields.py:34-44): which type is copied to the field. -/
def copiedTo (path : PyStr) : Option PType :=
  if path = "all_text".toList then some .text
  else if path = "all_points".toList then some .geoPoint
  else if path = "all_shapes".toList then some .geoShape
  else none

/-- The values of `ALL_TEXT`, `ALL_POINTS` or `ALL_SHAPES` of a document. -/
def copiedValues (path : PyStr) (parsed : Dict) : Option (List Value) := (copiedTo path).map (fun t => esCopied t parsed)

/-- Does a document match an exists query? Simplified: the fields of the document other than the data and the copies are
not modelled. -/
def existsMatches (path : PyStr) (parsed : Dict) : Bool :=
  match copiedTo path with
  | some t => !(esCopied t parsed).isEmpty
  | none =>
    match splitDots path with
    | [] => false
    | k :: ks => decide (k = "data".toList) && esExists (.dict parsed) ks

/-- The field of `has_geo` (search.py:100-107), an exists query. -/
def hasGeo : PyStr := "all_points".toList

/-! ## Full text -/

/-- A `match` query; `every` is the option `operator`: `"and"`, or `"or"` as is usual. -/
structure EsMatch where
  path : PyStr
  query : PyStr
  every : Bool := false

/-- `match_query` (search.py:168-183). Simplified: of `match_kwargs` only `operator` is modelled. -/
def matchQuery (query : PyStr) (field : Option PyStr) (every : Bool := false) : EsMatch :=
  match field with
  | none => ⟨"all_text".toList, query, every⟩
  | some f => ⟨parsedPath f .text, query, every⟩

/-- The values of a text field: the copies, or a field with the last name `_t`. -/
def esTexts (path : PyStr) (parsed : Dict) : List Value :=
  match copiedTo path with
  | some .text => esCopied .text parsed
  | some _ => []
  | none =>
    match splitDots path with
    | [] => []
    | k :: ks => if k = "data".toList ∧ ks.getLast? = some PType.text.name then esValues (.dict parsed) ks else []

/-- The words of a value of a text field. -/
def esWords (Q : QueryEnv) : Value → List PyStr
  | .str s => Q.analyse s
  | _ => []

/-- Does a document match a match query? One of the words of the query is in one of the texts, or all are, maybe in
different ones. A query without words matches nothing (`zero_terms_query` is `none`). -/
def EsMatch.matches (Q : QueryEnv) (q : EsMatch) (parsed : Dict) : Bool :=
  let words := (esTexts q.path parsed).flatMap (esWords Q)
  let wanted := Q.analyse q.query
  if q.every then !wanted.isEmpty && wanted.all (fun w => decide (w ∈ words)) else wanted.any (fun w => decide (w ∈ words))

end Splitgill
