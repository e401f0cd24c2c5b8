import Verif.Model.Parse
import Verif.Model.Search
import Mathlib.Data.List.Lex
import Mathlib.Data.Char
/-!
# Model of the listing of fields

`SplitgillDatabase.get_data_fields` and `get_parsed_fields` (manager.py:639-727), `DataField` and `ParsedField`
(indexing/fields.py:144-363).
-/

namespace Splitgill

/-- `s.split(c)` -/
def pySplit (c : Char) : PyStr → List PyStr
  | [] => [[]]
  | a :: s =>
    if a = c then [] :: pySplit c s
    else
      match pySplit c s with
      | [] => [[a]]
      | w :: r => (a :: w) :: r

/-- `DataType(name)` (indexing/fields.py:113-127) -/
def DType.ofName (s : PyStr) : Except PyErr DType :=
  match [DType.none, .str, .int, .float, .bool, .list, .dict].find? (fun t => decide (t.name = s)) with
  | some t => .ok t
  | Option.none => .error .valueError

/-- `ParsedType(name)` (indexing/fields.py:47-81) -/
def PType.ofName (s : PyStr) : Except PyErr PType :=
  match [PType.unparsed, .number, .date, .boolean, .text, .keyword, .geoPoint, .geoShape].find?
      (fun t => decide (t.name = s)) with
  | some t => .ok t
  | Option.none => .error .valueError

/-- The common part of `DataField` and `ParsedField`: the path, the count and the counts of the types
(indexing/fields.py:150-156, 283-285). -/
structure FieldCounts (T : Type) where
  path : PyStr
  count : Nat := 0
  typeCounts : List (T × Nat) := []

section
variable {T : Type} [DecidableEq T]

/-- `self.type_counts[t]` of a `Counter`: 0 if missing. -/
def FieldCounts.countOf (f : FieldCounts T) (t : T) : Nat := (aget t f.typeCounts).getD 0

/-- The loop of `add` (indexing/fields.py:172-173, 296-297). -/
def addTypes (ofName : PyStr → Except PyErr T) (n : Nat) : List PyStr → FieldCounts T → Except PyErr (FieldCounts T)
  | [], f => .ok f
  | s :: r, f =>
    match ofName s with
    | .error e => .error e
    | .ok t => addTypes ofName n r { f with typeCounts := aset t (f.countOf t + n) f.typeCounts }

/-- `add(type_names, count)` (indexing/fields.py:163-173, 287-297) -/
def FieldCounts.add (ofName : PyStr → Except PyErr T) (f : FieldCounts T) (typeNames : PyStr) (n : Nat) :
    Except PyErr (FieldCounts T) :=
  addTypes ofName n (pySplit ',' typeNames) { f with count := f.count + n }

/-- The loop over the terms (manager.py:659-663, 710-714). -/
def collectFields (ofName : PyStr → Except PyErr T) : List (PyStr × Nat) → List (PyStr × FieldCounts T) →
    Except PyErr (List (PyStr × FieldCounts T))
  | [], fields => .ok fields
  | (value, n) :: r, fields =>
    match rsplitDot value with
    | Option.none => .error .valueError
    | some (path, rawTypes) =>
      match ((aget path fields).getD { path := path }).add ofName rawTypes n with
      | .error e => .error e
      | .ok f => collectFields ofName r (aset path f fields)

/-- `path.count(".")` -/
def dotCount (s : PyStr) : Nat := s.count '.'

/-- The three sorts (manager.py:682-688, 721-727). -/
def sortFields (l : List (FieldCounts T)) : List (FieldCounts T) :=
  sortBy (fun a b => decide (b.count ≤ a.count))
    (sortBy (fun a b => strLe a.path b.path)
      (sortBy (fun a b => decide (dotCount b.path ≤ dotCount a.path)) l))

end

/-- `is_container` (indexing/fields.py:255-257) -/
def FieldCounts.isContainer (f : FieldCounts DType) : Bool := decide (0 < f.countOf .list) || decide (0 < f.countOf .dict)

/-- The condition on children (manager.py:669-673). -/
def isChildPath (parent child : PyStr) : Bool :=
  decide (dotCount child = dotCount parent + 1) && (parent ++ ['.']).isPrefixOf child

/-- A `DataField` (indexing/fields.py:144-162). Simplified: parent and children are given by their paths. -/
structure DataField extends FieldCounts DType where
  parent : Option PyStr
  children : List PyStr

/-- The links of a field (manager.py:665-675): each container goes through all fields in the order of the dict and makes
itself the parent of its children, so a field has the last of these as its parent. -/
def linkField (all : List (FieldCounts DType)) (f : FieldCounts DType) : DataField where
  toFieldCounts := f
  parent := ((all.filter (fun g => g.isContainer && isChildPath g.path f.path)).getLast?).map FieldCounts.path
  children := if f.isContainer then (all.filter (fun c => isChildPath f.path c.path)).map FieldCounts.path else []

/-- `get_data_fields()` (manager.py:639-688) for the documents found; `none` if `iter_terms` does not end. -/
def getDataFields (docs : List (List PyStr)) : Option (Except PyErr (List DataField)) :=
  (iterTerms docs defaultChunk).map (fun terms =>
    match collectFields DType.ofName terms [] with
    | .error e => .error e
    | .ok fields =>
      let all := fields.map Prod.snd
      .ok ((sortFields all).map (linkField all)))

/-- `get_parsed_fields()` (manager.py:690-727) for the documents found; `none` if `iter_terms` does not end. -/
def getParsedFields (docs : List (List PyStr)) : Option (Except PyErr (List (FieldCounts PType))) :=
  (iterTerms docs defaultChunk).map (fun terms =>
    match collectFields PType.ofName terms [] with
    | .error e => .error e
    | .ok fields => .ok (sortFields (fields.map Prod.snd)))

/-- `get_data_fields(version, query)` (manager.py:639-688) -/
def ES.dataFields (es : ES ParsedData) (at_ : SearchAt) (query : Doc ParsedData → Bool) :
    Option (Except PyErr (List DataField)) :=
  getDataFields ((((es.search at_).run es).filter query).map (fun d => d.parsed.dataTypes))

/-- `get_parsed_fields(version, query)` (manager.py:690-727) -/
def ES.parsedFields (es : ES ParsedData) (at_ : SearchAt) (query : Doc ParsedData → Bool) :
    Option (Except PyErr (List (FieldCounts PType))) :=
  getParsedFields ((((es.search at_).run es).filter query).map (fun d => d.parsed.parsedTypes))

end Splitgill
