import Verif.Model.Json
import Verif.Model.Query
/-!
# Model of the mappings of the indices (`splitgill/indexing/templates.py`) and of how Elasticsearch maps new fields

Elasticsearch finds the type of a field when it first meets it, and rejects a document that has a value at a field that the
type of the field does not allow. The limit of 4000 fields in an index is in `Verif.Model.FieldLimit`, those of 20 levels of
objects and 512 bytes in the id of a document in `Verif.Model.Depth`.
-/

namespace Splitgill

/-- The types of fields in the mappings (templates.py:91-214). `disabled` is an object with `enabled` false, which takes any value. -/
inductive EsType
  | object
  | disabled
  | keyword (lowercase : Bool)
  | text
  | double
  | date
  | boolean
  | geoPoint
  | geoShape
  | dateRange
deriving DecidableEq

/-- What Elasticsearch does with texts. -/
structure EsEnv where
  /-- the normalizer of keywords (templates.py:61-69) -/
  lower : PyStr → PyStr
  /-- the texts that are points, and those that are shapes -/
  point : PyStr → Bool
  shape : PyStr → Bool

/-- The types of the fields of an index by their full paths. -/
abbrev Mapping := List (PyStr × EsType)

/-- `properties` (templates.py:91-117): the fields that all indices have. -/
def initialMapping : Mapping :=
  [("id".toList, .keyword false), ("version".toList, .date), ("next".toList, .date), ("versions".toList, .dateRange),
   ("data_types".toList, .keyword false), ("parsed_types".toList, .keyword false), ("all_text".toList, .text),
   ("all_points".toList, .geoPoint), ("all_shapes".toList, .geoShape)]

/-- `dynamic_templates` (templates.py:118-214): `path_match` and the type, in order. -/
def dynamicTemplates : List (PyStr × EsType) :=
  [(parsedPath ['*'] .unparsed, .disabled), (parsedPath ['*'] .geoPoint, .geoPoint), (parsedPath ['*'] .geoShape, .geoShape),
   (parsedPath ['*'] .text, .text), (parsedPath ['*'] .keyword, .keyword true), (parsedPath ['*'] .number, .double),
   (parsedPath ['*'] .date, .date), (parsedPath ['*'] .boolean, .boolean)]

/-- The type that the dynamic templates give a new field (Elasticsearch): that of the first whose pattern matches the path. The
templates are for objects too. -/
def dynamicType (path : PyStr) : Option EsType := (dynamicTemplates.find? (fun t => glob t.1 path)).map Prod.snd

/-- The number of bytes of a text in UTF-8. -/
def utf8Len (s : PyStr) : Nat := (s.map Char.utf8Size).sum

/-- The values that are allowed at a field, other than `null` (Elasticsearch). A keyword has at most 32766 bytes (options.py:171-173).
Simplified: only values as the parser makes them; Elasticsearch would convert others. -/
def EsType.accepts (S : EsEnv) : EsType → Value → Bool
  | .keyword lowercase, .str s => decide (utf8Len (if lowercase then S.lower s else s) ≤ 32766)
  | .text, .str _ => true
  | .double, .int _ => true
  | .double, .float (.fin _) => true
  | .double, .float .negZero => true
  | .date, .int _ => true
  | .boolean, .bool _ => true
  | .geoPoint, .str s => S.point s
  | .geoShape, .str s => S.shape s
  | _, _ => false

/-- A value of a range field (Elasticsearch). -/
def rangeOk (d : Dict) : Bool :=
  d.all (fun kv => decide (kv.1 = "gte".toList ∨ kv.1 = "gt".toList ∨ kv.1 = "lte".toList ∨ kv.1 = "lt".toList) &&
    match kv.2 with | .int _ => true | _ => false)

/-- A value that is not a list or object, at a path (Elasticsearch): `none` if it is not allowed. A field that no template is for
would get a type by the JSON type of the value; here it is not allowed. -/
def mapLeaf (S : EsEnv) (path : PyStr) (m : Mapping) (v : Value) : Option Mapping :=
  match aget path m with
  | some .disabled => some m
  | some t => if t.accepts S v then some m else none
  | none =>
    match dynamicType path with
    | none => none
    | some .disabled => some (aset path .disabled m)
    | some t => if t.accepts S v then some (aset path t m) else none

mutual
/-- A value at a path (Elasticsearch): the types of the fields afterwards, `none` if it is not allowed. -/
def mapValue (S : EsEnv) (path : PyStr) (m : Mapping) : Value → Option Mapping
  | .none => some m
  | .list l => mapElems S path m l
  | .dict d =>
    match aget path m with
    | some .object => mapItems S path m d
    | some .disabled => some m
    | some .dateRange => if rangeOk d then some m else none
    | some _ => none
    | none =>
      match dynamicType path with
      | none => mapItems S path (aset path .object m) d
      | some .disabled => some (aset path .disabled m)
      | some _ => none
  | .bool b => mapLeaf S path m (.bool b)
  | .int i => mapLeaf S path m (.int i)
  | .float f => mapLeaf S path m (.float f)
  | .str s => mapLeaf S path m (.str s)
/-- The elements of a list: they are values of the same field. -/
def mapElems (S : EsEnv) (path : PyStr) (m : Mapping) : List Value → Option Mapping
  | [] => some m
  | v :: r =>
    match mapValue S path m v with
    | none => none
    | some m => mapElems S path m r
/-- The fields of an object. -/
def mapItems (S : EsEnv) (path : PyStr) (m : Mapping) : Dict → Option Mapping
  | [] => some m
  | (k, v) :: r =>
    match mapValue S (dotted path k) m v with
    | none => none
    | some m => mapItems S path m r
end

/-- A document that is indexed (Elasticsearch): the types of the fields of the index afterwards, `none` if it is rejected. -/
def mapDoc (S : EsEnv) (m : Mapping) : Dict → Option Mapping
  | [] => some m
  | (k, v) :: r =>
    match mapValue S k m v with
    | none => none
    | some m => mapDoc S m r

/-- Documents that are indexed in an index, one after another. -/
def mapDocs (S : EsEnv) : Mapping → List Dict → Option Mapping
  | m, [] => some m
  | m, d :: r =>
    match mapDoc S m d with
    | none => none
    | some m => mapDocs S m r

end Splitgill
