import Verif.Model.Options
import Verif.Model.Prepare
import Verif.Py.Sort
/-!
# Model of `splitgill/indexing/parser.py` and `rebuild_data` (`splitgill/search.py:236-278`)

The parsed data is a Python dict again, so it is a `Dict` of the model.
-/

namespace Splitgill

/-- What the parser asks other libraries. -/
structure ParseEnv where
  /-- `str.lower` -/
  lower : PyStr → PyStr
  /-- `float_format.format(value)`. Simplified: a format that raises is not modelled here (see `Verif.Model.Raises`). -/
  formatFloat : PyStr → PyFloat → PyStr
  /-- `try_float(s, inf=None, nan=None, on_fail=None)` -/
  toNumber : PyStr → Option PyFloat
  /-- `parse_to_timestamp(s, format)`; `none` for `ValueError` -/
  parseDate : PyStr → PyStr → Option Int
  /-- `match_wkt(s)` (geo.py:157-174): the point and the shape -/
  wkt : PyStr → Option (PyStr × PyStr)
  /-- `match_geojson(d)` (geo.py:118-151) for a dict with the keys `type` and `coordinates` -/
  geojson : Dict → Option (PyStr × PyStr)
  /-- What `match_hints` (geo.py:50-76) makes of the values of longitude and latitude, the value of the radius (if
  the hint has a radius field) and the segments -/
  hintGeo : Value → Value → Option Value → Int → Option (PyStr × PyStr)

/-- `ParsedType` (indexing/fields.py:47-69) -/
inductive PType
  | unparsed | number | date | boolean | text | keyword | geoPoint | geoShape
deriving DecidableEq

def PType.name : PType → PyStr
  | .unparsed => "_u".toList
  | .number => "_n".toList
  | .date => "_d".toList
  | .boolean => "_b".toList
  | .text => "_t".toList
  | .keyword => "_k".toList
  | .geoPoint => "_gp".toList
  | .geoShape => "_gs".toList

/-- `DataType` (indexing/fields.py:113-127) -/
inductive DType
  | none | str | int | float | bool | list | dict
deriving DecidableEq

def DType.name : DType → PyStr
  | .none => "#n".toList
  | .str => "#s".toList
  | .int => "#i".toList
  | .float => "#f".toList
  | .bool => "#b".toList
  | .list => "#l".toList
  | .dict => "#d".toList

/-- `DataType.type_for` (indexing/fields.py:129-141): `#` and the first letter of the name of the type. -/
def Value.dtype : Value → DType
  | .none => .none
  | .bool _ => .bool
  | .int _ => .int
  | .float _ => .float
  | .str _ => .str
  | .list _ => .list
  | .dict _ => .dict

/-- `str(i)` of an int -/
def intStr : Int → PyStr
  | .ofNat n => Nat.toDigits 10 n
  | .negSucc n => '-' :: Nat.toDigits 10 (n + 1)

/-- `str_value` (parser.py:158-161). `parse_value` is not called for `None`, lists and dicts. -/
def strValue (E : ParseEnv) (o : ParsingOptions) : Value → PyStr
  | .float f => E.formatFloat o.floatFormat f
  | .str s => s
  | .int i => intStr i
  | .bool b => if b then "True".toList else "False".toList
  | _ => []

/-- `s[:n]` -/
def pyTake (n : Int) (s : PyStr) : PyStr :=
  if 0 ≤ n then s.take n.toNat else s.take (s.length - (-n).toNat)

/-- `to_parsed_dict` (geo.py:18-33) -/
def geoDict (g : PyStr × PyStr) : Dict := [(PType.geoPoint.name, .str g.1), (PType.geoShape.name, .str g.2)]

/-- The boolean of a value (parser.py:176-183). -/
def parsedBool (E : ParseEnv) (o : ParsingOptions) (v : Value) : Option Bool :=
  match v with
  | .bool b => some b
  | v =>
    let s := E.lower (strValue E o v)
    if setMem strEq s o.trueValues then some true
    else if setMem strEq s o.falseValues then some false
    else none

/-- The number of a value (parser.py:185-192). -/
def parsedNumber (E : ParseEnv) (o : ParsingOptions) (v : Value) : Option Value :=
  match v with
  | .int i => some (.int i)
  | .float f => some (.float f)
  | v => (E.toNumber (strValue E o v)).map Value.float

/-- The date of a value (parser.py:194-201): the first format that works, in the order of the set. -/
def parsedDate (E : ParseEnv) (o : ParsingOptions) (v : Value) : Option Int :=
  o.dateFormats.findSome? (fun f => E.parseDate (strValue E o v) f)

/-- `d[k] = v` if there is a value -/
def asetOpt (k : PyStr) (v : Option Value) (d : Dict) : Dict :=
  match v with
  | some v => aset k v d
  | none => d

/-- `parse_value` (parser.py:143-202); the cache is not modelled. -/
def parseValue (E : ParseEnv) (o : ParsingOptions) (v : Value) : Dict :=
  let s := strValue E o v
  let parsed : Dict := [(PType.unparsed.name, v), (PType.text.name, .str s),
    (PType.keyword.name, .str (pyTake o.keywordLength s))]
  let parsed := match E.wkt s with
    | some g => aupdate parsed (geoDict g)
    | none => parsed
  let parsed := asetOpt PType.boolean.name ((parsedBool E o v).map Value.bool) parsed
  let parsed := asetOpt PType.number.name (parsedNumber E o v) parsed
  asetOpt PType.date.name ((parsedDate E o v).map Value.int) parsed

/-- `match_geojson` (geo.py:118-151) -/
def matchGeojson (E : ParseEnv) (d : Dict) : Option (PyStr × PyStr) :=
  if ahas "type".toList d && ahas "coordinates".toList d then E.geojson d else none

/-- `data.get(key, "")` -/
def getOrEmpty (k : PyStr) (d : Dict) : Value := (aget k d).getD (.str [])

/-- What a hint finds (geo.py:49-76). -/
def matchHint (E : ParseEnv) (d : Dict) (h : GeoFieldHint) : Option (PyStr × PyStr) :=
  E.hintGeo (getOrEmpty h.lonField d) (getOrEmpty h.latField d)
    ((optTruthy h.radiusField).map (fun r => getOrEmpty r d)) h.segments

/-- One round of the loop of `match_hints` (geo.py:47-76). -/
def hintStep (E : ParseEnv) (d : Dict) (acc : List (PyStr × (PyStr × PyStr))) (h : GeoFieldHint) :
    List (PyStr × (PyStr × PyStr)) :=
  match matchHint E d h with
  | some g => aset h.latField g acc
  | none => acc

/-- `match_hints` (geo.py:36-78): a dict by latitude field. -/
def matchHints (E : ParseEnv) (d : Dict) (hints : List GeoFieldHint) : List (PyStr × (PyStr × PyStr)) :=
  hints.foldl (hintStep E d) []

/-- `parsed[key] = {**parsed[key], **geo_data}` for all matches (parser.py:96-100). -/
def addHints : List (PyStr × (PyStr × PyStr)) → Dict → Except PyErr Dict
  | [], parsed => .ok parsed
  | (k, g) :: r, parsed =>
    match aget k parsed with
    | none => .error .keyError
    | some (.dict d) => addHints r (aset k (.dict (aupdate d (geoDict g))) parsed)
    | some _ => .error .typeError

/-- `f"{prefix}.{t}"` -/
def dotted (pre t : PyStr) : PyStr := pre ++ '.' :: t

/-- A `ParsedData` before the types are summarised; `parsed` is `none` for a key that gets no value. -/
structure PResult (α : Type) where
  parsed : α
  dataTypes : List PyStr
  parsedTypes : List PyStr

/-- What `parse_dict` does apart from going into its values (parser.py:65-101): `items` are the parsed values, with
the types found in them. -/
def assembleDict (E : ParseEnv) (o : ParsingOptions) (checkGeojson : Bool) (data : Dict) (items : PResult Dict) :
    Except PyErr (PResult Dict) :=
  let geo := if checkGeojson then matchGeojson E data else none
  let parsed := (geo.map geoDict).getD []
  let hints := matchHints E data o.geoHints
  match addHints hints (aupdate parsed items.parsed) with
  | .error e => .error e
  | .ok parsed' => .ok {
      parsed := parsed'
      dataTypes := data.map (fun kv => dotted kv.1 kv.2.dtype.name) ++ items.dataTypes
      parsedTypes := akeys parsed ++ items.parsedTypes ++
        hints.flatMap (fun kg => (akeys (geoDict kg.2)).map (dotted kg.1)) }

mutual
/-- The value of a field or the element of a list: what is in it (parser.py:76-94, 119-136). `inList` tells the two
apart: `None` and `""` have a dict in a field and `None` in a list. -/
def parseInner (E : ParseEnv) (o : ParsingOptions) (inList : Bool) : Value → Except PyErr (PResult (Option Value))
  | .dict d =>
    match d with
    | [] => .ok ⟨if inList then some .none else none, [], []⟩
    | kv :: r =>
      match parseItems E o (kv :: r) with
      | .error e => .error e
      | .ok items =>
        match assembleDict E o true (kv :: r) items with
        | .error e => .error e
        | .ok x => .ok ⟨some (.dict x.parsed), x.dataTypes, x.parsedTypes⟩
  | .list l =>
    match l with
    | [] => .ok ⟨if inList then some .none else none, [], []⟩
    | v :: r =>
      match parseElems E o (v :: r) with
      | .error e => .error e
      | .ok x => .ok ⟨some (.list x.parsed),
          setOf strEq ((v :: r).map (fun w => dotted [] w.dtype.name) ++ x.dataTypes), setOf strEq x.parsedTypes⟩
  | .none => .ok ⟨some (if inList then .none else .dict [(PType.unparsed.name, .none)]), [], []⟩
  | .str s =>
    if s.isEmpty then .ok ⟨some (if inList then .none else .dict [(PType.unparsed.name, .str [])]), [], []⟩
    else .ok ⟨some (.dict (parseValue E o (.str s))), [], akeys (parseValue E o (.str s))⟩
  | .bool b => .ok ⟨some (.dict (parseValue E o (.bool b))), [], akeys (parseValue E o (.bool b))⟩
  | .int i => .ok ⟨some (.dict (parseValue E o (.int i))), [], akeys (parseValue E o (.int i))⟩
  | .float f => .ok ⟨some (.dict (parseValue E o (.float f))), [], akeys (parseValue E o (.float f))⟩
/-- The loop of `parse_dict` (parser.py:76-94). -/
def parseItems (E : ParseEnv) (o : ParsingOptions) : Dict → Except PyErr (PResult Dict)
  | [] => .ok ⟨[], [], []⟩
  | (k, v) :: r =>
    match parseInner E o false v with
    | .error e => .error e
    | .ok x =>
      match parseItems E o r with
      | .error e => .error e
      | .ok y => .ok ⟨(match x.parsed with | some p => (k, p) :: y.parsed | none => y.parsed),
          x.dataTypes.map (dotted k) ++ y.dataTypes, x.parsedTypes.map (dotted k) ++ y.parsedTypes⟩
/-- The loop of `parse_list` (parser.py:119-136), before the sets are made. -/
def parseElems (E : ParseEnv) (o : ParsingOptions) : List Value → Except PyErr (PResult (List Value))
  | [] => .ok ⟨[], [], []⟩
  | v :: r =>
    match parseInner E o true v with
    | .error e => .error e
    | .ok x =>
      match parseElems E o r with
      | .error e => .error e
      | .ok y => .ok ⟨x.parsed.getD .none :: y.parsed, x.dataTypes.map (dotted []) ++ y.dataTypes,
          x.parsedTypes ++ y.parsedTypes⟩
end

/-- `parse_dict(data, options, check_geojson)` (parser.py:56-103) -/
def parseDict (E : ParseEnv) (o : ParsingOptions) (checkGeojson : Bool) (d : Dict) : Except PyErr (PResult Dict) :=
  match parseItems E o d with
  | .error e => .error e
  | .ok items => assembleDict E o checkGeojson d items

/-- Order of strings: by code points. -/
def strLe : PyStr → PyStr → Bool
  | [], _ => true
  | _ :: _, [] => false
  | a :: s, b :: t => if a.toNat < b.toNat then true else if a.toNat = b.toNat then strLe s t else false

/-- `s.rsplit(".", 1)`; `none` if there is no dot. -/
def rsplitDot : PyStr → Option (PyStr × PyStr)
  | [] => none
  | c :: s =>
    match rsplitDot s with
    | some (a, b) => some (c :: a, b)
    | none => if c = '.' then some ([], s) else none

/-- `itertools.groupby(l, key)` -/
def groupBy {α κ : Type} [DecidableEq κ] (key : α → κ) : List α → List (κ × List α)
  | [] => []
  | a :: l =>
    match groupBy key l with
    | (k, g) :: r => if key a = k then (k, a :: g) :: r else (key a, [a]) :: (k, g) :: r
    | [] => [(key a, [a])]

/-- `sep.join(l)` -/
def joinWith (sep : PyStr) : List PyStr → PyStr
  | [] => []
  | [s] => s
  | s :: r => s ++ sep ++ joinWith sep r

/-- The parts of all types, `IndexError` if there is no dot. -/
def splitAll : List PyStr → Except PyErr (List (PyStr × PyStr))
  | [] => .ok []
  | s :: l =>
    match rsplitDot s, splitAll l with
    | some x, .ok r => .ok (x :: r)
    | none, _ => .error .indexError
    | _, .error e => .error e

/-- `types.sort()` and the comprehension over `groupby` (parser.py:41-52). -/
def summarise (types : List PyStr) : Except PyErr (List PyStr) :=
  match splitAll (sortBy strLe types) with
  | .error e => .error e
  | .ok parts => .ok ((groupBy Prod.fst parts).map (fun g => dotted g.1 (joinWith [','] (g.2.map Prod.snd))))

/-- `ParsedData` (parser.py:13-20) -/
structure ParsedData where
  parsed : Dict
  dataTypes : List PyStr
  parsedTypes : List PyStr

/-- `parse(data, options)` (parser.py:23-53) -/
def parse (E : ParseEnv) (o : ParsingOptions) (d : Dict) : Except PyErr ParsedData :=
  match parseDict E o false d with
  | .error e => .error e
  | .ok x =>
    match summarise x.parsedTypes, summarise x.dataTypes with
    | .ok pts, .ok dts => .ok ⟨x.parsed, dts, pts⟩
    | .error e, _ => .error e
    | _, .error e => .error e

/-! ## Rebuilding -/

/-- Which fields of a structural dict are data (search.py:267-271). -/
def isDataField (k : PyStr) : Bool := !("_".toList.isPrefixOf k) || decide (k = dataIdField)

mutual
/-- `rebuild_dict_or_list` (search.py:249-278) -/
def rebuildValue : Value → Value
  | .dict d =>
    match aget PType.unparsed.name d with
    | some v => v
    | none => .dict ((rebuildItems d).filter (fun kv => isDataField kv.1))
  | .list l => .list (rebuildList l)
  | v => v
def rebuildItems : Dict → Dict
  | [] => []
  | (k, v) :: r => (k, rebuildValue v) :: rebuildItems r
def rebuildList : List Value → List Value
  | [] => []
  | v :: r => rebuildValue v :: rebuildList r
end

/-- `rebuild_data` (search.py:236-246) -/
def rebuildData (d : Dict) : Dict := rebuildItems d

end Splitgill
