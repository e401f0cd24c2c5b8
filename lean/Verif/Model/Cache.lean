import Verif.Model.Parse
/-!
# Model of the cache of `parse_value` (`splitgill/indexing/parser.py:141-143`)

`Model/Parse` with `parse_value` behind its `lru_cache`. The cache lives as long as the process, so a parse starts with
what the parses before it have left. Simplified: a NaN is looked up by `==`, which it does not fulfil; CPython finds it
if it is the same object. For the cache of `create_polygon_circle` see `Model/CircleCache`.
-/

namespace Splitgill

/-- The entries of the cache, the last used one first. -/
abbrev ValueCache := List ((Value × ParsingOptions) × Dict)

/-- The same key of `lru_cache(typed=True)`: equal arguments of the same types. -/
def sameKey (a b : Value × ParsingOptions) : Bool :=
  decide (a.1.dtype = b.1.dtype) && pyScalarEq a.1 b.1 && a.2.pyEq b.2

/-- `parse_value` behind `@lru_cache(maxsize=size, typed=True)` (parser.py:143): an entry that is found is moved to the
front; a new one is put there, and the last one is dropped if there are too many. -/
def cachedParseValue (E : ParseEnv) (size : Nat) (o : ParsingOptions) (v : Value) (c : ValueCache) : Dict × ValueCache :=
  match c.find? (fun e => sameKey e.1 (v, o)) with
  | some e => (e.2, e :: c.filter (fun e' => !sameKey e'.1 (v, o)))
  | none => (parseValue E o v, (((v, o), parseValue E o v) :: c).take size)

/-- A result, or an exception, and the cache after it. -/
abbrev CachedResult (α : Type) := Except PyErr α × ValueCache

mutual
/-- `parseInner` with the cache (parser.py:76-94, 119-136) -/
def parseInnerC (E : ParseEnv) (size : Nat) (o : ParsingOptions) (inList : Bool) :
    Value → ValueCache → CachedResult (PResult (Option Value))
  | .dict d, c =>
    match d with
    | [] => (.ok ⟨if inList then some .none else none, [], []⟩, c)
    | kv :: r =>
      match parseItemsC E size o (kv :: r) c with
      | (.error e, c) => (.error e, c)
      | (.ok items, c) =>
        match assembleDict E o true (kv :: r) items with
        | .error e => (.error e, c)
        | .ok x => (.ok ⟨some (.dict x.parsed), x.dataTypes, x.parsedTypes⟩, c)
  | .list l, c =>
    match l with
    | [] => (.ok ⟨if inList then some .none else none, [], []⟩, c)
    | v :: r =>
      match parseElemsC E size o (v :: r) c with
      | (.error e, c) => (.error e, c)
      | (.ok x, c) => (.ok ⟨some (.list x.parsed),
          setOf strEq ((v :: r).map (fun w => dotted [] w.dtype.name) ++ x.dataTypes), setOf strEq x.parsedTypes⟩, c)
  | .none, c => (.ok ⟨some (if inList then .none else .dict [(PType.unparsed.name, .none)]), [], []⟩, c)
  | .str s, c =>
    if s.isEmpty then (.ok ⟨some (if inList then .none else .dict [(PType.unparsed.name, .str [])]), [], []⟩, c)
    else
      let (d, c) := cachedParseValue E size o (.str s) c
      (.ok ⟨some (.dict d), [], akeys d⟩, c)
  | .bool b, c =>
    let (d, c) := cachedParseValue E size o (.bool b) c
    (.ok ⟨some (.dict d), [], akeys d⟩, c)
  | .int i, c =>
    let (d, c) := cachedParseValue E size o (.int i) c
    (.ok ⟨some (.dict d), [], akeys d⟩, c)
  | .float f, c =>
    let (d, c) := cachedParseValue E size o (.float f) c
    (.ok ⟨some (.dict d), [], akeys d⟩, c)
/-- The loop of `parse_dict` with the cache (parser.py:76-94). -/
def parseItemsC (E : ParseEnv) (size : Nat) (o : ParsingOptions) : Dict → ValueCache → CachedResult (PResult Dict)
  | [], c => (.ok ⟨[], [], []⟩, c)
  | (k, v) :: r, c =>
    match parseInnerC E size o false v c with
    | (.error e, c) => (.error e, c)
    | (.ok x, c) =>
      match parseItemsC E size o r c with
      | (.error e, c) => (.error e, c)
      | (.ok y, c) => (.ok ⟨(match x.parsed with | some p => (k, p) :: y.parsed | none => y.parsed),
          x.dataTypes.map (dotted k) ++ y.dataTypes, x.parsedTypes.map (dotted k) ++ y.parsedTypes⟩, c)
/-- The loop of `parse_list` with the cache (parser.py:119-136). -/
def parseElemsC (E : ParseEnv) (size : Nat) (o : ParsingOptions) :
    List Value → ValueCache → CachedResult (PResult (List Value))
  | [], c => (.ok ⟨[], [], []⟩, c)
  | v :: r, c =>
    match parseInnerC E size o true v c with
    | (.error e, c) => (.error e, c)
    | (.ok x, c) =>
      match parseElemsC E size o r c with
      | (.error e, c) => (.error e, c)
      | (.ok y, c) => (.ok ⟨x.parsed.getD .none :: y.parsed, x.dataTypes.map (dotted []) ++ y.dataTypes,
          x.parsedTypes ++ y.parsedTypes⟩, c)
end

/-- `parse_dict(data, options, check_geojson)` with the cache (parser.py:56-103) -/
def parseDictC (E : ParseEnv) (size : Nat) (o : ParsingOptions) (checkGeojson : Bool) (d : Dict) (c : ValueCache) :
    CachedResult (PResult Dict) :=
  match parseItemsC E size o d c with
  | (.error e, c) => (.error e, c)
  | (.ok items, c) => (assembleDict E o checkGeojson d items, c)

/-- `parse(data, options)` with the cache (parser.py:23-53) -/
def parseC (E : ParseEnv) (size : Nat) (o : ParsingOptions) (d : Dict) (c : ValueCache) : CachedResult ParsedData :=
  match parseDictC E size o false d c with
  | (.error e, c) => (.error e, c)
  | (.ok x, c) =>
    match summarise x.parsedTypes, summarise x.dataTypes with
    | .ok pts, .ok dts => (.ok ⟨x.parsed, dts, pts⟩, c)
    | .error e, _ => (.error e, c)
    | _, .error e => (.error e, c)

/-- The results of calls of `parse`, one after the other, in one process. -/
def parsesFrom (E : ParseEnv) (size : Nat) : List (Dict × ParsingOptions) → ValueCache → List (Except PyErr ParsedData)
  | [], _ => []
  | (d, o) :: calls, c => (parseC E size o d c).1 :: parsesFrom E size calls (parseC E size o d c).2

end Splitgill
