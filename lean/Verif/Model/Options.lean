import Verif.Py.Value
/-!
# Model of the parsing options (`splitgill/model.py:115-191`, `splitgill/indexing/options.py`)

A Python `set`/`frozenset` is a list without elements that compare equal; the order of the list stands for
the (unspecified) iteration order.
-/

namespace Splitgill

section Sets
variable {α : Type} (eq : α → α → Bool)

/-- `x in s` -/
def setMem (x : α) (s : List α) : Bool := s.any (fun y => eq x y)
/-- `s.add(x)`: an equal element stays in place. -/
def setAdd (x : α) (s : List α) : List α := if setMem eq x s then s else s ++ [x]
/-- `s.discard(x)` -/
def setDiscard (x : α) (s : List α) : List α := s.filter (fun y => !eq x y)
/-- `frozenset(l)` -/
def setOf (l : List α) : List α := l.foldl (fun s x => setAdd eq x s) []
/-- `a == b` for sets: same size, and all elements of one in the other. -/
def setEq (a b : List α) : Bool := decide (a.length = b.length) && a.all (fun x => setMem eq x b)

end Sets

/-- `GeoFieldHint` (model.py:115-141) -/
structure GeoFieldHint where
  latField : PyStr
  lonField : PyStr
  radiusField : Option PyStr
  segments : Int
deriving DecidableEq

/-- `GeoFieldHint.__eq__` (model.py:135-138): only the latitude field. -/
def GeoFieldHint.pyEq (a b : GeoFieldHint) : Bool := decide (a.latField = b.latField)

/-- `==` of strings -/
def strEq (a b : PyStr) : Bool := decide (a = b)

/-- `ParsingOptions` (model.py:146-170) -/
structure ParsingOptions where
  trueValues : List PyStr
  falseValues : List PyStr
  dateFormats : List PyStr
  geoHints : List GeoFieldHint
  keywordLength : Int
  floatFormat : PyStr
deriving DecidableEq

/-- `==` of `ParsingOptions`: the dataclass compares the fields. -/
def ParsingOptions.pyEq (a b : ParsingOptions) : Bool :=
  setEq strEq a.trueValues b.trueValues && setEq strEq a.falseValues b.falseValues &&
  setEq strEq a.dateFormats b.dateFormats && setEq GeoFieldHint.pyEq a.geoHints b.geoHints &&
  decide (a.keywordLength = b.keywordLength) && decide (a.floatFormat = b.floatFormat)

/-- The document `to_doc` makes (model.py:172-180); a hint is `astuple(hint)`. -/
structure OptionsDoc where
  trueValues : List PyStr
  falseValues : List PyStr
  dateFormats : List PyStr
  geoHints : List (PyStr × PyStr × Option PyStr × Int)
  keywordLength : Int
  floatFormat : PyStr
deriving DecidableEq

/-- `ParsingOptions.to_doc` (model.py:172-180) -/
def ParsingOptions.toDoc (o : ParsingOptions) : OptionsDoc where
  trueValues := o.trueValues
  falseValues := o.falseValues
  dateFormats := o.dateFormats
  geoHints := o.geoHints.map (fun h => (h.latField, h.lonField, h.radiusField, h.segments))
  keywordLength := o.keywordLength
  floatFormat := o.floatFormat

/-- `ParsingOptions.from_doc` (model.py:182-191) -/
def ParsingOptions.fromDoc (d : OptionsDoc) : ParsingOptions where
  trueValues := setOf strEq d.trueValues
  falseValues := setOf strEq d.falseValues
  dateFormats := setOf strEq d.dateFormats
  geoHints := setOf GeoFieldHint.pyEq (d.geoHints.map (fun p => ⟨p.1, p.2.1, p.2.2.1, p.2.2.2⟩))
  keywordLength := d.keywordLength
  floatFormat := d.floatFormat

/-- The state of a `ParsingOptionsBuilder` (options.py:12-26): the fields of the options. -/
abbrev Builder := ParsingOptions

/-- The default date formats (diffing.py:27-32) -/
def defaultDateFormats : List PyStr :=
  ["%Y-%m-%dT%H:%M:%S.%f%z".toList, "%Y-%m-%d".toList, "%Y-%m-%dT%H:%M:%S.%f".toList]

/-- `ParsingOptionsBuilder()` (options.py:12-36) -/
def Builder.new : Builder where
  trueValues := []
  falseValues := []
  dateFormats := defaultDateFormats
  geoHints := []
  keywordLength := 8191
  floatFormat := "{0:.15g}".toList

/-- `ParsingOptionsBuilder(based_on)` (options.py:28-34): `set(...)` of each frozenset. -/
def Builder.basedOn (o : ParsingOptions) : Builder where
  trueValues := setOf strEq o.trueValues
  falseValues := setOf strEq o.falseValues
  dateFormats := setOf strEq o.dateFormats
  geoHints := setOf GeoFieldHint.pyEq o.geoHints
  keywordLength := o.keywordLength
  floatFormat := o.floatFormat

/-- The methods of the builder that return `self`. -/
inductive BuilderCall
  | withTrueValue (value : Option PyStr)
  | withFalseValue (value : Option PyStr)
  | withDateFormat (format : Option PyStr)
  | withGeoHint (lat lon radius : Option PyStr) (segments : Int)
  | withKeywordLength (n : Int)
  | withFloatFormat (format : PyStr)
  | clearDateFormats
  | resetDateFormats
  | clearTrueValues
  | clearFalseValues
  | clearGeoHints

/-- Truthiness of an optional string. -/
def optTruthy : Option PyStr → Option PyStr
  | some (c :: s) => some (c :: s)
  | _ => none

/-- One builder method (options.py:54-237), `lower` being `str.lower`. -/
def BuilderCall.run (lower : PyStr → PyStr) (b : Builder) : BuilderCall → Except PyErr Builder
  | .withTrueValue none => .ok b
  | .withTrueValue (some v) => .ok { b with trueValues := setAdd strEq (lower v) b.trueValues }
  | .withFalseValue none => .ok b
  | .withFalseValue (some v) => .ok { b with falseValues := setAdd strEq (lower v) b.falseValues }
  | .withDateFormat f =>
    match optTruthy f with
    | some f => .ok { b with dateFormats := setAdd strEq f b.dateFormats }
    | none => .ok b
  | .withGeoHint lat lon radius segments =>
    match optTruthy lat, optTruthy lon with
    | some lat, some lon =>
      let hint : GeoFieldHint := ⟨lat, lon, radius, segments⟩
      .ok { b with geoHints := setAdd GeoFieldHint.pyEq hint (setDiscard GeoFieldHint.pyEq hint b.geoHints) }
    | _, _ => .ok b
  | .withKeywordLength n =>
    if n < 1 then .error .valueError
    else if n > 32766 then .error .valueError
    else .ok { b with keywordLength := n }
  | .withFloatFormat f => .ok { b with floatFormat := f }
  | .clearDateFormats => .ok { b with dateFormats := [] }
  | .resetDateFormats =>
    .ok { b with dateFormats := setOf strEq defaultDateFormats }
  | .clearTrueValues => .ok { b with trueValues := [] }
  | .clearFalseValues => .ok { b with falseValues := [] }
  | .clearGeoHints => .ok { b with geoHints := [] }

/-- A chain of calls. -/
def runBuilder (lower : PyStr → PyStr) (b : Builder) (calls : List BuilderCall) : Except PyErr Builder :=
  calls.foldlM (BuilderCall.run lower) b

/-- `build()` (options.py:38-52): frozensets of the sets. -/
def Builder.build (b : Builder) : ParsingOptions where
  trueValues := setOf strEq b.trueValues
  falseValues := setOf strEq b.falseValues
  dateFormats := setOf strEq b.dateFormats
  geoHints := setOf GeoFieldHint.pyEq b.geoHints
  keywordLength := b.keywordLength
  floatFormat := b.floatFormat

end Splitgill
