import Verif.Model.Parse
import Verif.Spec.Prepare
/-!
# What parsing is expected to do
-/

namespace Splitgill

/-- A field name as `prepare_field_name` makes them: not empty, no dots, and `_` in front only in `_id`. -/
structure FieldName (k : PyStr) : Prop where
  nonempty : k ≠ []
  no_dot : '.' ∉ k
  no_underscore : k.head? = some '_' → k = "_id".toList

/-- All field names at every depth are of this kind. -/
def FieldNames (v : Value) : Prop := ∀ p d, getAt p v = some (.dict d) → ∀ k ∈ akeys d, FieldName k

/-! ## Rebuilding -/

/-- `{}` or `[]` -/
def Value.isEmptyContainer : Value → Bool
  | .dict [] => true
  | .list [] => true
  | _ => false

mutual
/-- What is left of a value: fields with an empty dict or list are gone, and in lists `""` and empty dicts and lists
are `None`. -/
def remains : Value → Value
  | .dict d => .dict (remainsDict d)
  | .list l => .list (remainsList l)
  | v => v
def remainsDict : Dict → Dict
  | [] => []
  | (k, v) :: r => if v.isEmptyContainer then remainsDict r else (k, remains v) :: remainsDict r
def remainsList : List Value → List Value
  | [] => []
  | v :: r => (if v.isEmptyContainer || strictEq v (.str []) then .none else remains v) :: remainsList r
end

mutual
/-- No empty dict or list inside, and no `""` in a list. -/
def Rebuildable : Value → Prop
  | .dict d => RebuildableDict d
  | .list l => RebuildableList l
  | _ => True
def RebuildableDict : Dict → Prop
  | [] => True
  | (_, v) :: r => v.isEmptyContainer = false ∧ Rebuildable v ∧ RebuildableDict r
def RebuildableList : List Value → Prop
  | [] => True
  | v :: r => v.isEmptyContainer = false ∧ v ≠ .str [] ∧ Rebuildable v ∧ RebuildableList r
end

/-! ## Types -/

/-- The letter of the type of a value, as it is shown to users. -/
def typeSymbol : Value → PyStr
  | .none => "#n".toList
  | .bool _ => "#b".toList
  | .int _ => "#i".toList
  | .float _ => "#f".toList
  | .str _ => "#s".toList
  | .list _ => "#l".toList
  | .dict _ => "#d".toList

/-- A value occurs at this path; the elements of lists are at the path with an empty name. -/
inductive OccursAt : Value → List PyStr → Value → Prop
  | field {d k v} : (k, v) ∈ d → OccursAt (.dict d) [k] v
  | inField {d k v p w} : (k, v) ∈ d → OccursAt v p w → OccursAt (.dict d) (k :: p) w
  | elem {l v} : v ∈ l → OccursAt (.list l) [[]] v
  | inElem {l v p w} : v ∈ l → OccursAt v p w → OccursAt (.list l) ([] :: p) w

/-- A scalar that is indexed: not `None` and not `""`. -/
def Value.isIndexed : Value → Bool
  | .none => false
  | .str s => !s.isEmpty
  | .list _ => false
  | .dict _ => false
  | _ => true

/-- The value is indexed with this type at this path (without lists): as a scalar, as GeoJSON, or by a hint. -/
inductive IndexedAs (E : ParseEnv) (o : ParsingOptions) : Value → List PyStr → PyStr → Prop
  | scalar {v t} : v.isIndexed = true → t ∈ akeys (parseValue E o v) → IndexedAs E o v [] t
  | elem {l v p t} : v ∈ l → IndexedAs E o v p t → IndexedAs E o (.list l) p t
  | field {d k v p t} : (k, v) ∈ d → IndexedAs E o v p t → IndexedAs E o (.dict d) (k :: p) t
  | geojson {d g t} : matchGeojson E d = some g → t ∈ ["_gp".toList, "_gs".toList] → IndexedAs E o (.dict d) [] t
  | hint {d h g t} : h.latField ∈ akeys d → h ∈ o.geoHints → matchHint E d h = some g → t ∈ ["_gp".toList, "_gs".toList] →
      IndexedAs E o (.dict d) [h.latField] t

/-- A value of the data has the type with this name at this path. -/
def DataTypeAt (d : Dict) (p : List PyStr) (t : PyStr) : Prop := ∃ v, OccursAt (.dict d) p v ∧ t = typeSymbol v

/-- The data is indexed with this type at this path. -/
def ParsedTypeAt (E : ParseEnv) (o : ParsingOptions) (d : Dict) (p : List PyStr) (t : PyStr) : Prop :=
  p ≠ [] ∧ IndexedAs E o (.dict d) p t

/-- No field name below the root starts with this character. -/
def NestedNames (c : Char) (v : Value) : Prop :=
  ∀ p d, p ≠ [] → getAt p v = some (.dict d) → ∀ k ∈ akeys d, k.head? ≠ some c

/-- A hint does not match values of the latitude that are GeoJSON or WKT. -/
def ParseEnv.HintsOk (E : ParseEnv) (o : ParsingOptions) : Prop :=
  ∀ lon lat r n g, E.hintGeo lon lat r n = some g → E.wkt (strValue E o lat) = none ∧ ∀ d, lat = .dict d → E.geojson d = none

/-- Hints only match latitudes that are scalars, and not `""`. -/
def ParseEnv.ScalarHints (E : ParseEnv) : Prop :=
  ∀ lon lat r n g, E.hintGeo lon lat r n = some g → lat.isScalar = true ∧ lat ≠ .str []

/-- The order of keys in dicts does not matter for what is a place. -/
structure ParseEnv.IgnoresOrder (E : ParseEnv) : Prop where
  geojson : ∀ a b, (Value.dict a).wf = true → (Value.dict b).wf = true → strictEq (.dict a) (.dict b) = true →
    E.geojson a = E.geojson b
  hint : ∀ lon lat r n lon' lat' r', lon.wf = true → lon'.wf = true → strictEq lon lon' = true →
    lat.wf = true → lat'.wf = true → strictEq lat lat' = true →
    ((r = none ∧ r' = none) ∨ ∃ x x', r = some x ∧ r' = some x' ∧ x.wf = true ∧ x'.wf = true ∧ strictEq x x' = true) →
    E.hintGeo lon lat r n = E.hintGeo lon' lat' r' n

/-- No two of the date formats read a text as different times. -/
def ParseEnv.Unambiguous (E : ParseEnv) (formats : List PyStr) : Prop :=
  ∀ s f g a b, f ∈ formats → g ∈ formats → E.parseDate s f = some a → E.parseDate s g = some b → a = b

/-- Options that are the same but for the date formats. -/
structure SameButDates (o o' : ParsingOptions) : Prop where
  trueValues : o.trueValues = o'.trueValues
  falseValues : o.falseValues = o'.falseValues
  geoHints : o.geoHints = o'.geoHints
  keywordLength : o.keywordLength = o'.keywordLength
  floatFormat : o.floatFormat = o'.floatFormat

/-- The path of an entry of a summary: what is before the last dot. -/
def entryPath (e : PyStr) : PyStr := ((rsplitDot e).map Prod.fst).getD []

/-- `s.split(",")` -/
def splitComma : PyStr → List PyStr
  | [] => [[]]
  | c :: s =>
    match splitComma s with
    | [] => [[c]]
    | w :: r => if c = ',' then [] :: w :: r else (c :: w) :: r

/-- The types of an entry of a summary. -/
def entryTypes (e : PyStr) : List PyStr := splitComma (((rsplitDot e).map Prod.snd).getD [])

/-- `".".join(path)` -/
def pathText (p : List PyStr) : PyStr := joinWith ['.'] p

/-- The entries are one for each path at which something occurs, with exactly the types that occur at it, each once. -/
structure Summarises (entries : List PyStr) (occurs : List PyStr → PyStr → Prop) : Prop where
  once : (entries.map entryPath).Nodup
  sound : ∀ e ∈ entries, (entryTypes e).Nodup ∧
    ∀ t, t ∈ entryTypes e ↔ ∃ p, pathText p = entryPath e ∧ occurs p t
  complete : ∀ p t, occurs p t → ∃ e ∈ entries, entryPath e = pathText p

/-! ## Values -/

/-- The text of a scalar: the string itself, the digits of an int, `True` or `False`, the formatted float. -/
def textOf (E : ParseEnv) (o : ParsingOptions) : Value → PyStr
  | .str s => s
  | .int i => (toString i).toList
  | .bool true => "True".toList
  | .bool false => "False".toList
  | .float f => E.formatFloat o.floatFormat f
  | _ => []

/-- The dict a scalar is indexed as. -/
structure ParsedAs (E : ParseEnv) (o : ParsingOptions) (v : Value) (pv : Dict) : Prop where
  unparsed : aget "_u".toList pv = some v
  text : aget "_t".toList pv = some (.str (textOf E o v))
  keyword : 0 ≤ o.keywordLength → aget "_k".toList pv = some (.str ((textOf E o v).take o.keywordLength.toNat))
  bool_bool : ∀ b, v = .bool b → aget "_b".toList pv = some (.bool b)
  bool_true : (∀ b, v ≠ .bool b) → (aget "_b".toList pv = some (.bool true) ↔ E.lower (textOf E o v) ∈ o.trueValues)
  bool_false : (∀ b, v ≠ .bool b) → (aget "_b".toList pv = some (.bool false) ↔
    E.lower (textOf E o v) ∈ o.falseValues ∧ E.lower (textOf E o v) ∉ o.trueValues)
  bool_only : ∀ w, aget "_b".toList pv = some w → ∃ b, w = .bool b
  number_int : ∀ i, v = .int i → aget "_n".toList pv = some (.int i)
  number_float : ∀ f, v = .float f → aget "_n".toList pv = some (.float f)
  number_other : (∀ i, v ≠ .int i) → (∀ f, v ≠ .float f) →
    aget "_n".toList pv = (E.toNumber (textOf E o v)).map Value.float
  date_some : ∀ w, aget "_d".toList pv = some w → ∃ f ∈ o.dateFormats, ∃ t, E.parseDate (textOf E o v) f = some t ∧ w = .int t
  date_none : aget "_d".toList pv = none ↔ ∀ f ∈ o.dateFormats, E.parseDate (textOf E o v) f = none

end Splitgill
