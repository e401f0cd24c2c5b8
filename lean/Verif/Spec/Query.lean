import Verif.Model.Query
import Verif.Spec.Parse
import Verif.Spec.Time
/-!
# What queries are expected to match
-/

namespace Splitgill

/-- The name in a step of a path. -/
def PathEl.name? : PathEl → Option PyStr
  | .key k => some k
  | .idx _ => none

/-- The name of the field of a value, as it is used in queries: the names on the way to it, with dots between them.
Elements of a list belong to the field of the list. -/
def fieldPath (p : Path) : PyStr := ['.'].intercalate (p.filterMap PathEl.name?)

/-- The data has, in this field, a value with a property; `None` and `""` are not looked at. -/
def HasInField (d : Dict) (field : PyStr) (P : Value → Prop) : Prop :=
  ∃ p v, fieldPath p = field ∧ getAt p (.dict d) = some v ∧ v.isIndexed = true ∧ P v

/-- The keyword of a scalar. -/
def keywordOf (Q : QueryEnv) (E : ParseEnv) (o : ParsingOptions) (v : Value) : PyStr :=
  Q.normalise ((textOf E o v).take o.keywordLength.toNat)

/-- The number a float stands for, if it does for one. -/
def PyFloat.number? : PyFloat → Option ℚ
  | .fin q => some q
  | .negZero => some 0
  | _ => none

/-- The number of a scalar: also of a string that reads as a number. -/
def numberOf (E : ParseEnv) (o : ParsingOptions) : Value → Option ℚ
  | .int i => some i
  | .float f => f.number?
  | v => (E.toNumber (textOf E o v)).bind PyFloat.number?

/-- The date of a scalar: of a text that one of the formats of the options reads, the first one. -/
def dateOf (E : ParseEnv) (o : ParsingOptions) (v : Value) : Option ℤ :=
  o.dateFormats.findSome? (E.parseDate (textOf E o v))

/-- The boolean of a scalar. -/
def boolOf (E : ParseEnv) (o : ParsingOptions) : Value → Option Bool
  | .bool b => some b
  | v =>
    if E.lower (textOf E o v) ∈ o.trueValues then some true
    else if E.lower (textOf E o v) ∈ o.falseValues then some false
    else none

/-- All given bounds are kept. -/
def Bounds.Holds {α : Type} [LE α] [LT α] (b : Bounds α) (x : α) : Prop :=
  (∀ y, b.gte = some y → y ≤ x) ∧ (∀ y, b.lt = some y → x < y) ∧ (∀ y, b.gt = some y → y < x) ∧
  (∀ y, b.lte = some y → x ≤ y)

/-- One of the bounds. -/
def Bounds.Has {α : Type} (b : Bounds α) (a : α) : Prop :=
  b.gte = some a ∨ b.lt = some a ∨ b.gt = some a ∨ b.lte = some a

/-- The arguments queries are made for, with their type: strings, booleans, numbers, and datetimes and dates. -/
inductive ArgType : Arg → PType → Prop
  | str (s) : ArgType (.value (.str s)) .keyword
  | bool (b) : ArgType (.value (.bool b)) .boolean
  | int (i) : ArgType (.value (.int i)) .number
  | float (f) : ArgType (.value (.float f)) .number
  | aware (us) : ArgType (.aware us) .date
  | naive (us) : ArgType (.naive us) .date

/-- A number in a query: an int or a float. -/
inductive Num
  | int (i : ℤ)
  | float (q : ℚ)

def Num.value : Num → Value
  | .int i => .int i
  | .float q => .float (.fin q)

/-- The number it is. -/
def Num.rat : Num → ℚ
  | .int i => i
  | .float q => q

/-- A datetime or date in a query. -/
inductive Moment
  | aware (us : ℤ)
  | naive (us : ℤ)

def Moment.arg : Moment → Arg
  | .aware us => .aware us
  | .naive us => .naive us

/-- The microseconds since the epoch; a naive one is in local time. -/
def Moment.epoch (Q : QueryEnv) : Moment → ℤ
  | .aware us => us
  | .naive us => us - Q.localOffset us

/-- Numbers that a double represents exactly: floats, and ints up to `2 ^ 53`. -/
def Value.ExactNumber : Value → Prop
  | .int i => |i| ≤ 2 ^ 53
  | .float (.fin q) => IsDouble q
  | _ => True

/-- The floats of the parser are floats. -/
def ParseEnv.Floats (E : ParseEnv) : Prop := ∀ s q, E.toNumber s = some (.fin q) → IsDouble q

/-- What the values of a field are asked for: to be a string, a number, a boolean or a moment, or to be between bounds. -/
inductive Asked
  | string (s : PyStr)
  | number (n : Num)
  | boolean (b : Bool)
  | moment (m : Moment)
  | strings (b : Bounds PyStr)
  | numbers (b : Bounds Num)
  | booleans (b : Bounds Bool)
  | moments (b : Bounds Moment)

/-- Ranges have a bound. -/
def Asked.Bounded : Asked → Prop
  | .strings b => ∃ s, b.Has s
  | .numbers b => ∃ s, b.Has s
  | .booleans b => ∃ s, b.Has s
  | .moments b => ∃ s, b.Has s
  | _ => True

/-- Does a value meet what is asked for? Strings are compared as keywords, numbers as doubles, moments as milliseconds. -/
def Asked.holds (Q : QueryEnv) (E : ParseEnv) (o : ParsingOptions) : Asked → Value → Prop
  | .string s, v => keywordOf Q E o v = Q.normalise s
  | .number n, v => ∃ x, numberOf E o v = some x ∧ fl x = fl n.rat
  | .boolean b, v => boolOf E o v = some b
  | .moment m, v => dateOf E o v = some (toTimestamp (m.epoch Q))
  | .strings b, v => (b.map Q.normalise).Holds (keywordOf Q E o v)
  | .numbers b, v => ∃ x, numberOf E o v = some x ∧ (b.map (fun n => fl n.rat)).Holds (fl x)
  | .booleans b, v => ∃ x, boolOf E o v = some x ∧ b.Holds x
  | .moments b, v => ∃ t, dateOf E o v = some t ∧ (b.map (fun m => toTimestamp (m.epoch Q))).Holds t

/-- Somewhere in a value there is a scalar other than `None` and `""`. -/
def HasValue (v : Value) : Prop := ∃ p w, getAt p v = some w ∧ w.isIndexed = true

/-- Places are not made of nothing: GeoJSON has a type or other values in it, and the latitude of a hint is one. -/
structure ParseEnv.PlacesHaveValues (E : ParseEnv) : Prop where
  geojson : ∀ d g, E.geojson d = some g → HasValue (.dict d)
  hint : ∀ lon lat r n g, E.hintGeo lon lat r n = some g → HasValue lat

end Splitgill
