import Verif.Model.Geo
import Verif.Model.NumberText
/-!
# Model of how hints read coordinates and radii (`splitgill/indexing/geo.py:48-63`)

`Point(longitude, latitude)` of shapely makes a numpy array of the two values, and `float(…)` of its elements if it is not one of numbers.
-/

namespace Splitgill

/-- A number as a float. Simplified: NaN and infinities are no coordinates; `Point` takes them, but `is_shape_valid` never does, so nothing is different. -/
def floatValue : Value → Option ℚ
  | .bool b => some (if b then 1 else 0)
  | .int i => some (fl i)
  | .float (.fin q) => some q
  | .float .negZero => some 0
  | _ => none

/-- The float of an element of an array of texts: `float(text)`, for texts as in `textNumber`. An int or a float is there as its text, which reads as the same
float; a boolean is the text `True` or `False`, which is no number. -/
def floatElement : Value → Option ℚ
  | .str s => (textNumber s).map (fun x => fl (if x.1 then -x.2 else x.2))
  | .bool _ => none
  | v => floatValue v

/-- Is the value a text? -/
def Value.isText : Value → Bool
  | .str _ => true
  | _ => false

/-- `Point(longitude, latitude)` (geo.py:51) of scalars; `none` for `ValueError` and `TypeError`. Simplified: lists and dicts are not modelled. -/
def readPoint (lon lat : Value) : Option Shape :=
  let read := if lon.isText || lat.isText then floatElement else floatValue
  match read lon, read lat with
  | some x, some y => some (.point [⟨x, y, []⟩])
  | _, _ => none

/-- `try_float(value, on_fail=RAISE, nan=RAISE, inf=RAISE)` (geo.py:61-63) of scalars; `none` for `ValueError` and `TypeError`. -/
def readRadius : Value → Option ℚ
  | .str s => (textNumber s).map (fun x => fl (if x.1 then -x.2 else x.2))
  | v => floatValue v

end Splitgill
