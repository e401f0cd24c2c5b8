import Verif.Model.BsonBytes
import Verif.Model.World
/-!
# Model of the documents that options are stored as (`insert_one` in `splitgill/manager.py:361-369`, `find` in `splitgill/manager.py:422-426`,
`to_doc` and `from_doc` in `splitgill/model.py:172-191`)
-/

namespace Splitgill

/-- `astuple(hint)` (model.py:177): a tuple, so a list. -/
def hintToBson (h : PyStr × PyStr × Option PyStr × Int) : Value :=
  .list [.str h.1, .str h.2.1, (match h.2.2.1 with | some r => .str r | none => .none), .int h.2.2.2]

/-- The dict of `to_doc` (model.py:173-180). -/
def OptionsDoc.toBson (o : OptionsDoc) : Value :=
  .dict [("true_values".toList, .list (o.trueValues.map .str)), ("false_values".toList, .list (o.falseValues.map .str)),
    ("date_formats".toList, .list (o.dateFormats.map .str)), ("geo_hints".toList, .list (o.geoHints.map hintToBson)),
    ("keyword_length".toList, .int o.keywordLength), ("float_format".toList, .str o.floatFormat)]

/-- The document (manager.py:363-368), without its ObjectId. -/
def OptDoc.toBson (d : OptDoc) : Value :=
  .dict [("name".toList, .str d.name), ("version".toList, match d.version with | some v => .int v | none => .none),
    ("options".toList, d.options.toBson)]

/-- `GeoFieldHint(*params)` (model.py:188). -/
def hintOf : Value → Option (PyStr × PyStr × Option PyStr × Int)
  | .list [.str a, .str b, .str r, .int s] => some (a, b, some r, s)
  | .list [.str a, .str b, .none, .int s] => some (a, b, none, s)
  | _ => none

/-- An int. -/
def intOf : Value → Option Int
  | .int i => some i
  | _ => none

/-- A list of texts under a name. -/
def textsOf (k : String) (d : Dict) : Option (List PyStr) := (aget k.toList d).bind fun v => (listOf v).bind fun l => l.mapM strOf

/-- The dict that `from_doc` is given (model.py:184-191). -/
def OptionsDoc.ofBson (v : Value) : Option OptionsDoc :=
  (dictOf v).bind fun d =>
  (textsOf "true_values" d).bind fun trueValues => (textsOf "false_values" d).bind fun falseValues =>
  (textsOf "date_formats" d).bind fun dateFormats =>
  ((aget "geo_hints".toList d).bind fun v => (listOf v).bind fun l => l.mapM hintOf).bind fun geoHints =>
  ((aget "keyword_length".toList d).bind intOf).bind fun keywordLength =>
  ((aget "float_format".toList d).bind strOf).map fun floatFormat =>
    { trueValues, falseValues, dateFormats, geoHints, keywordLength, floatFormat }

/-- The document, as it is read (manager.py:422-426). -/
def OptDoc.ofBson (v : Value) : Option OptDoc :=
  (dictOf v).bind fun d =>
  ((aget "name".toList d).bind strOf).bind fun name =>
  (match aget "version".toList d with | some .none => some none | some (.int v) => some (some v) | _ => none).bind fun version =>
  ((aget "options".toList d).bind OptionsDoc.ofBson).map fun options => { name, version, options }

end Splitgill
