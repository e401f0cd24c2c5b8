import Verif.Py.Value
/-!
# Model of `prepare_data`, `prepare_field_name` (`splitgill/diffing.py:46-127`) and
`prepare_record_data` (`splitgill/ingest.py:15-32`)
-/

namespace Splitgill

/-- The unicode tables used: membership in category C (`\p{C}` of the `regex` module) and
`str.isspace` (as used by `str.strip`). -/
structure Unicode where
  isC : Char → Bool
  isSpace : Char → Bool

/-- A dict key as given by the user: a `str`, or another hashable given by its `str()` text. -/
inductive RawKey
  | str (s : PyStr)
  | other (text : PyStr)
deriving DecidableEq

/-- A value as given by the user.  `list` stands for `list`, `set` and `tuple` (in iteration order), `datetime`
and `date` are given by the result of their `strftime`, `other` is any other object, given by its
`str()` text.  Subclasses (`IntEnum`, `str` subclasses, ...) are not distinguished. -/
inductive Raw
  | none
  | bool (b : Bool)
  | int (i : Int)
  | float (f : PyFloat)
  | str (s : PyStr)
  | list (l : List Raw)
  | dict (d : List (RawKey × Raw))
  | datetime (text : PyStr)
  | date (text : PyStr)
  | other (text : PyStr)

/-- `str(name)` -/
def RawKey.text : RawKey → PyStr
  | .str s => s
  | .other t => t

/-- The characters of `invalid_value_char_regex` (diffing.py:39): category C except `\n \r \t`. -/
def invalidValueChar (U : Unicode) (c : Char) : Bool :=
  U.isC c && c != '\n' && c != '\r' && c != '\t'

/-- `str.strip()` -/
def strip (U : Unicode) (s : PyStr) : PyStr :=
  ((s.dropWhile U.isSpace).reverse.dropWhile U.isSpace).reverse

/-- `DATA_ID_FIELD` (indexing/fields.py:11) -/
def dataIdField : PyStr := ['_', 'i', 'd']

/-- `prepare_field_name` (diffing.py:100-127). -/
def prepareFieldName (U : Unicode) (name : RawKey) : PyStr :=
  let cleanName := strip U ((name.text.filter (fun c => !U.isC c)).map
    (fun c => if c = '.' then '_' else c))
  match cleanName with
  | [] => ['-']
  | c :: rest =>
    if name = .str dataIdField then dataIdField
    else if c = '_' then '-' :: rest
    else c :: rest

mutual
/-- `prepare_data` (diffing.py:46-97). -/
def prepareData (U : Unicode) : Raw → Value
  | .none => .none
  | .str s => .str (s.filter (fun c => !invalidValueChar U c))
  | .int i => .int i
  | .float f => .float f
  | .bool b => .bool b
  | .dict d => .dict (aofList (prepareItems U d))
  | .list l => .list (prepareList U l)
  | .datetime t => .str t
  | .date t => .str t
  | .other t => .str t
/-- `list(map(prepare_data, value))` -/
def prepareList (U : Unicode) : List Raw → List Value
  | [] => []
  | v :: r => prepareData U v :: prepareList U r
/-- The items of the dict comprehension, before later ones replace earlier ones with the same key. -/
def prepareItems (U : Unicode) : List (RawKey × Raw) → List (PyStr × Value)
  | [] => []
  | (k, v) :: r => (prepareFieldName U k, prepareData U v) :: prepareItems U r
end

/-- `Record` (model.py:12-37). -/
structure Record where
  id : PyStr
  data : List (RawKey × Raw)

/-- `Record.is_delete` (model.py:21-29). -/
def Record.isDelete (r : Record) : Bool := r.data.isEmpty

/-- `prepare_record_data` (ingest.py:15-32). -/
def prepareRecordData (U : Unicode) (r : Record) : Dict :=
  if r.isDelete then []
  else
    let data := aofList (prepareItems U r.data)
    aset dataIdField (prepareData U (.str r.id)) data

end Splitgill
