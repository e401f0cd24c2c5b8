import Verif.Model.Names
import Verif.Model.RealParser
/-!
# Model of the texts that are sent to Elasticsearch

`IndexOp.serialise` and `DeleteOp.serialise` (indexing/index.py:95-121), the bodies of the bulk requests of
`worker` (indexing/syncing.py:230-232), and `orjson.dumps` as far as they use it.
-/

namespace Splitgill

/-- How finite floats are written (by `orjson`) and read. -/
structure FloatText where
  write : PyFloat → PyStr
  read : PyStr → Option PyFloat

/-- A character of a string, as `orjson` writes it (indexing/index.py:105-109). -/
def jsonEscape (c : Char) : PyStr :=
  if c = '"' then "\\\"".toList
  else if c = '\\' then "\\\\".toList
  else if c.toNat = 8 then "\\b".toList
  else if c.toNat = 9 then "\\t".toList
  else if c.toNat = 10 then "\\n".toList
  else if c.toNat = 12 then "\\f".toList
  else if c.toNat = 13 then "\\r".toList
  else if c.toNat < 32 then "\\u00".toList ++ [Nat.digitChar (c.toNat / 16), Nat.digitChar (c.toNat % 16)]
  else [c]

/-- A string, as `orjson` writes it (indexing/index.py:105-109). -/
def jsonStr (s : PyStr) : PyStr := '"' :: (s.flatMap jsonEscape ++ ['"'])

mutual
/-- `orjson.dumps` (indexing/index.py:105-109), when it returns: NaN and the infinities are `null`. -/
def dumps (F : FloatText) : Value → PyStr
  | .none => "null".toList
  | .bool b => if b then "true".toList else "false".toList
  | .int i => intStr i
  | .float .nan => "null".toList
  | .float .pinf => "null".toList
  | .float .ninf => "null".toList
  | .float f => F.write f
  | .str s => jsonStr s
  | .list [] => "[]".toList
  | .list (v :: r) => '[' :: (dumps F v ++ dumpsMore F r)
  | .dict [] => "{}".toList
  | .dict ((k, v) :: r) => '{' :: (jsonStr k ++ ':' :: (dumps F v ++ dumpsItems F r))
def dumpsMore (F : FloatText) : List Value → PyStr
  | [] => "]".toList
  | v :: r => ',' :: (dumps F v ++ dumpsMore F r)
def dumpsItems (F : FloatText) : Dict → PyStr
  | [] => "}".toList
  | (k, v) :: r => ',' :: (jsonStr k ++ ':' :: (dumps F v ++ dumpsItems F r))
end

mutual
/-- `orjson.dumps` returns: it raises a `JSONEncodeError` for ints that do not fit into 64 bits. Simplified: it also raises for
more than 254 levels, which MongoDB does not store. -/
def dumpable : Value → Bool
  | .int i => decide (-2 ^ 63 ≤ i ∧ i < 2 ^ 64)
  | .list l => dumpableList l
  | .dict d => dumpableDict d
  | _ => true
def dumpableList : List Value → Bool
  | [] => true
  | v :: r => dumpable v && dumpableList r
def dumpableDict : Dict → Bool
  | [] => true
  | (_, v) :: r => dumpable v && dumpableDict r
end

/-- The dict of `create_doc` (indexing/index.py:157-175) with the names of `DocumentField` (indexing/fields.py:14-44). -/
def Doc.toDict (d : Doc ParsedData) : Dict :=
  [("id".toList, .str d.id), ("version".toList, .int d.version),
   ("versions".toList, .dict (("gte".toList, .int d.gte) :: match d.lt with | some v => [("lt".toList, .int v)] | none => [])),
   ("data".toList, .dict d.parsed.parsed),
   ("data_types".toList, .list (d.parsed.dataTypes.map Value.str)),
   ("parsed_types".toList, .list (d.parsed.parsedTypes.map Value.str))] ++
  match d.next with | some v => [("next".toList, .int v)] | none => []

/-- The dict of the first line of an `IndexOp` (indexing/index.py:105). -/
def indexAction (index : PyStr) (docId : Option PyStr) : Value :=
  .dict [("index".toList, .dict [("_index".toList, .str index),
    ("_id".toList, match docId with | some id => .str id | none => .none)])]

/-- `op.serialise()` (indexing/index.py:102-110, 119-121); `JSONEncodeError` is a `TypeError`. -/
def BulkOp.serialise (F : FloatText) (db : PyStr) : BulkOp ParsedData → Except PyErr PyStr
  | .index ix docId doc =>
    if dumpable (.dict doc.toDict) then
      .ok (dumps F (indexAction (indexName db ix) docId) ++ '\n' :: dumps F (.dict doc.toDict))
    else .error .typeError
  | .delete ix docId => .ok (serialiseDelete (indexName db ix) docId)

/-- The body of `client.bulk(operations=[op.serialise() for op in chunk])` (indexing/syncing.py:230-232): the client of
Elasticsearch puts a newline after each text. -/
def bulkBody (F : FloatText) (db : PyStr) : List (BulkOp ParsedData) → Except PyErr PyStr
  | [] => .ok []
  | op :: ops =>
    match op.serialise F db with
    | .error e => .error e
    | .ok s =>
      match bulkBody F db ops with
      | .error e => .error e
      | .ok body => .ok (s ++ '\n' :: body)

end Splitgill
