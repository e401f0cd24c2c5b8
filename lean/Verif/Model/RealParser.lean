import Verif.Model.Index
import Verif.Model.Parse
/-!
# The parser of `Verif.Model.Parse` as the parser of the indexing model

`Verif.Model.Index` and the theorems about syncs and searches are for any parser. Here is the one of the code.
-/

namespace Splitgill

/-- Insert an item by the order of the keys. -/
def insertItem (kv : PyStr × Value) (d : Dict) : Dict := insertBy (fun a b => strLe a.1 b.1) kv d

mutual
/-- The same value with the keys of all dicts in order. JSON objects in Elasticsearch, and `==` of dicts, do not depend
on the order of keys, so documents are modelled with the keys in order. -/
def canon : Value → Value
  | .dict d => .dict (canonDict d)
  | .list l => .list (canonList l)
  | v => v
def canonDict : Dict → Dict
  | [] => []
  | (k, v) :: r => insertItem (k, canon v) (canonDict r)
def canonList : List Value → List Value
  | [] => []
  | v :: r => canon v :: canonList r
end

/-- `parse(data, options)` (indexing/parser.py:23-53) and `==` of its results (`ParsedData` is a named tuple,
parser.py:13-20; it is compared in indexing/index.py:190), as the parser of the indexing model. `none` stands for an
exception, which in the code ends the sync (see `Verif.Model.Raises` and C93). Simplified: the keys of the parsed dicts are in order (see `canon`); a NaN is equal to a NaN
only in the parses of one data object (`eqSame`), where it is the same object. -/
def realParser (E : ParseEnv) : Parser (Option ParsedData) where
  parse d o :=
    match parse E o d with
    | .ok p => some { p with parsed := canonDict p.parsed }
    | .error _ => none
  eq p q :=
    match p, q with
    | some p, some q => pyEq (.dict p.parsed) (.dict q.parsed) && decide (p.dataTypes = q.dataTypes) &&
        decide (p.parsedTypes = q.parsedTypes)
    | _, _ => false
  eqSame p q :=
    match p, q with
    | some p, some q => simEq (.dict p.parsed) (.dict q.parsed) && decide (p.dataTypes = q.dataTypes) &&
        decide (p.parsedTypes = q.parsedTypes)
    | _, _ => false

end Splitgill
