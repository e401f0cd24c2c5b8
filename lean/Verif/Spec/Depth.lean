import Verif.Model.Depth
import Verif.Spec.FieldLimit
import Verif.Spec.Query
/-!
# Specification of the depth of data
-/

namespace Splitgill

/-- The number of names in a path into data; places in lists are not counted. -/
def nameCount (p : Path) : Nat := (p.filterMap PathEl.name?).length

/-- The document holds the parse of some data, under some options, in which fields have at most this many names. -/
def MadeFromShallow (E : ParseEnv) (opts : ParsingOptions → Prop) (depth : Nat) (p : ParsedData) : Prop :=
  ∃ data o, (Value.dict data).wf = true ∧ FieldNames (.dict data) ∧ opts o ∧ (∀ q ∈ fieldsOfDict data, q.length ≤ depth) ∧
    (realParser E).parse data o = some p

/-- The data has a value in a field with at least this many names. `None`, `""`, NaN and the infinities do not count. -/
def HasDeepValue (depth : Nat) (data : Dict) : Prop :=
  ∃ p v, getAt p (.dict data) = some v ∧ v.isIndexed = true ∧ v.sent = v ∧ depth ≤ nameCount p

/-- The document holds the parse of some data, under some options, with such a value. -/
def MadeFromDeep (E : ParseEnv) (opts : ParsingOptions → Prop) (depth : Nat) (p : ParsedData) : Prop :=
  ∃ data o, (Value.dict data).wf = true ∧ FieldNames (.dict data) ∧ opts o ∧ HasDeepValue depth data ∧
    (realParser E).parse data o = some p

/-- A value in a dict in a dict, and so on, with these names. -/
def nestedIn (v : Value) : List PyStr → Value
  | [] => v
  | k :: ks => .dict [(k, nestedIn v ks)]

/-- The id of an operation on the index of the latest data. -/
def BulkOp.latestDocId {P : Type} : BulkOp P → Option PyStr
  | .index .latest id _ => id
  | .delete .latest id => some id
  | _ => none

end Splitgill
