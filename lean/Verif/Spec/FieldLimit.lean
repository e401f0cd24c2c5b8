import Verif.Model.FieldLimit
import Verif.Spec.Mapping
/-!
# Specification of the limit of the number of fields of an index
-/

namespace Splitgill

mutual
/-- The fields of a value, as lists of names: those of dicts in it and in lists in it. -/
def fieldsOf : Value → List (List PyStr)
  | .dict d => fieldsOfDict d
  | .list l => fieldsOfList l
  | _ => []
def fieldsOfDict : Dict → List (List PyStr)
  | [] => []
  | (k, v) :: r => [k] :: ((fieldsOf v).map (fun p => k :: p) ++ fieldsOfDict r)
def fieldsOfList : List Value → List (List PyStr)
  | [] => []
  | v :: r => fieldsOf v ++ fieldsOfList r
end

/-- The document holds the parse of some data, under some options, that has none but these fields. -/
def MadeFromFields (E : ParseEnv) (opts : ParsingOptions → Prop) (fields : List (List PyStr)) (p : ParsedData) : Prop :=
  ∃ data o, (Value.dict data).wf = true ∧ FieldNames (.dict data) ∧ opts o ∧ (∀ q ∈ fieldsOfDict data, q ∈ fields) ∧
    (realParser E).parse data o = some p

/-- The libraries find no places. -/
structure NoPlaces (E : ParseEnv) : Prop where
  wkt : ∀ s, E.wkt s = none
  geojson : ∀ d, E.geojson d = none
  hint : ∀ lon lat r n, E.hintGeo lon lat r n = none

/-- The same value in all of the fields. -/
def uniformData (x : Value) (ks : List PyStr) : Dict := ks.map (fun k => (k, x))

end Splitgill
