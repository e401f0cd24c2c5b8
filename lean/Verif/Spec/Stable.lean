import Verif.Spec.Filter
import Verif.Spec.Life
/-!
# Specification: what is found stays the same (C89)
-/

namespace Splitgill

/-- Documents with the same content: equal for `==`, of the same types, and the same data, with all types, is rebuilt from them. -/
structure SameContent (d d' : Doc (Option ParsedData)) : Prop where
  id : d.id = d'.id
  content : ∃ p p', d.parsed = some p ∧ d'.parsed = some p' ∧ simEq (.dict p.parsed) (.dict p'.parsed) = true ∧
    strictEq (.dict (rebuildData p.parsed)) (.dict (rebuildData p'.parsed)) = true ∧
    p.dataTypes = p'.dataTypes ∧ p.parsedTypes = p'.parsedTypes

/-- `search(v)` finds the same for the record. -/
def SameFound (es es' : ES (Option ParsedData)) (v : Int) (id : PyStr) : Prop :=
  List.Forall₂ SameContent (foundFor es (.version v) id) (foundFor es' (.version v) id)

/-- The calls are made after time `v`. -/
def AllAfter (v : Int) (calls : List ApiCall) : Prop := ∀ t ∈ calls.filterMap ApiCall.clock?, v < t

end Splitgill
