import Verif.Model.Search
import Verif.Spec.Index
/-!
# Specification: what searches show
-/

namespace Splitgill

/-- What `search(v)` finds. -/
def found {P : Type} (es : ES P) (at_ : SearchAt) : List (Doc P) := (es.search at_).run es

/-- What `search(v)` finds for a record. -/
def foundFor {P : Type} (es : ES P) (at_ : SearchAt) (id : PyStr) : List (Doc P) :=
  (found es at_).filter (fun d => decide (d.id = id))

/-- What `search(v)` shows of a record: the first document found for it. (There is no other, see C36.) -/
def shown {P : Type} (es : ES P) (v : Int) (id : PyStr) : Option P :=
  (foundFor es (.version v) id).head?.map (·.parsed)

/-- The record appears, disappears or shows something else at version `v`. -/
def changedAt {P : Type} (X : Parser P) (es : ES P) (v : Int) (id : PyStr) : Bool :=
  match shown es (v - 1) id, shown es v id with
  | none, none => false
  | some p, some q => !X.eq p q
  | _, _ => true

/-- The record appears at version `v`. -/
def addedAt {P : Type} (es : ES P) (v : Int) (id : PyStr) : Bool :=
  (shown es (v - 1) id).isNone && (shown es v id).isSome

/-- The newest value of a history. -/
def Newest {α : Type} (l : List (Int × α)) (x : α) : Prop := ∃ w, (w, x) ∈ l ∧ ∀ w' y, (w', y) ∈ l → w' ≤ w

end Splitgill
