import Verif.Model.Doubles
import Verif.Spec.Schedule
import Verif.Spec.World
/-!
# Specification: the versions that indices hold, and syncs that know them as doubles
-/

namespace Splitgill

/-- A version that a document of the indices tells: that of its data, or the next one. -/
def TellsVersion {P : Type} (es : ES P) (v : Int) : Prop := ∃ d ∈ es.all, d.version = v ∨ d.next = some v

/-- `v` is the newest version in the indices; `none` if there are no documents. -/
def IsNewest {P : Type} (es : ES P) : Option Int → Prop
  | none => ∀ v, ¬ TellsVersion es v
  | some v => TellsVersion es v ∧ ∀ w, TellsVersion es w → w ≤ v

/-- Syncs one after another that know the version of the indices as a double, each with what is in MongoDB then. -/
def runByDoubles {P : Type} (X : Parser P) (maxDocs : Nat) (db : PyStr) : ES P → List (SyncCall × Mongo) → Except PyErr (ES P)
  | es, [] => .ok es
  | es, (c, m) :: rest =>
    match (match c with
      | .sync resync => syncByDoubles X maxDocs db resync m es
      | .resyncArcs => resyncArcs X maxDocs db m es) with
    | .error e => .error e
    | .ok es => runByDoubles X maxDocs db es rest

end Splitgill
