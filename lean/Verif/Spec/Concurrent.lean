import Verif.Model.Concurrent
import Verif.Spec.History
/-!
# Specification: which schedules of concurrent processes are harmless
-/

namespace Splitgill

/-- The versions given by the commits. -/
def commitVersions (acts : List ConcAct) : List Int :=
  acts.filterMap (fun | .commit v _ => some v | _ => none)

/-- No record is new twice: when an ingest looks records up, nobody is about to insert one of them. And nobody
commits a change of a record while another change of it, worked out before, is still to be written. -/
def ConcState.CalmAt (st : ConcState) : ConcAct → Prop
  | .lookup _ _ chunk => ∀ r ∈ chunk, ∀ x ∈ st.unwritten, ∀ data, x.2 ≠ .insert r.id data
  | .commit _ done => ∀ x ∈ st.unwritten, ∀ doc ∈ st.coll, doc.id = x.2.id → doc.version = none → done doc.id = false
  | _ => True

/-- All actions of a schedule are taken at such moments. -/
def ConcState.Calm (U : Unicode) : ConcState → List ConcAct → Prop
  | _, [] => True
  | st, a :: as => st.CalmAt a ∧ ConcState.Calm U (st.act U a) as

end Splitgill
