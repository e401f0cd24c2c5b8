import Verif.Model.Levels
import Verif.Spec.Value
import Verif.Spec.Crash
/-!
# Specification of how deep data is nested
-/

namespace Splitgill

/-- In the data, itself included, no more than `n` dicts and lists are one in another: none is at a path of `n` or more steps. -/
def NestedWithin (n : Nat) (data : Dict) : Prop := ∀ p v, getAt p (.dict data) = some v → v.isScalar = false → p.length < n

/-- What a call is when it ends or is stopped: itself, or an ingest or a rollback that stops after some of its writes. -/
def DoneOrStopped (c : ApiCall) (st : Step) : Prop :=
  st = .call c ∨ (∃ mf rs doCommit clock n, c = .ingest mf rs doCommit clock ∧ st = .ingestStops mf rs n) ∨
    (c = .rollbackRecords ∧ ∃ n, st = .rollbackStops n)

end Splitgill
