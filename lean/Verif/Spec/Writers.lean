import Verif.Model.Writers
import Verif.Spec.Procs
/-!
# Specification: processes that ingest and commit
-/

namespace Splitgill

/-- A living process holds the lock: it is in `commit()`. -/
def WritersState.Holds (s : WritersState) (p : Nat) : Prop := (s.procs p).alive = true ∧ (s.procs p).pc.inside = true

/-- The lock is released by hand only when no living process holds it. -/
def CarefulWriters (U : Unicode) (size : Nat) (db : PyStr) : WritersState → List WriterAct → Prop
  | _, [] => True
  | s, a :: acts =>
    (match a with
      | .adminRelease => ∀ p, ¬ s.Holds p
      | _ => True) ∧ CarefulWriters U size db (s.act U size db a) acts

/-- What the clock shows at an action. -/
def WriterAct.clock? : WriterAct → Option Int
  | .step _ clock _ => some clock
  | _ => none

/-- The clock never goes back. -/
def ClockForward (acts : List WriterAct) : Prop := (acts.filterMap WriterAct.clock?).Pairwise (· ≤ ·)

/-- A process has not begun yet: none of the actions is its own. -/
def NotBegun (p : Nat) (acts : List WriterAct) : Prop := ∀ a ∈ acts, ∀ clock pick, a ≠ .step p clock pick ∧ a ≠ .raise p ∧ a ≠ .crash p

/-- No other process gives versions to records while the actions are done. -/
def NoOtherCommit (U : Unicode) (size : Nat) (db : PyStr) (p : Nat) : WritersState → List WriterAct → Prop
  | _, [] => True
  | s, a :: acts =>
    (match a with
      | .step q _ _ => q ≠ p → ∀ v, (s.procs q).pc ≠ .data v
      | _ => True) ∧ NoOtherCommit U size db p (s.act U size db a) acts

/-- The processes before they begin. -/
def startWriters (calls : Nat → Option PyStr × List Record × Bool) (m : Mongo) : WritersState :=
  ⟨m, fun p => .start 200 (calls p).1 (calls p).2.1 (calls p).2.2⟩

/-- The documents of a record show the data it was ingested with: there is none and it was a delete, or there is one, and its data is
that of the record, or differs from it only as `ingest` is told not to care about (`sameData`, C10). -/
def ShowsRecord (U : Unicode) (mf : Option PyStr) (r : Record) (docs : List MongoRecord) : Prop :=
  (docs = [] ∧ r.isDelete = true) ∨
    ∃ d, docs = [d] ∧ (simEq (.dict (prepareRecordData U r)) (.dict d.data) = true ∨ sameData mf (prepareRecordData U r) d.data = true)

end Splitgill
