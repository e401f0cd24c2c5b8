import Verif.Spec.Writers
import Verif.Spec.Life
/-!
# Specification: versions that commits give while others write
-/

namespace Splitgill

/-- No commit gives a record a version that the record has already. (Two commits do not read the same clock, and an `update_many` that has
given a document its version does not come to it again after somebody has changed it.) -/
def FreshVersions (U : Unicode) (size : Nat) (db : PyStr) : WritersState → List WriterAct → Prop
  | _, [] => True
  | s, a :: acts =>
    (match a with
      | .step q _ _ =>
        match (s.procs q).pc with
        | .data v => ∀ d ∈ s.mongo.data db, d.version = none →
            { d with version := some v } ∈ (s.act U size db a).mongo.data db → v ∉ d.getVersions
        | _ => True
      | _ => True) ∧ FreshVersions U size db (s.act U size db a) acts

/-- What the processes have come to, in a database that was used before as the library does. -/
def afterWriters (U : Unicode) (db : PyStr) (before : List ApiCall) (calls : Nat → Option PyStr × List Record × Bool) (acts : List WriterAct) : WritersState :=
  (startWriters calls (afterCalls U db before)).run U 200 db acts

/-- Processes that ingest each their own records, each of them once, and commit. The clock does not go back, the lock is released by hand only
when nobody holds it, and no commit gives a record a version it has already. -/
structure WritersOk (U : Unicode) (db : PyStr) (before : List ApiCall) (calls : Nat → Option PyStr × List Record × Bool) (acts : List WriterAct) : Prop where
  orderly : Orderly before
  disjoint : DisjointIds (fun p => (calls p).2.1)
  nodup : ∀ p, ((calls p).2.1.map Record.id).Nodup
  careful : CarefulWriters U 200 db (afterWriters U db before calls []) acts
  forward : ClockForward acts
  after : ∀ t0 ∈ before.filterMap ApiCall.clock?, ∀ t ∈ acts.filterMap WriterAct.clock?, t0 ≤ t
  fresh : FreshVersions U 200 db (afterWriters U db before calls []) acts

/-- At the moment after `pre` the versions of the record are safe: it had no uncommitted data at the start, or the process that ingests it has not
begun, or has written all. -/
def SafeAt (U : Unicode) (db : PyStr) (before : List ApiCall) (calls : Nat → Option PyStr × List Record × Bool) (pre : List WriterAct) (id : PyStr) : Prop :=
  (∀ d ∈ (afterCalls U db before).data db, d.id = id → d.version ≠ none) ∨
    ∀ q, (∃ r ∈ (calls q).2.1, r.id = id) → NotBegun q pre ∨ ((afterWriters U db before calls pre).procs q).ingest.finished = true

end Splitgill
