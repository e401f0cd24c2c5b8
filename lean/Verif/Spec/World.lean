import Verif.Model.World
import Verif.Spec.Options
import Verif.Spec.History
/-!
# Specification vocabulary for the MongoDB side of a client
-/

namespace Splitgill

/-- Process `p` is alive and between acquiring and releasing the lock of `db`. -/
def Sys.Holds (s : Sys) (p : Nat) (db : PyStr) : Prop :=
  ∃ P, s.procs p = some P ∧ P.alive = true ∧ P.pc.inside = true ∧ P.db = db

/-- Locks are released by hand only when no living process holds them. -/
def Careful : Sys → List Act → Prop
  | _, [] => True
  | s, a :: acts =>
    (match a with
      | .adminRelease id => ∀ p, ¬ s.Holds p id
      | _ => True) ∧ Careful (s.act a) acts

/-- `commit()` on `db` running alone, command by command, from any point; each choice is a clock value and the
document a running `update_many` takes next. -/
def commitRun (db : PyStr) (s : Mongo × Pc) (choices : List (Int × Nat)) : Mongo × Pc :=
  choices.foldl (fun s c => commitStep db c.1 c.2 s.1 s.2) s

/-- There are uncommitted records in the database. -/
def PendingData (m : Mongo) (db : PyStr) : Prop := ∃ d ∈ m.data db, d.version = none

/-- There are uncommitted options of the database. -/
def PendingOptions (m : Mongo) (db : PyStr) : Prop := ∃ d ∈ m.options, d.name = db ∧ d.version = none

/-- No other database has uncommitted options. -/
def OthersClean (m : Mongo) (db : PyStr) : Prop := ∀ d ∈ m.options, d.version = none → d.name = db

/-- The same record, with a version if it had none. -/
def GetsVersion (vs : List Int) (d d' : MongoRecord) : Prop :=
  (d.version ≠ none ∧ d' = d) ∨ (d.version = none ∧ ∃ v ∈ vs, d' = { d with version := some v })

/-- The records of the second are those of the first, the uncommitted ones now with one of the versions. -/
def Committed (vs : List Int) (c c' : Coll) : Prop := List.Forall₂ (GetsVersion vs) c c'

/-- The same options document, with a version if it had none. -/
def OptGetsVersion (vs : List Int) (d d' : OptDoc) : Prop :=
  (d.version ≠ none ∧ d' = d) ∨ (d.version = none ∧ ∃ v ∈ vs, d' = { d with version := some v })

/-- All that belongs to a database is the same. -/
structure Unaffected (m m' : Mongo) (db : PyStr) : Prop where
  data : m'.data db = m.data db
  options : m'.options.filter (fun d => decide (d.name = db)) = m.options.filter (fun d => decide (d.name = db))
  lock : isLocked db m' = isLocked db m

/-- `v` is a version of a record or of the options of the database. -/
def IsVersion (m : Mongo) (db : PyStr) (v : Int) : Prop :=
  (∃ d ∈ m.data db, v ∈ d.getVersions) ∨ ∃ d ∈ m.options, d.name = db ∧ d.version = some v

end Splitgill
