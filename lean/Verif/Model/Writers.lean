import Verif.Model.Procs
import Verif.Model.World
/-!
# Model of several processes that ingest and commit (`ingest` with its `commit()`, `splitgill/manager.py:250-331`)

`Verif.Model.Procs` has the processes in `ingest` before their commits, `Verif.Model.World` the commands of `commit()`. Here both are put
together: each process goes through `ingest(records, commit, modified_field)`; with no records this is `commit()`. Different from
`Verif.Model.World`, an `update_many` may end before it has seen what others write while it runs.
-/

namespace Splitgill

/-- A process in `ingest(records, commit, modified_field)` (manager.py:283-334). -/
structure Writer where
  /-- where it is before the commit -/
  ingest : IngestProc
  /-- the argument `commit` -/
  doCommit : Bool
  /-- where it is in `commit()`; `done` if it has returned -/
  pc : Pc := .acquire
  /-- the ids of the documents the running `update_many` still has to come to: those that matched its filter when it began -/
  todo : Option (List PyStr) := none
  alive : Bool := true

/-- A process that begins (manager.py:318-325); the code has `size` 200. -/
def Writer.start (size : Nat) (mf : Option PyStr) (records : List Record) (doCommit : Bool) : Writer :=
  { ingest := .start size mf records, doCommit := doCommit }

/-- The ids of the uncommitted documents. -/
def uncommittedIds (c : Coll) : List PyStr := (c.filter (fun d => d.version.isNone)).map MongoRecord.id

/-- One command of `commit()` (manager.py:250-281, see `commitStep`). `pick` says which document a running `update_many` sets the version of
next, or that it ends; that of the data ends only if none of the documents that were uncommitted when it began still is. (That of the options
may end at any time here, as nothing is said of options.) -/
def Writer.commitStep (db : PyStr) (clock : Int) (pick : Option Nat) (m : Mongo) (w : Writer) : Mongo × Writer :=
  match w.pc with
  | .clock => (m, { w with pc := .data clock, todo := none })
  | .data v =>
    match w.todo, pick with
    | none, _ => (m, { w with todo := some (uncommittedIds (m.data db)) })
    | some _, some k => (m.setData db (commitNth v k (m.data db)), w)
    | some ids, none => if ids.any (fun id => decide (id ∈ uncommittedIds (m.data db))) then (m, w) else (m, { w with pc := .options v })
  | .options v =>
    match pick with
    | some k => ({ m with options := commitNthOptions v k m.options }, w)
    | none => (m, { w with pc := .release (some v) })
  | pc => match Splitgill.commitStep db clock 0 m pc with | (m, pc) => (m, { w with pc := pc })

/-- The next step of a process (manager.py:322-334). -/
def Writer.step (U : Unicode) (size : Nat) (db : PyStr) (clock : Int) (pick : Option Nat) (m : Mongo) (w : Writer) : Mongo × Writer :=
  if w.pc.ended then (m, w)
  else if w.ingest.raised.isSome then (m, { w with pc := .failed })
  else if w.ingest.finished then
    if w.doCommit then w.commitStep db clock pick m else (m, { w with pc := .done none })
  else
    match w.ingest.step U size (m.data db) with
    | (c, p) => (m.setData db c, { w with ingest := p })

/-- The next command raises: in the commit the lock is released first (locking.py:90-105). -/
def Writer.raise (w : Writer) : Writer :=
  { w with pc := if w.pc.ended then w.pc else if w.pc.inside then .raising else .failed }

/-- MongoDB and the processes. -/
structure WritersState where
  mongo : Mongo
  procs : Nat → Writer

/-- What can happen next. -/
inductive WriterAct
  /-- a process does its next command; the clock shows `clock` -/
  | step (p : Nat) (clock : Int) (pick : Option Nat)
  /-- its next command raises -/
  | raise (p : Nat)
  /-- it dies -/
  | crash (p : Nat)
  /-- the options are changed by others (who do not commit them) -/
  | options (os : List OptDoc)
  /-- somebody calls `release(db)` (locking.py:62-69) -/
  | adminRelease

/-- The state with another process. -/
def WritersState.set (s : WritersState) (p : Nat) (w : Writer) : WritersState :=
  { s with procs := fun q => if q = p then w else s.procs q }

/-- One action on the database `db`. -/
def WritersState.act (U : Unicode) (size : Nat) (db : PyStr) (s : WritersState) : WriterAct → WritersState
  | .step p clock pick =>
    if (s.procs p).alive then
      match (s.procs p).step U size db clock pick s.mongo with
      | (m, w) => WritersState.set { s with mongo := m } p w
    else s
  | .raise p => if (s.procs p).alive then s.set p (s.procs p).raise else s
  | .crash p => s.set p { s.procs p with alive := false }
  | .options os => { s with mongo := { s.mongo with options := os } }
  | .adminRelease => { s with mongo := release db s.mongo }

/-- A schedule. -/
def WritersState.run (U : Unicode) (size : Nat) (db : PyStr) (s : WritersState) (acts : List WriterAct) : WritersState :=
  acts.foldl (WritersState.act U size db) s

end Splitgill
