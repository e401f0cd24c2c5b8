import Verif.Model.World
/-!
# Model of several processes working on the options

`update_options` and `rollback_options` take no lock (`splitgill/manager.py`). Processes on all databases share one
collection of options, and `commit()` is `commitStep` of `Verif.Model.World`.
-/

namespace Splitgill

/-- A call about options. -/
inductive OptCall
  /-- `update_options(options, commit)` (manager.py:336-373) -/
  | update (o : ParsingOptions) (doCommit : Bool)
  /-- `commit()` (manager.py:250-281), alone or at the end of `ingest` (manager.py:330-331) -/
  | commit
  /-- `rollback_options()` (manager.py:375-384) -/
  | rollback

/-- Where a call is; each value stands for the next MongoDB command. -/
inductive OptPc
  /-- `get_options()` in `update_options` (manager.py:348-352) -/
  | getOptions
  /-- `has_uncommitted_options()` in `update_options` (manager.py:354) -/
  | check (latest : Option ParsingOptions)
  /-- `rollback_options()` in `update_options` is running (manager.py:355) -/
  | rollback (latest : Option ParsingOptions)
  /-- the comparison and `insert_one` in `update_options` (manager.py:358-369) -/
  | insert (latest : Option ParsingOptions)
  /-- in `commit()` -/
  | commit (pc : Pc)
  /-- `delete_many` of `rollback_options` is running (manager.py:384) -/
  | delete
  /-- returned without a commit -/
  | done
  /-- raised -/
  | failed

/-- Delete the `k`-th uncommitted document (`delete_many` works document by document). -/
def deleteNthOptions : Nat → List OptDoc → List OptDoc
  | _, [] => []
  | k, d :: c =>
    if d.version.isNone then
      match k with
      | 0 => c
      | k + 1 => d :: deleteNthOptions k c
    else d :: deleteNthOptions k c

/-- The first command of a call. -/
def OptCall.start : OptCall → OptPc
  | .update _ _ => .getOptions
  | .commit => .commit .acquire
  | .rollback => .delete

/-- One command of `update_options(o, doCommit)` on `db` before its commit (manager.py:346-373). -/
def updateStep (db : PyStr) (o : ParsingOptions) (doCommit : Bool) (pick : Nat) (m : Mongo) : OptPc → Mongo × OptPc
  | .getOptions => (m, .check (latestOptions db m))
  | .check l => (m, if hasUncommittedOptions m then .rollback l else .insert l)
  | .rollback l =>
    if hasUncommittedOptions m then ({ m with options := deleteNthOptions pick m.options }, .rollback l) else (m, .insert l)
  | .insert l =>
    if sameAsLatest l o then (m, .done)
    else (insertOptions db o m, if doCommit then .commit .acquire else .done)
  | pc => (m, pc)

/-- One command of a call on `db`; `clock` is what `now()` returns if it is called, `pick` says which document a running
`update_many` or `delete_many` takes next (which run until no uncommitted document is left). -/
def OptCall.step (db : PyStr) (clock : Int) (pick : Nat) (m : Mongo) (call : OptCall) (pc : OptPc) : Mongo × OptPc :=
  match pc with
  | .commit pc => match commitStep db clock pick m pc with | (m, pc) => (m, .commit pc)
  | .delete =>
    if hasUncommittedOptions m then ({ m with options := deleteNthOptions pick m.options }, .delete) else (m, .done)
  | pc =>
    match call with
    | .update o doCommit => updateStep db o doCommit pick m pc
    | _ => (m, pc)

/-- The call has ended. -/
def OptPc.ended : OptPc → Bool
  | .commit pc => pc.ended
  | .done => true
  | .failed => true
  | _ => false

/-- An exception is raised by the next command: in the commit the lock is released first (locking.py:90-105). -/
def OptPc.raise : OptPc → OptPc
  | .commit pc => .commit (if pc.inside then .raising else if pc.ended then pc else .failed)
  | .done => .done
  | _ => .failed

/-- What the call has returned. -/
def OptPc.result : OptPc → Option (Option Int)
  | .commit (.done r) => some r
  | .done => some none
  | _ => none

/-- A process with its call. -/
structure OptProc where
  db : PyStr
  call : OptCall
  pc : OptPc
  alive : Bool

/-- MongoDB and the processes. -/
structure OptSys where
  mongo : Mongo
  procs : Nat → Option OptProc

/-- What can happen next. -/
inductive OptAct
  /-- a new process makes a call -/
  | start (p : Nat) (db : PyStr) (call : OptCall)
  /-- the process does its next command -/
  | step (p : Nat) (clock : Int) (pick : Nat)
  /-- the next command of the process fails with an exception -/
  | raise (p : Nat)
  /-- the process dies -/
  | crash (p : Nat)
  /-- any change of the data -/
  | others (data : PyStr → Coll)
  /-- somebody calls `release(lock_id)` (locking.py:62-69) -/
  | adminRelease (lockId : PyStr)

/-- Set what is known about a process. -/
def OptSys.set (s : OptSys) (p : Nat) (x : OptProc) : OptSys :=
  { s with procs := fun q => if q = p then some x else s.procs q }

/-- The state after an action; actions of processes that are not there, dead or ended do nothing. -/
def OptSys.act (s : OptSys) : OptAct → OptSys
  | .start p db call =>
    match s.procs p with
    | none => s.set p ⟨db, call, call.start, true⟩
    | some _ => s
  | .step p clock pick =>
    match s.procs p with
    | some ⟨db, call, pc, true⟩ =>
      match call.step db clock pick s.mongo pc with
      | (m, pc) => OptSys.set { s with mongo := m } p ⟨db, call, pc, true⟩
    | _ => s
  | .raise p =>
    match s.procs p with
    | some ⟨db, call, pc, true⟩ => s.set p ⟨db, call, pc.raise, true⟩
    | _ => s
  | .crash p =>
    match s.procs p with
    | some ⟨db, call, pc, _⟩ => s.set p ⟨db, call, pc, false⟩
    | none => s
  | .others data => { s with mongo := { s.mongo with data := data } }
  | .adminRelease id => { s with mongo := release id s.mongo }

/-- A sequence of actions. -/
def OptSys.run (s : OptSys) (acts : List OptAct) : OptSys := acts.foldl OptSys.act s

end Splitgill
