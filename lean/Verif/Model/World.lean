import Verif.Model.Manager
import Verif.Model.Options
/-!
# Model of the MongoDB side of a client: data collections, options collection, locks
(`splitgill/manager.py`, `splitgill/locking.py`)

All databases of a client share one options collection and one lock collection.
-/

namespace Splitgill

/-- A document of the options collection (manager.py:361-366). -/
structure OptDoc where
  name : PyStr
  version : Option Int
  options : OptionsDoc
deriving DecidableEq

/-- The MongoDB database of a client (manager.py:32-88): `data name` is the collection `data-<name>`, `locks`
are the ids in the lock collection (unique index, locking.py:30-31). -/
structure Mongo where
  data : PyStr → Coll
  options : List OptDoc
  locks : List PyStr

/-- A new client. -/
def Mongo.empty : Mongo := { data := fun _ => [], options := [], locks := [] }

/-- Replace the data collection of a database. -/
def Mongo.setData (m : Mongo) (db : PyStr) (c : Coll) : Mongo :=
  { m with data := fun n => if n = db then c else m.data n }

/-! ## Locks -/

/-- `acquire(lock_id)` (locking.py:33-60): `insert_one`, which fails if the id is there. -/
def acquire (lockId : PyStr) (m : Mongo) : Bool × Mongo :=
  if lockId ∈ m.locks then (false, m) else (true, { m with locks := m.locks ++ [lockId] })

/-- `release(lock_id)` (locking.py:62-69): `delete_one`. -/
def release (lockId : PyStr) (m : Mongo) : Mongo := { m with locks := m.locks.erase lockId }

/-- `is_locked(lock_id)` (locking.py:71-78) -/
def isLocked (lockId : PyStr) (m : Mongo) : Bool := decide (lockId ∈ m.locks)

/-- The exceptions a call ends with. -/
inductive ApiErr
  | alreadyLocked
  | py (e : PyErr)
deriving DecidableEq

/-- `with lock(lock_id): body` (locking.py:90-105); the body returns or raises, in both cases with a changed
state, and the lock is released afterwards. -/
def withLock {α : Type} (lockId : PyStr) (body : Mongo → Except ApiErr α × Mongo) (m : Mongo) :
    Except ApiErr α × Mongo :=
  match acquire lockId m with
  | (false, m) => (.error .alreadyLocked, m)
  | (true, m) =>
    match body m with
    | (r, m) => (r, release lockId m)

/-! ## Options -/

/-- `get_options(include_uncommitted)` (manager.py:414-426): a dict from version (`none` is `None`); a later
document with the same version replaces an earlier one. -/
def getOptions (db : PyStr) (includeUncommitted : Bool) (m : Mongo) : List (Option Int × ParsingOptions) :=
  (m.options.filter (fun d => decide (d.name = db) && (includeUncommitted || d.version.isSome))).foldl
    (fun acc d => aset d.version (ParsingOptions.fromDoc d.options) acc) []

/-- `has_options()` (manager.py:241-248): the filter does not have the name. -/
def hasOptions (m : Mongo) : Bool := m.options.any (fun d => d.version.isSome)

/-- `has_uncommitted_options()` (manager.py:406-412): the filter does not have the name. -/
def hasUncommittedOptions (m : Mongo) : Bool := m.options.any (fun d => d.version.isNone)

/-- `rollback_options()` (manager.py:375-384): the filter does not have the name. -/
def rollbackOptions (m : Mongo) : Mongo := { m with options := m.options.filter (fun d => d.version.isSome) }

/-- `all_options[max(all_options)]` of the committed options, or `None` (manager.py:349-353). -/
def latestOptions (db : PyStr) (m : Mongo) : Option ParsingOptions :=
  let all := getOptions db false m
  match (all.filterMap (·.1)).max? with
  | none => none
  | some v => aget (some v) all

/-- `latest_options == options` (manager.py:358) -/
def sameAsLatest (latest : Option ParsingOptions) (o : ParsingOptions) : Bool :=
  match latest with
  | none => false
  | some l => l.pyEq o

/-- `insert_one(new_doc)` (manager.py:361-367) -/
def insertOptions (db : PyStr) (o : ParsingOptions) (m : Mongo) : Mongo :=
  { m with options := m.options ++ [⟨db, none, o.toDoc⟩] }

/-- `update_options(options, commit=False)` (manager.py:336-373) -/
def updateOptionsNoCommit (db : PyStr) (o : ParsingOptions) (m : Mongo) : Mongo :=
  let latest := latestOptions db m
  let m := if hasUncommittedOptions m then rollbackOptions m else m
  if sameAsLatest latest o then m else insertOptions db o m

/-! ## Commit -/

/-- `update_many({"version": None}, ...)` on the options collection (manager.py:276-279): the filter does not
have the name. -/
def commitOptions (v : Int) (os : List OptDoc) : List OptDoc :=
  os.map (fun d => if d.version.isNone then { d with version := some v } else d)

/-- The default options (manager.py:268-272) -/
def defaultOptions : ParsingOptions := Builder.new.build

/-- The body of `commit()` (manager.py:263-281), with `clock` the value of `now()`. -/
def commitBody (db : PyStr) (clock : Int) (m : Mongo) : Option Int × Mongo :=
  if !hasUncommittedData (m.data db) && !hasUncommittedOptions m then (none, m)
  else
    let m := if !hasOptions m && !hasUncommittedOptions m then updateOptionsNoCommit db defaultOptions m else m
    let m := m.setData db (commitColl clock (m.data db))
    let m := { m with options := commitOptions clock m.options }
    (some clock, m)

/-- `commit()` (manager.py:250-281), with `clock` the value of `now()`. -/
def commit (db : PyStr) (clock : Int) (m : Mongo) : Except ApiErr (Option Int) × Mongo :=
  withLock db (fun m => match commitBody db clock m with | (r, m) => (.ok r, m)) m

/-- `update_options(options, commit)` (manager.py:336-373) -/
def updateOptions (db : PyStr) (o : ParsingOptions) (doCommit : Bool) (clock : Int) (m : Mongo) :
    Except ApiErr (Option Int) × Mongo :=
  if sameAsLatest (latestOptions db m) o then (.ok none, updateOptionsNoCommit db o m)
  else if doCommit then commit db clock (updateOptionsNoCommit db o m)
  else (.ok none, updateOptionsNoCommit db o m)

/-! ## The other calls -/

/-- `get_committed_version()` (manager.py:162-186): the documents with the greatest version; MongoDB sorts
`null` below every number. -/
def getCommittedVersion (db : PyStr) (m : Mongo) : Option Int :=
  let lastData := ((m.data db).filterMap (·.version)).max?
  let lastOptions := ((m.options.filter (fun d => decide (d.name = db))).filterMap (·.version)).max?
  (lastData.toList ++ lastOptions.toList).max?

/-- `has_data()` (manager.py:232-239) -/
def hasData (db : PyStr) (m : Mongo) : Bool := (m.data db).any (fun d => d.version.isSome)

/-- The calls that write to MongoDB. -/
inductive ApiCall
  | ingest (modifiedField : Option PyStr) (records : List Record) (doCommit : Bool) (clock : Int)
  | commit (clock : Int)
  | updateOptions (o : ParsingOptions) (doCommit : Bool) (clock : Int)
  | rollbackOptions
  | rollbackRecords

/-- A call on database `db`. When `ingest` or `rollback_records` raise, the collection is given as it was before
the call (that they do not raise in reachable states is part of C05; stops half way are `ingestCrash` and
`rollbackCrash`). -/
def ApiCall.run (U : Unicode) (db : PyStr) (m : Mongo) : ApiCall → Except ApiErr (Option Int) × Mongo
  | .ingest mf rs doCommit clock =>
    match Splitgill.ingest U mf (m.data db) rs with
    | .error e => (.error (.py e), m)
    | .ok c =>
      let m := m.setData db c
      if doCommit then Splitgill.commit db clock m else (.ok none, m)
  | .commit clock => Splitgill.commit db clock m
  | .updateOptions o doCommit clock => Splitgill.updateOptions db o doCommit clock m
  | .rollbackOptions => (.ok none, Splitgill.rollbackOptions m)
  | .rollbackRecords =>
    match Splitgill.rollbackRecords (m.data db) with
    | .error e => (.error (.py e), m)
    | .ok c => (.ok none, m.setData db c)

/-- A sequence of calls, each on some database; exceptions are caught by the caller. -/
def runCalls (U : Unicode) (m : Mongo) (calls : List (PyStr × ApiCall)) : Mongo :=
  calls.foldl (fun m dc => (dc.2.run U dc.1 m).2) m

/-! ## Commit command by command -/

/-- Where a `commit()` call is; each value stands for the next MongoDB command or clock reading. -/
inductive Pc
  /-- `insert_one` of the lock (locking.py:55) -/
  | acquire
  /-- `has_uncommitted_data()` (manager.py:264) -/
  | checkData
  /-- `has_uncommitted_options()` (manager.py:264) -/
  | checkOptions
  /-- `has_options()` (manager.py:268) -/
  | hasOptions
  /-- `has_uncommitted_options()` (manager.py:268) -/
  | pendingOptions
  /-- `get_options()` in `update_options` (manager.py:348) -/
  | getOptions
  /-- `has_uncommitted_options()` in `update_options` (manager.py:354) -/
  | upCheck (latest : Option ParsingOptions)
  /-- `rollback_options()` in `update_options` (manager.py:355) -/
  | upRollback (latest : Option ParsingOptions)
  /-- the comparison and `insert_one` in `update_options` (manager.py:358-367) -/
  | upInsert (latest : Option ParsingOptions)
  /-- `now()` (manager.py:274) -/
  | clock
  /-- `update_many` on the data collection is running (manager.py:277-280) -/
  | data (v : Int)
  /-- `update_many` on the options collection is running (manager.py:277-280) -/
  | options (v : Int)
  /-- `delete_one` of the lock, then return (locking.py:105) -/
  | release (result : Option Int)
  /-- `delete_one` of the lock, then raise (locking.py:105) -/
  | raising
  /-- returned -/
  | done (result : Option Int)
  /-- raised `AlreadyLocked` -/
  | locked
  /-- raised another exception -/
  | failed
deriving DecidableEq

/-- Set the version of the `k`-th uncommitted record (`update_many` works document by document in an
unspecified order). -/
def commitNth (v : Int) : Nat → Coll → Coll
  | _, [] => []
  | k, d :: c =>
    if d.version.isNone then
      match k with
      | 0 => { d with version := some v } :: c
      | k + 1 => d :: commitNth v k c
    else d :: commitNth v k c

/-- The same for the options collection. -/
def commitNthOptions (v : Int) : Nat → List OptDoc → List OptDoc
  | _, [] => []
  | k, d :: c =>
    if d.version.isNone then
      match k with
      | 0 => { d with version := some v } :: c
      | k + 1 => d :: commitNthOptions v k c
    else d :: commitNthOptions v k c

/-- One command of `commit()` on `db`; `clock` is what `now()` returns if it is called, `pick` says which
document a running `update_many` updates next. -/
def commitStep (db : PyStr) (clock : Int) (pick : Nat) (m : Mongo) : Pc → Mongo × Pc
  | .acquire =>
    match Splitgill.acquire db m with
    | (true, m) => (m, .checkData)
    | (false, m) => (m, .locked)
  | .checkData => (m, if hasUncommittedData (m.data db) then .hasOptions else .checkOptions)
  | .checkOptions => (m, if hasUncommittedOptions m then .hasOptions else .release none)
  | .hasOptions => (m, if Splitgill.hasOptions m then .clock else .pendingOptions)
  | .pendingOptions => (m, if hasUncommittedOptions m then .clock else .getOptions)
  | .getOptions => (m, .upCheck (latestOptions db m))
  | .upCheck l => (m, if hasUncommittedOptions m then .upRollback l else .upInsert l)
  | .upRollback l => (rollbackOptions m, .upInsert l)
  | .upInsert l => (if sameAsLatest l defaultOptions then m else insertOptions db defaultOptions m, .clock)
  | .clock => (m, .data clock)
  | .data v =>
    if hasUncommittedData (m.data db) then (m.setData db (commitNth v pick (m.data db)), .data v)
    else (m, .options v)
  | .options v =>
    if hasUncommittedOptions m then ({ m with options := commitNthOptions v pick m.options }, .options v)
    else (m, .release (some v))
  | .release r => (release db m, .done r)
  | .raising => (release db m, .failed)
  | .done r => (m, .done r)
  | .locked => (m, .locked)
  | .failed => (m, .failed)

/-- The call has ended. -/
def Pc.ended : Pc → Bool
  | .done _ => true
  | .locked => true
  | .failed => true
  | _ => false

/-- The call holds the lock. -/
def Pc.inside : Pc → Bool
  | .acquire => false
  | pc => !pc.ended

/-! ## Any number of processes -/

/-- A process: it has called `commit()` on `db`. -/
structure Proc where
  db : PyStr
  pc : Pc
  alive : Bool
deriving DecidableEq

/-- MongoDB and the processes. -/
structure Sys where
  mongo : Mongo
  procs : Nat → Option Proc

/-- What can happen next. -/
inductive Act
  /-- a new process calls `commit()` -/
  | start (p : Nat) (db : PyStr)
  /-- the process does its next command -/
  | step (p : Nat) (clock : Int) (pick : Nat)
  /-- the next command fails with an exception (lost connection, ...) that is raised in the `with` block -/
  | raise (p : Nat)
  /-- the process dies -/
  | crash (p : Nat)
  /-- any change of the data and options by calls that take no lock (ingest, rollback, update_options) -/
  | others (data : PyStr → Coll) (options : List OptDoc)
  /-- somebody calls `release(lock_id)` -/
  | adminRelease (lockId : PyStr)

/-- The state after an action; actions of processes that are not there, dead or ended do nothing. -/
def Sys.act (s : Sys) : Act → Sys
  | .start p db =>
    match s.procs p with
    | none => { s with procs := fun q => if q = p then some ⟨db, .acquire, true⟩ else s.procs q }
    | some _ => s
  | .step p clock pick =>
    match s.procs p with
    | some ⟨db, pc, true⟩ =>
      match commitStep db clock pick s.mongo pc with
      | (m, pc) => { mongo := m, procs := fun q => if q = p then some ⟨db, pc, true⟩ else s.procs q }
    | _ => s
  | .raise p =>
    match s.procs p with
    | some ⟨db, pc, true⟩ =>
      if pc.inside then { s with procs := fun q => if q = p then some ⟨db, .raising, true⟩ else s.procs q } else s
    | _ => s
  | .crash p =>
    match s.procs p with
    | some ⟨db, pc, _⟩ => { s with procs := fun q => if q = p then some ⟨db, pc, false⟩ else s.procs q }
    | none => s
  | .others data options => { s with mongo := { s.mongo with data := data, options := options } }
  | .adminRelease id => { s with mongo := release id s.mongo }

/-- A sequence of actions. -/
def Sys.run (s : Sys) (acts : List Act) : Sys := acts.foldl Sys.act s

/-- No processes yet. -/
def Sys.init (m : Mongo) : Sys := { mongo := m, procs := fun _ => none }

end Splitgill
