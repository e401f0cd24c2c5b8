import Verif.Model.World
/-!
# Model of the lock collection with its documents (`splitgill/locking.py`)

`Verif.Model.World` has only the ids of the locks; here are whole documents and all methods of `LockManager`, called by any processes.
-/

namespace Splitgill

/-- A document of the lock collection (locking.py:48-54), without `_id`. Times in milliseconds since the epoch, as MongoDB keeps them. -/
structure LockDoc where
  lockId : PyStr
  lockedAt : Int
  lockedBy : PyStr
  data : Option Dict
deriving DecidableEq

/-- The document `acquire` makes (locking.py:48-54): `data` is there if there are keyword arguments. -/
def lockDoc (lockId : PyStr) (at_ : Int) (host : PyStr) (kwargs : Dict) : LockDoc :=
  { lockId := lockId, lockedAt := at_, lockedBy := host, data := if kwargs = [] then none else some kwargs }

/-- `insert_one` with the unique index on `lock_id` (locking.py:30-31, 55): `none` is `DuplicateKeyError`. -/
def insertLock (doc : LockDoc) (c : List LockDoc) : Option (List LockDoc) :=
  if c.any (fun d => decide (d.lockId = doc.lockId)) then none else some (c ++ [doc])

/-- `acquire(lock_id, raise_on_fail, **kwargs)` (locking.py:33-60) -/
def acquireLock (lockId : PyStr) (raiseOnFail : Bool) (at_ : Int) (host : PyStr) (kwargs : Dict) (c : List LockDoc) :
    Except ApiErr Bool × List LockDoc :=
  match insertLock (lockDoc lockId at_ host kwargs) c with
  | none => (if raiseOnFail then .error .alreadyLocked else .ok false, c)
  | some c => (.ok true, c)

/-- `release(lock_id)` (locking.py:62-69): `delete_one`. -/
def releaseLock (lockId : PyStr) (c : List LockDoc) : List LockDoc := c.eraseP (fun d => decide (d.lockId = lockId))

/-- `get_metadata(lock_id)` (locking.py:80-88): `find_one`. -/
def lockMetadata (lockId : PyStr) (c : List LockDoc) : Option LockDoc := c.find? (fun d => decide (d.lockId = lockId))

/-- `is_locked(lock_id)` (locking.py:71-78) -/
def lockIsLocked (lockId : PyStr) (c : List LockDoc) : Bool := (lockMetadata lockId c).isSome

/-- What a process does. A block `with lock(lock_id, **kwargs)` (locking.py:90-105) is entered and left: leaving is when the body returns or
raises. -/
inductive LockCall
  | acquire (lockId : PyStr) (raiseOnFail : Bool) (at_ : Int) (host : PyStr) (kwargs : Dict)
  | release (lockId : PyStr)
  | isLocked (lockId : PyStr)
  | metadata (lockId : PyStr)
  | enter (lockId : PyStr) (at_ : Int) (host : PyStr) (kwargs : Dict)
  | leave (lockId : PyStr)

/-- How a call ends. -/
inductive LockResult
  | returned
  | answer (b : Bool)
  | doc (d : Option LockDoc)
  | alreadyLocked
deriving DecidableEq

/-- One call (locking.py:33-105). -/
def LockCall.run (c : List LockDoc) : LockCall → LockResult × List LockDoc
  | .acquire id r t h k =>
    match acquireLock id r t h k c with
    | (.ok b, c) => (.answer b, c)
    | (.error _, c) => (.alreadyLocked, c)
  | .release id => (.returned, releaseLock id c)
  | .isLocked id => (.answer (lockIsLocked id c), c)
  | .metadata id => (.doc (lockMetadata id c), c)
  | .enter id t h k =>
    match acquireLock id true t h k c with
    | (.ok _, c) => (.returned, c)
    | (.error _, c) => (.alreadyLocked, c)
  | .leave id => (.returned, releaseLock id c)

/-- A call of a process and how it ended. -/
structure LockEntry where
  proc : Nat
  call : LockCall
  result : LockResult

/-- The calls of any processes one after the other (each is one command of MongoDB), from an empty collection. The newest entry of the log is
the first. -/
def runLocks : List (Nat × LockCall) → List LockEntry × List LockDoc :=
  List.foldl (fun s pc => (⟨pc.1, pc.2, (pc.2.run s.2).1⟩ :: s.1, (pc.2.run s.2).2)) ([], [])

end Splitgill
