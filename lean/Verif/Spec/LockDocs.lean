import Verif.Model.LockDocs
/-!
# Specification: who has a lock, from what was called and how it ended (newest first)
-/

namespace Splitgill

/-- The document that a call has put there: it took the lock. -/
def LockEntry.took (id : PyStr) (e : LockEntry) : Option LockDoc :=
  match e.call, e.result with
  | .acquire i _ t h k, .answer true => if i = id then some (lockDoc i t h k) else none
  | .enter i t h k, .returned => if i = id then some (lockDoc i t h k) else none
  | _, _ => none

/-- The call frees the lock: `release`, or the end of a `with` block. -/
def LockCall.frees (id : PyStr) : LockCall → Bool
  | .release i => decide (i = id)
  | .leave i => decide (i = id)
  | _ => false

/-- The document of the last call that took the lock, if it has not been freed since. -/
def holder (id : PyStr) : List LockEntry → Option LockDoc
  | [] => none
  | e :: log => if e.call.frees id then none else (e.took id).or (holder id log)

/-- The process is in a `with` block for the lock: the document it has put there. -/
def inside (p : Nat) (id : PyStr) : List LockEntry → Option LockDoc
  | [] => none
  | e :: log =>
    if e.proc = p then
      match e.call, e.result with
      | .enter i t h k, .returned => if i = id then some (lockDoc i t h k) else inside p id log
      | .leave i, _ => if i = id then none else inside p id log
      | _, _ => inside p id log
    else inside p id log

/-- Processes only leave blocks they are in. -/
def BlocksOk : List LockEntry → Prop
  | [] => True
  | e :: log => (∀ id, e.call = .leave id → inside e.proc id log ≠ none) ∧ BlocksOk log

/-- Nobody calls `release(id)`. -/
def NotByHand (id : PyStr) (log : List LockEntry) : Prop := ∀ e ∈ log, e.call ≠ .release id

end Splitgill
