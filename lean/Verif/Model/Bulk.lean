import Verif.Model.Utils
/-!
# Model of the bulk writer

`write_ops`, `write_ops_async`, `worker`, `check_for_errors`, `refresh` (indexing/syncing.py): asyncio tasks that run
between `await`s. A state has the main task, the queue and the workers; an action is what one task does from
one `await` to a later one, or a response from Elasticsearch. Any sequence of enabled actions is a schedule.
-/

namespace Splitgill

section
variable {α : Type}

/-- What a bulk request results in (Elasticsearch and the network). `applied` says which of the ops were carried out
by the server. -/
inductive BulkResp
  /-- A response, with an item per op that is an error or not; ops with errors are not carried out. -/
  | items (errors : List Bool)
  /-- `ConnectionTimeout` -/
  | timeout (applied : List Bool)
  /-- Another exception. -/
  | exception (applied : List Bool)
deriving DecidableEq

/-- A chunk of ops with its number in the stream. (The code has no numbers; they tell equal chunks apart.) -/
abbrev NumChunk (α : Type) := Nat × List α

/-- A worker (indexing/syncing.py:210-259) -/
inductive WorkerState (α : Type)
  /-- At `task_queue.get()`. -/
  | idle (indexed deleted : Nat)
  /-- At `client.bulk(...)` (or the backoff before it), after `attempts` timeouts. -/
  | sending (chunk : NumChunk α) (attempts : Nat) (indexed deleted : Nat)
  /-- Returned. -/
  | done (indexed deleted : Nat)
  /-- Ended with an exception, while it had the chunk. -/
  | failed (chunk : NumChunk α)

/-- The main task (indexing/syncing.py:96-124, 144-192) -/
inductive MainState (α : Type)
  /-- In the loop over the chunks (lines 167-179). -/
  | feeding (rest : List (NumChunk α))
  /-- `n` times `task_queue.put(None)` still to do (lines 182-183). -/
  | closing (n : Nat)
  /-- At `task_queue.join()` (line 184). -/
  | joining
  /-- At `gather(*workers)` (line 189). -/
  | gathering
  /-- In `refresh` (lines 117, 82-93) with this many attempts left. -/
  | refreshing (attempts : Nat) (indexed deleted : Nat)
  /-- `write_ops` has returned a `WriteResult`. -/
  | returned (indexed deleted : Nat)
  /-- `write_ops` has raised an exception. -/
  | raised

/-- All tasks. `unfinished` is the counter of `join` and `task_done`; `log` are the bulk requests with their
results, oldest first; `refreshed` whether a refresh has been requested. -/
structure BulkState (α : Type) where
  main : MainState α
  queue : List (Option (NumChunk α))
  unfinished : Nat
  workers : List (WorkerState α)
  log : List (NumChunk α × BulkResp)
  refreshed : Bool

/-- What can happen next. -/
inductive BulkAction
  /-- The main task goes on to its next `await` that waits. -/
  | main
  /-- The stream of ops, or the set-up of an index, raises in the main task (lines 167-173). -/
  | mainRaises
  /-- Worker `w` gets a task from the queue. -/
  | get (w : Nat)
  /-- The bulk request of worker `w` ends. -/
  | response (w : Nat) (resp : BulkResp)
  /-- The refresh request succeeds or times out. -/
  | refreshed (ok : Bool)
deriving DecidableEq

/-- `retries` (line 228). -/
def bulkRetries : Nat := 3
/-- The default of `attempts` of `refresh` (line 72). -/
def refreshAttempts : Nat := 3

/-- `Queue.full()`: a `maxsize` of 0 is no limit. -/
def queueFull (cap : Nat) (q : List (Option (NumChunk α))) : Bool := decide (0 < cap ∧ cap ≤ q.length)

/-- `task.done() and task.exception() is not None` -/
def WorkerState.hasFailed : WorkerState α → Bool
  | .failed _ => true
  | _ => false

/-- The result of a worker that returned. -/
def WorkerState.result? : WorkerState α → Option (Nat × Nat)
  | .done i d => some (i, d)
  | _ => none

/-- The totals of `WriteResult` (lines 44-69) from the results of `gather`; `none` while a worker has not
returned. -/
def gatherResults : List (WorkerState α) → Option (Nat × Nat)
  | [] => some (0, 0)
  | w :: ws =>
    match w.result?, gatherResults ws with
    | some (i, d), some (i', d') => some (i + i', d + d')
    | _, _ => none

/-- The main task from one `await` that waits to the next. -/
def mainStep (cap : Nat) (s : BulkState α) : Option (BulkState α) :=
  match s.main with
  | .feeding [] => some { s with main := .closing s.workers.length }
  | .feeding (c :: rest) =>
    if queueFull cap s.queue then none
    else
      let s := { s with queue := s.queue ++ [some c], unfinished := s.unfinished + 1 }
      if s.workers.any WorkerState.hasFailed then some { s with main := .raised } else some { s with main := .feeding rest }
  | .closing 0 => some { s with main := .joining }
  | .closing (n + 1) =>
    if queueFull cap s.queue then none
    else some { s with queue := s.queue ++ [none], unfinished := s.unfinished + 1, main := .closing n }
  | .joining =>
    if s.unfinished = 0 then
      if s.workers.any WorkerState.hasFailed then some { s with main := .raised } else some { s with main := .gathering }
    else none
  | .gathering =>
    match gatherResults s.workers with
    | some (i, d) => some { s with main := .refreshing refreshAttempts i d, refreshed := true }
    | none => none
  | .refreshing _ _ _ => none
  | .returned _ _ => none
  | .raised => none

/-- The number of items without an error for ops that are (not) deletes (lines 241-251). -/
def countItems (isDelete : α → Bool) (deletes : Bool) (ops : List α) (errors : List Bool) : Nat :=
  (ops.zip errors).countP (fun x => !x.2 && (isDelete x.1 == deletes))

/-- What a worker does when its request ends (lines 230-257); the flag is whether it calls `task_done`. -/
def workerResponse (isDelete : α → Bool) (c : NumChunk α) (attempts i d : Nat) : BulkResp → WorkerState α × Bool
  | .items errors =>
    if errors.any id then (.failed c, false)
    else (.idle (i + countItems isDelete false c.2 errors) (d + countItems isDelete true c.2 errors), true)
  | .timeout _ => if attempts < bulkRetries then (.sending c (attempts + 1) i d, false) else (.failed c, false)
  | .exception _ => (.failed c, false)

/-- The number of flags in a response is that of the ops. -/
def BulkResp.fits (r : BulkResp) (ops : List α) : Bool :=
  match r with
  | .items l => l.length == ops.length
  | .timeout l => l.length == ops.length
  | .exception l => l.length == ops.length

/-- The state after an action; `none` if it cannot happen. When `write_ops` has raised, workers may go on for a while
(`asyncio.run` cancels them). -/
def bulkStep (isDelete : α → Bool) (cap : Nat) (s : BulkState α) : BulkAction → Option (BulkState α)
  | .main => mainStep cap s
  | .mainRaises =>
    match s.main with
    | .feeding _ => some { s with main := .raised }
    | _ => none
  | .get w =>
    match s.workers[w]?, s.queue with
    | some (.idle i d), some c :: q => some { s with queue := q, workers := s.workers.set w (.sending c 0 i d) }
    | some (.idle i d), none :: q =>
      some { s with queue := q, unfinished := s.unfinished - 1, workers := s.workers.set w (.done i d) }
    | _, _ => none
  | .response w resp =>
    match s.workers[w]? with
    | some (.sending c attempts i d) =>
      if resp.fits c.2 then
        match workerResponse isDelete c attempts i d resp with
        | (st, taskDone) =>
          some { s with
            workers := s.workers.set w st
            unfinished := if taskDone then s.unfinished - 1 else s.unfinished
            log := s.log ++ [(c, resp)] }
      else none
    | _ => none
  | .refreshed ok =>
    match s.main with
    | .refreshing n i d =>
      if ok then some { s with main := .returned i d }
      else if n - 1 = 0 then some { s with main := .raised }
      else some { s with main := .refreshing (n - 1) i d }
    | _ => none

/-- A schedule. -/
def bulkRun (isDelete : α → Bool) (cap : Nat) : BulkState α → List BulkAction → Option (BulkState α)
  | s, [] => some s
  | s, a :: as =>
    match bulkStep isDelete cap s a with
    | some s => bulkRun isDelete cap s as
    | none => none

/-- The chunks with their numbers. -/
def numberFrom : Nat → List (List α) → List (NumChunk α)
  | _, [] => []
  | n, c :: cs => (n, c) :: numberFrom (n + 1) cs

/-- The tasks with these chunks to write (indexing/syncing.py:157-165). -/
def bulkStart (chunks : List (List α)) (workerCount : Nat) : BulkState α where
  main := .feeding (numberFrom 0 chunks)
  queue := []
  unfinished := 0
  workers := List.replicate workerCount (.idle 0 0)
  log := []
  refreshed := false

/-- `BulkOptions` (indexing/syncing.py:13-31) -/
structure BulkOptions where
  chunkSize : Nat := 100
  workerCount : Nat := 2
  bufferMultiplier : Nat := 3

/-- A schedule of `write_ops(client, ops, options)` from its start (indexing/syncing.py:96-124, 144-192): the state
after these actions, `none` if they are not possible. The settings of indices are in `Verif.Model.Visible`. -/
def writeOps (isDelete : α → Bool) (ops : List α) (o : BulkOptions) (schedule : List BulkAction) : Option (BulkState α) :=
  bulkRun isDelete (o.workerCount * o.bufferMultiplier) (bulkStart (partition ops o.chunkSize) o.workerCount) schedule

/-- The ops of a request that the server has carried out. -/
def appliedOps (x : NumChunk α × BulkResp) : List α :=
  match x.2 with
  | .items errors => ((x.1.2.zip errors).filter (fun y => !y.2)).map Prod.fst
  | .timeout applied => ((x.1.2.zip applied).filter (fun y => y.2)).map Prod.fst
  | .exception applied => ((x.1.2.zip applied).filter (fun y => y.2)).map Prod.fst

end
end Splitgill
