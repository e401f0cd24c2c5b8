import Verif.Spec.Bulk
/-!
# Specification: what a writer holds in memory and sends at once
-/

namespace Splitgill

variable {α : Type}

/-- The ops that a worker has and for which it has no good response. -/
def WorkerState.holds : WorkerState α → List α
  | .sending c _ _ _ => c.2
  | .failed c => c.2
  | _ => []

/-- A worker waits for the response to a request. -/
def WorkerState.isSending : WorkerState α → Bool
  | .sending _ _ _ _ => true
  | _ => false

/-- The ops that have been taken from the stream and for which Elasticsearch has not given a good response: those in the queue and those of
workers. (There is one more chunk in memory while the main task waits for room in the queue.) -/
def BulkState.heldOps (s : BulkState α) : List α := (s.queue.filterMap id).flatMap Prod.snd ++ s.workers.flatMap WorkerState.holds

/-- The ops for which Elasticsearch has given a good response. -/
def BulkState.answeredOps (s : BulkState α) : List α := (s.log.filter (fun x => x.2.isOk)).flatMap (fun x => x.1.2)

/-- The ops the main task has still to put on the queue. -/
def BulkState.aheadOps (s : BulkState α) : List α :=
  match s.main with
  | .feeding rest => rest.flatMap Prod.snd
  | _ => []

end Splitgill
