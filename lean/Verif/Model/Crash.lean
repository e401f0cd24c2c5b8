import Verif.Spec.World
/-!
# Model of calls that are stopped half way (`splitgill/manager.py`)

The process dies, or MongoDB cannot be reached any more. The pieces are those of `Verif.Model.Manager` and
`Verif.Model.World`.
-/

namespace Splitgill

/-- What can happen to a database. A call with `commit=True` that is stopped in its commit is the call with
`commit=False` followed by `commitStops`. -/
inductive Step
  /-- a call that ends by itself, with a result or with an exception -/
  | call (c : ApiCall)
  /-- `ingest` (manager.py:283-334) stops after `n` of its writes -/
  | ingestStops (modifiedField : Option PyStr) (records : List Record) (n : Nat)
  /-- `rollback_records` (manager.py:386-396) stops after `n` of its writes -/
  | rollbackStops (n : Nat)
  /-- `rollback_options` (manager.py:375-384), alone or in `update_options` (manager.py:354-355), stops when some
  of the documents have been deleted -/
  | optionsStop (deleted : OptDoc → Bool)
  /-- `commit` (manager.py:250-281) stops after as many commands as there are `picks`, which say which document
  `update_many` takes next; the process has died, or the exception has released the lock (locking.py:90-105) -/
  | commitStops (clock : Int) (picks : List Nat) (died : Bool)
  /-- somebody calls `locker.release(name)` (locking.py:62-69) -/
  | release

/-- The state after a step on the database `db`. -/
def Step.run (U : Unicode) (db : PyStr) (m : Mongo) : Step → Mongo
  | .call c => (c.run U db m).2
  | .ingestStops mf rs n =>
    match Splitgill.ingestCrash U mf (m.data db) rs n with
    | .ok c => m.setData db c
    | .error _ => m
  | .rollbackStops n =>
    match Splitgill.rollbackCrash (m.data db) n with
    | .ok c => m.setData db c
    | .error _ => m
  | .optionsStop deleted => { m with options := m.options.filter (fun d => d.version.isSome || !deleted d) }
  | .commitStops clock picks died =>
    match commitRun db (m, .acquire) (picks.map (fun k => (clock, k))) with
    | (m', pc) => if !died && pc.inside then Splitgill.release db m' else m'
  | .release => Splitgill.release db m

/-- A sequence of steps. -/
def runSteps (U : Unicode) (db : PyStr) (m : Mongo) (steps : List Step) : Mongo := steps.foldl (Step.run U db) m

end Splitgill
