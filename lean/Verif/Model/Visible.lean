import Verif.Model.Bulk
import Verif.Model.Index
/-!
# Model of what searches see while `write_ops` writes

Elasticsearch keeps what is written to an index from searches until the index is refreshed. It refreshes an index by itself from time to
time, unless its `refresh_interval` is -1. `write_ops` (indexing/syncing.py:96-141, 167-179) sets that before it writes to an index,
refreshes all of them when everything is written, and then resets it.
-/

namespace Splitgill

/-- The indices of a database in Elasticsearch: what is stored, what searches see of it, and the indices whose `refresh_interval` is -1. -/
structure Indices (P : Type) where
  stored : ES P
  visible : ES P
  paused : List Ix

/-- An index is refreshed (Elasticsearch); nothing happens if it does not exist. -/
def refreshIndex {P : Type} (stored : ES P) (visible : ES P) (ix : Ix) : ES P :=
  match aget ix stored with
  | some docs => aset ix docs visible
  | none => visible

/-- Some indices are refreshed. -/
def Indices.refresh {P : Type} (c : Indices P) (ixs : List Ix) : Indices P :=
  { c with visible := ixs.foldl (refreshIndex c.stored) c.visible }

/-- The archives are deleted, which is seen at once (manager.py:495-501, 526-531). -/
def Indices.deleteArcs {P : Type} (c : Indices P) : Indices P where
  stored := c.stored.deleteArcs
  visible := c.visible.deleteArcs
  paused := c.paused.filter (fun ix => decide (ix = .latest))

/-- `action == "delete"` (indexing/syncing.py:251) -/
def isDeleteOp {P : Type} : BulkOp P → Bool
  | .delete _ _ => true
  | .index _ _ _ => false

/-- `write_ops` and the indices. `setUp` is `indices_seen` (indexing/syncing.py:165); `restored` is whether the settings have been
reset (lines 120-123). -/
structure VisState (P : Type) where
  bulk : BulkState (BulkOp P)
  cluster : Indices P
  setUp : List Ix
  restored : Bool

/-- What can happen next. -/
inductive VisAction
  /-- An action of the tasks, other than the refresh. -/
  | task (a : BulkAction)
  /-- `setup_indices` pauses the refreshing of an index (lines 127-141). -/
  | setUp (ix : Ix)
  /-- The request of `refresh` ends, or times out (lines 82-93). -/
  | refresh (ok : Bool)
  /-- One of the indices is refreshed for a request of `refresh`. Elasticsearch does this one after another, and also after the request
  timed out. -/
  | shows (ix : Ix)
  /-- The settings are reset (lines 120-123). -/
  | restore
  /-- Elasticsearch refreshes an index by itself. -/
  | auto (ix : Ix)
  /-- `write_ops` of somebody else, who has no operations, refreshes and resets: with `index=[]` the requests are about all indices of
  Elasticsearch (lines 117-123). -/
  | others

/-- The indices of a request with this parameter `index`: an empty list means all. -/
def requested {P : Type} (stored : ES P) (ixs : List Ix) : List Ix := if ixs.isEmpty then akeys stored else ixs

/-- All indices of the next chunk are set up when it is put in the queue (lines 168-177). -/
def VisState.ready {P : Type} (s : VisState P) : BulkAction → Bool
  | .main =>
    match s.bulk.main with
    | .feeding (c :: _) => c.2.all (fun op => decide (op.ix ∈ s.setUp))
    | _ => true
  | .refreshed _ => false
  | _ => true

/-- The state after an action; `none` if it cannot happen. Simplified: an index that is created exists when it has an operation (an empty
one makes no difference to searches). -/
def visStep {P : Type} (cap : Nat) (s : VisState P) : VisAction → Option (VisState P)
  | .task a =>
    if s.ready a then
      match bulkStep isDeleteOp cap s.bulk a with
      | some b =>
        some { s with
          bulk := b
          cluster := { s.cluster with stored := s.cluster.stored.applyOps ((b.log.drop s.bulk.log.length).flatMap appliedOps) } }
      | none => none
    else none
  | .setUp ix =>
    match s.bulk.main with
    | .feeding (c :: _) =>
      if ix ∉ s.setUp ∧ c.2.any (fun op => decide (op.ix = ix)) then
        some { s with setUp := ix :: s.setUp, cluster := { s.cluster with paused := ix :: s.cluster.paused } }
      else none
    | _ => none
  | .refresh ok =>
    match bulkStep isDeleteOp cap s.bulk (.refreshed ok) with
    | some b => some { s with bulk := b, cluster := s.cluster.refresh (if ok then requested s.cluster.stored s.setUp else []) }
    | none => none
  | .shows ix =>
    if s.bulk.refreshed ∧ ix ∈ requested s.cluster.stored s.setUp then some { s with cluster := s.cluster.refresh [ix] } else none
  | .restore =>
    match s.bulk.main with
    | .returned _ _ =>
      if s.restored then none
      else some { s with
        restored := true
        cluster := { s.cluster with paused := if s.setUp.isEmpty then [] else s.cluster.paused.filter (fun ix => decide (ix ∉ s.setUp)) } }
    | _ => none
  | .auto ix => if ix ∈ s.cluster.paused then none else some { s with cluster := s.cluster.refresh [ix] }
  | .others => some { s with cluster := { s.cluster.refresh (akeys s.cluster.stored) with paused := [] } }

/-- What searches answer from: an index that exists is there even if nothing of it is seen. -/
def Indices.view {P : Type} (c : Indices P) : ES P := (akeys c.stored).map (fun ix => (ix, c.visible.docs ix))

/-- A schedule. -/
def visRun {P : Type} (cap : Nat) : VisState P → List VisAction → Option (VisState P)
  | s, [] => some s
  | s, a :: as =>
    match visStep cap s a with
    | some s => visRun cap s as
    | none => none

/-- `write_ops(client, ops, options)` from its start (indexing/syncing.py:96-124): the state after these actions, `none` if they are not
possible. -/
def writeVisibly {P : Type} (c : Indices P) (ops : List (BulkOp P)) (o : BulkOptions) (schedule : List VisAction) : Option (VisState P) :=
  visRun (o.workerCount * o.bufferMultiplier)
    { bulk := bulkStart (partition ops o.chunkSize) o.workerCount, cluster := c, setUp := [], restored := false } schedule

/-- `sync(resync)` up to `write_ops` (manager.py:473-515): the indices when it starts and its operations; `none` if it is not called. -/
def syncStart {P : Type} (X : Parser P) (maxDocs : Nat) (db : PyStr) (resync : Bool) (m : Mongo) (c : Indices P) :
    Except PyErr (Option (Indices P × List (BulkOp P))) :=
  if !hasData db m then .ok none
  else
    match syncScope db resync m c.view with
    | .error e => .error e
    | .ok none => .ok none
    | .ok (some (sel, lastSync)) =>
      let c := if resync then c.deleteArcs else c
      match generateOps X maxDocs (committedOptionsOf db m) lastSync c.view.arcStatus ((m.data db).filter sel) with
      | .error e => .error e
      | .ok (ops, _) => .ok (some (c, ops))

end Splitgill
