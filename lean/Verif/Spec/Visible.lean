import Verif.Model.Visible
import Verif.Spec.Bulk
/-!
# Specification: what searches see while `write_ops` writes
-/

namespace Splitgill

/-- Somebody else's `write_ops` without operations is not in the schedule. -/
def NoOthers (schedule : List VisAction) : Prop := VisAction.others ∉ schedule

/-- Searches see all that is stored, except for what is in indices whose refreshing is paused. -/
structure Indices.Held {P : Type} (c : Indices P) : Prop where
  keys : (akeys c.visible).Nodup
  exist : ∀ ix, aget ix c.stored = none → aget ix c.visible = none
  paused : ∀ ix, aget ix c.visible ≠ aget ix c.stored → ix ∈ c.paused

/-- Searches see all that is stored, and no refreshing is paused. -/
structure Indices.Settled {P : Type} (c : Indices P) : Prop where
  keys : (akeys c.visible).Nodup
  same : ∀ ix, aget ix c.visible = aget ix c.stored
  running : c.paused = []

/-- `write_ops` has returned. -/
def VisState.Returned {P : Type} (s : VisState P) : Prop := s.restored = true

/-- All operations have been sent in requests that succeeded. -/
def AllSent {P : Type} (ops : List (BulkOp P)) (s : VisState P) : Prop :=
  ((s.bulk.log.filter (fun x => x.2.isOk)).flatMap (fun x => x.1.2)).Perm ops

/-- No request timed out that was carried out nevertheless. -/
def NoLateWrites {P : Type} (s : VisState P) : Prop := ∀ x ∈ s.bulk.log, x.2.isTimeout = true → appliedOps x = []

/-- A number of calls of `write_ops` after each other, none of which gets all its operations written: from the first indices to the last. -/
inductive FailedWrites {P : Type} : Indices P → Indices P → Prop
  | none (c : Indices P) : FailedWrites c c
  | more {c c' : Indices P} (ops : List (BulkOp P)) (o : BulkOptions) (schedule : List VisAction) (s : VisState P) (before : FailedWrites c c')
      (hsize : 1 ≤ o.chunkSize) (hn : NoOthers schedule) (hrun : writeVisibly c' ops o schedule = some s) (hfail : ¬ AllSent ops s) :
      FailedWrites c s.cluster

end Splitgill
