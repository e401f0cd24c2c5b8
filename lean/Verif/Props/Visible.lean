import Verif.Proof.Visible
import Verif.Props.Bulk
/-!
# C86: what a sync writes is seen when it is complete
-/

namespace Splitgill.Props
open Splitgill

/-- C86 in full: whatever happens, searches see the indices as they were before `write_ops`, or with everything that it writes. -/
def C86_full : Prop :=
  ∀ (P : Type) (c : Indices P) (ops : List (BulkOp P)) (o : BulkOptions) (schedule : List VisAction) (s : VisState P), c.Settled → 1 ≤ o.chunkSize →
    writeVisibly c ops o schedule = some s → SameDocs s.cluster.visible c.visible ∨ (AllSent ops s ∧ SameDocs s.cluster.visible s.cluster.stored)

/-- Two documents, one for the archive and one for the latest index. -/
def exTwoOps : List (BulkOp Unit) :=
  [exArcOp, .index .latest (some ['a']) { id := ['a'], version := 2, gte := 2, lt := none, next := none, parsed := () }]

/-- Nothing is there. -/
def exEmpty : Indices Unit := { stored := [], visible := [], paused := [] }

theorem exEmpty_settled : exEmpty.Settled := ⟨by decide, fun _ => rfl, rfl⟩

/-- Both operations are written in one request, and a refresh is asked for. -/
def exWritten : List VisAction :=
  [.setUp (.arc 0), .setUp .latest, .task .main, .task .main, .task (.get 0), .task (.response 0 (.items [false, false])),
   .task .main, .task .main, .task .main, .task (.get 0), .task (.get 1), .task .main, .task .main]

/-- Then Elasticsearch refreshes one of the two indices. -/
def exHalf : List VisAction := exWritten ++ [.shows .latest]

/-- **C86 does not hold in full**: Elasticsearch refreshes the indices of one request one after another, so for a moment (or for good, if the
request times out three times) a search sees the latest version of a record and not the one before it. -/
theorem C86_refuted : ¬ C86_full := by
  intro h
  have hrun : ∃ s, writeVisibly exEmpty exTwoOps exBulk exHalf = some s := ⟨_, rfl⟩
  obtain ⟨s, hs⟩ := hrun
  have := h Unit exEmpty exTwoOps exBulk exHalf s exEmpty_settled (by decide) hs
  cases hs
  rcases this with h1 | ⟨_, h1⟩
  · exact absurd (h1.docs .latest).length_eq (by decide)
  · exact absurd (h1.docs (.arc 0)).length_eq (by decide)

/-- The request has an error for the second operation after somebody else's `write_ops` had nothing to write. -/
def exOthers : List VisAction :=
  [.setUp (.arc 0), .setUp .latest, .task .main, .task .main, .task (.get 0), .task (.response 0 (.items [false, true])), .others]

/-- **C86 does not hold** either when another `write_ops` has nothing to write: it refreshes all indices of Elasticsearch, and with them the
half of what a failed sync has written. -/
theorem C86_others_refuted : ∃ (schedule : List VisAction) (s : VisState Unit), writeVisibly exEmpty exTwoOps exBulk schedule = some s ∧
    RequestFailed s.bulk ∧ ¬ SameDocs s.cluster.visible exEmpty.visible ∧ s.cluster.paused = [] := by
  refine ⟨exOthers, _, rfl, .inl ⟨((0, exTwoOps), .items [false, true]), ?_, rfl⟩, fun h => ?_, rfl⟩
  · exact List.mem_singleton.2 rfl
  · exact absurd (h.docs (.arc 0)).length_eq (by decide)

/-- **C86**, before: as long as not all operations are written, searches see what they saw before, in any schedule. All methods that read
return the same. -/
theorem C86_before_partial {P : Type} (c : Indices P) (hc : c.Held) (ops : List (BulkOp P)) (o : BulkOptions) (hsize : 1 ≤ o.chunkSize)
    (schedule : List VisAction) (hn : NoOthers schedule) (s : VisState P) (hrun : writeVisibly c ops o schedule = some s)
    (hsent : ¬ AllSent ops s) : SameDocs s.cluster.visible c.visible ∧ ReadsSame s.cluster.visible c.visible := by
  have hr : s.bulk.refreshed = false := by
    cases hr : s.bulk.refreshed with
    | false => rfl
    | true => exact absurd (refreshed_sent hsize (writeVisibly_bulk hrun) hr) hsent
  have := sameDocs_of_aget ((writeVisibly_inv hc hn hrun).hidden hc hr)
  exact ⟨this, this.reads (writeVisibly_keys hc hrun) hc.keys⟩

/-- One operation written, the second not yet; an index that is not paused is refreshed meanwhile. -/
example : ((writeVisibly exEmpty exTwoOps exBulk1 [.setUp (.arc 0), .task .main, .auto .latest, .task (.get 0), .task (.response 0 (.items [false]))]).map
    (fun s => (s.bulk.log.length, (s.cluster.stored.docs (.arc 0)).length, (s.cluster.visible.docs (.arc 0)).length, s.cluster.paused))) =
    some (1, 1, 0, [.arc 0]) := by decide

/-- **C86**, errors: after a request that failed - an error for an operation, an exception, or four timeouts - searches see what they saw
before, for ever after. -/
theorem C86_failed_partial {P : Type} (c : Indices P) (hc : c.Held) (ops : List (BulkOp P)) (o : BulkOptions)
    (schedule : List VisAction) (hn : NoOthers schedule) (s : VisState P) (hrun : writeVisibly c ops o schedule = some s)
    (hfail : RequestFailed s.bulk) : SameDocs s.cluster.visible c.visible ∧ ReadsSame s.cluster.visible c.visible := by
  have hr := (C43_errors_partial _ ops o _ s.bulk (writeVisibly_bulk hrun) hfail).2
  have := sameDocs_of_aget ((writeVisibly_inv hc hn hrun).hidden hc hr)
  exact ⟨this, this.reads (writeVisibly_keys hc hrun) hc.keys⟩

/-- One of two operations is written, the other has an error. -/
example : ∃ s, writeVisibly exEmpty exTwoOps exBulk (exOthers.take 6) = some s ∧ NoOthers (exOthers.take 6) ∧ RequestFailed s.bulk ∧
    (s.cluster.stored.docs (.arc 0)).length = 1 :=
  ⟨_, rfl, by simp [NoOthers, exOthers], .inl ⟨((0, exTwoOps), .items [false, true]), List.mem_singleton.2 rfl, rfl⟩, rfl⟩

/-- **C86**, errors again: any number of syncs that fail, one after another, change nothing for searches. -/
theorem C86_failures_partial {P : Type} (c c' : Indices P) (hc : c.Held) (h : FailedWrites c c') :
    c'.Held ∧ SameDocs c'.visible c.visible ∧ ReadsSame c'.visible c.visible := by
  induction h with
  | none => exact ⟨hc, .refl _, SameDocs.reads (.refl _) hc.keys hc.keys⟩
  | more ops o schedule s before hsize hn hrun hfail ih =>
    obtain ⟨h1, h2, h3⟩ := ih
    have h4 := (C86_before_partial _ h1 ops o hsize schedule hn s hrun hfail).1.trans h2
    have h5 := (writeVisibly_inv h1 hn hrun).held h1 (writeVisibly_keys h1 hrun)
    exact ⟨h5, h4, h4.reads h5.keys hc.keys⟩

/-- Two in a row. -/
example : ∃ c', FailedWrites exEmpty c' ∧ (c'.stored.docs (.arc 0)).length = 2 ∧ c'.visible.docs (.arc 0) = [] := by
  have hn : NoOthers (exOthers.take 6) := by simp [NoOthers, exOthers]
  refine ⟨_, .more exTwoOps exBulk (exOthers.take 6) _ (.more exTwoOps exBulk (exOthers.take 6) _ (.none exEmpty) (by decide) hn rfl
    (fun h => ?_)) (by decide) hn rfl (fun h => ?_), rfl, rfl⟩
  · exact absurd h.length_eq (by decide)
  · exact absurd h.length_eq (by decide)

/-- **C86**, each index: at any time an index is seen as before, or as it is when everything is written. -/
theorem C86_each_index_partial {P : Type} (c : Indices P) (hc : c.Held) (ops : List (BulkOp P)) (o : BulkOptions) (hsize : 1 ≤ o.chunkSize)
    (schedule : List VisAction) (hn : NoOthers schedule) (s : VisState P) (hrun : writeVisibly c ops o schedule = some s) (ix : Ix) :
    s.cluster.visible.docs ix = c.visible.docs ix ∨ (AllSent ops s ∧ s.cluster.visible.docs ix = s.cluster.stored.docs ix) := by
  have hi := writeVisibly_inv hc hn hrun
  rcases hi.shown ix with h | ⟨h, h'⟩ | ⟨h, h'⟩
  · left; rw [ES.docs, ES.docs, h]
  · left; rw [ES.docs, ES.docs, h', hc.unpaused h]
  · right
    exact ⟨refreshed_sent hsize (writeVisibly_bulk hrun) h, by rw [ES.docs, ES.docs, h']⟩

/-- One index is seen as before and one with what is written. -/
example : (writeVisibly exEmpty exTwoOps exBulk exHalf).map (fun s =>
    ((s.cluster.visible.docs .latest).length, (s.cluster.visible.docs (.arc 0)).length, (s.cluster.stored.docs (.arc 0)).length)) =
    some (1, 0, 1) := by decide

/-- **C86**, after: when `write_ops` returns, searches see all that has been written, all operations have been written, and no
refreshing is paused any more; if it was so before. -/
theorem C86_returned_partial {P : Type} (c : Indices P) (hc : c.Settled) (ops : List (BulkOp P)) (o : BulkOptions) (hsize : 1 ≤ o.chunkSize)
    (schedule : List VisAction) (hn : NoOthers schedule) (s : VisState P) (hrun : writeVisibly c ops o schedule = some s) (hret : s.Returned) :
    s.cluster.Settled ∧ s.cluster.stored = c.stored.applyOps s.bulk.written ∧ AllSent ops s := by
  have hi := writeVisibly_inv hc.held hn hrun
  have hk := writeVisibly_keys hc.held hrun
  obtain ⟨g1, g2, _⟩ := hi.restored hret
  have hp : s.cluster.paused = [] := by
    rw [List.eq_nil_iff_forall_not_mem]
    intro ix hix
    have := (g2 ix hix).1
    rw [hc.running] at this
    cases this
  refine ⟨⟨hk, fun ix => ?_, hp⟩, hi.stored, ?_⟩
  · exact (hi.held hc.held hk).unpaused (by rw [hp]; exact fun h => nomatch h)
  · refine refreshed_sent hsize (writeVisibly_bulk hrun) (hi.after ?_)
    revert g1
    cases s.bulk.main <;> simp [MainState.hasReturned, MainState.isAfter]

/-- A write that returns, after a refresh that timed out once. -/
example : (writeVisibly exEmpty exTwoOps exBulk (exHalf ++ [.refresh false, .refresh true, .restore])).map (fun s =>
    (s.restored, s.cluster.paused, (s.cluster.visible.docs .latest).length, (s.cluster.visible.docs (.arc 0)).length)) =
    some (true, [], 1, 1) := by decide

/-- **C86** for a call of `sync`: when it returns, searches see the indices of `sync` as if it had written everything in order and at once,
unless a request timed out that was carried out nevertheless (see C44). -/
theorem C86_sync_partial {P : Type} (X : Parser P) (maxDocs : Nat) (db : PyStr) (resync : Bool) (m : Mongo) (c : Indices P) (hc : c.Settled)
    (hok : LatestOk c.stored) (hids : ((m.data db).map MongoRecord.id).Nodup) (c' : Indices P) (ops : List (BulkOp P))
    (hstart : syncStart X maxDocs db resync m c = .ok (some (c', ops))) (o : BulkOptions) (hsize : 1 ≤ o.chunkSize)
    (schedule : List VisAction) (hn : NoOthers schedule) (s : VisState P) (hrun : writeVisibly c' ops o schedule = some s) (hret : s.Returned)
    (hno : NoLateWrites s) :
    ∃ es', sync X maxDocs db resync m c.stored = .ok es' ∧ SameDocs s.cluster.visible es' ∧ ReadsSame s.cluster.visible es' ∧ s.cluster.Settled ∧
      LatestOk s.cluster.stored := by
  obtain ⟨h1, h2⟩ := syncStart_settled hc hok.indices hstart
  obtain ⟨k1, k2, k3⟩ := syncOps_latest hids h2
  obtain ⟨g1, g2, _⟩ := C86_returned_partial c' h1 ops o hsize schedule hn s hrun hret
  have hi := writeVisibly_inv h1.held hn hrun
  obtain ⟨i, d, hm⟩ : ∃ i d, s.bulk.main = .returned i d := by
    have := (hi.restored hret).1
    revert this
    cases s.bulk.main <;> simp [MainState.hasReturned]
  have h3 := C44_not_applied_partial ops k1 k2 o hsize _ s.bulk (writeVisibly_bulk hrun) i d hm c'.stored (k3 hok) hno
  rw [← g2] at h3
  have h4 : SameDocs s.cluster.visible (c'.stored.applyOps ops) := (sameDocs_of_aget g1.same).trans h3
  refine ⟨_, by rw [sync, h2], h4, h4.reads g1.keys ((k3 hok).applyOps k1).indices, g1, ?_⟩
  rw [g2]
  exact (k3 hok).applyOps (fun op h => k1 op (written_sub hsize (writeVisibly_bulk hrun) h))

/-- Writing the operations of a sync into empty indices with a schedule. -/
def exVisibly (calls : List ApiCall) (schedule : List VisAction) : Option (VisState (Dict × ParsingOptions)) :=
  match syncStart exParser 10 ['x'] false (exDbOf calls) { stored := [], visible := [], paused := [] } with
  | .ok (some (c, ops)) => writeVisibly c ops exBulk schedule
  | _ => none

set_option maxRecDepth 100000 in
/-- The hypotheses hold for four operations written in two chunks, the second before the first. -/
example : (((exDbOf exCalls2).data ['x']).map MongoRecord.id).Nodup ∧
    ((exVisibly exCalls2 ([.setUp (.arc 0), .task .main, .setUp .latest] ++ exOvertake.dropLast.tail.map .task ++ [.refresh true, .restore])).map (fun s =>
      (s.restored, s.bulk.log.all (fun x => !x.2.isTimeout), s.cluster.visible.map (fun x => (x.1, x.2.length)), s.cluster.paused))) =
      some (true, true, [(.latest, 1), (.arc 0, 3)], []) := by
  decide

end Splitgill.Props
