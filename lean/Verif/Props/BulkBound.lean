import Verif.Proof.BulkBound
import Verif.Props.Bulk
/-!
# C123: what a writer holds in memory and sends at once
-/

namespace Splitgill.Props
open Splitgill

/-- What is wanted: the ops that are taken from the stream and not yet written are no more than there is room for in the buffer and with the
workers. -/
def C123_full : Prop :=
  ∀ (α : Type) (isDelete : α → Bool) (ops : List α) (o : BulkOptions) (schedule : List BulkAction) (s : BulkState α),
    writeOps isDelete ops o schedule = some s →
    s.heldOps.length ≤ o.chunkSize * (o.workerCount * o.bufferMultiplier + o.workerCount)

/-- With a `buffer_multiplier` of 0 there is no limit (a `Queue` of size 0 has none): all ops are read before one is written. -/
theorem C123_refuted : ¬ C123_full := by
  intro h
  have := h Nat (fun _ => false) [1, 2, 3] { chunkSize := 1, workerCount := 1, bufferMultiplier := 0 } [.main, .main, .main] _ rfl
  revert this
  decide

/-- **C123** (partial: the buffer has a size) The ops taken from the stream and not yet written are no more than there is room for in the buffer
and with the workers, at every moment of every schedule, whatever fails. Missing: without a size there is no limit, see `C123_refuted`. -/
theorem C123_held_partial {α : Type} (isDelete : α → Bool) (ops : List α) (o : BulkOptions) (hcap : 0 < o.workerCount * o.bufferMultiplier)
    (schedule : List BulkAction) (s : BulkState α) (hrun : writeOps isDelete ops o schedule = some s) :
    s.heldOps.length ≤ o.chunkSize * (o.workerCount * o.bufferMultiplier + o.workerCount) := by
  have hb := writeOps_bounded hrun
  have h1 : ((s.queue.filterMap id).flatMap Prod.snd).length ≤ o.chunkSize * (s.queue.filterMap id).length :=
    length_chunks fun c hc => hb.queued c (by simpa using hc)
  have h2 : ((heldAll s.workers).flatMap Prod.snd).length ≤ o.chunkSize * (heldAll s.workers).length :=
    length_chunks fun c hc => by
      obtain ⟨w, hw, hc⟩ := List.mem_flatMap.1 hc
      exact hb.workers w hw c hc
  have h3 : (s.queue.filterMap id).length ≤ o.workerCount * o.bufferMultiplier := Nat.le_trans (List.length_filterMap_le _ _) (hb.queue hcap)
  have h4 : (heldAll s.workers).length ≤ o.workerCount := by
    have := heldAll_length s.workers
    rwa [(writeOps_inv hrun).len] at this
  rw [BulkState.heldOps, List.length_append, holds_eq, Nat.mul_add]
  exact Nat.add_le_add (Nat.le_trans h1 (Nat.mul_le_mul_left _ h3)) (Nat.le_trans h2 (Nat.mul_le_mul_left _ h4))

/-- **C123** (requests) No more requests are open at once than there are workers, and no request has more ops than `chunk_size`, or none. -/
theorem C123_requests {α : Type} (isDelete : α → Bool) (ops : List α) (o : BulkOptions) (schedule : List BulkAction) (s : BulkState α)
    (hrun : writeOps isDelete ops o schedule = some s) :
    s.workers.countP WorkerState.isSending ≤ o.workerCount ∧
    (∀ w ∈ s.workers, w.isSending = true → w.holds ≠ [] ∧ w.holds.length ≤ o.chunkSize) ∧
    ∀ x ∈ s.log, x.1.2 ≠ [] ∧ x.1.2.length ≤ o.chunkSize := by
  have hb := writeOps_bounded hrun
  refine ⟨?_, ?_, hb.log⟩
  · have := List.countP_le_length (p := WorkerState.isSending) (l := s.workers)
    rwa [(writeOps_inv hrun).len] at this
  · intro w hw h
    cases w with
    | sending c a i d => exact hb.workers _ hw c (List.mem_singleton.2 rfl)
    | idle _ _ => cases h
    | done _ _ => cases h
    | failed _ => cases h

/-- **C123** (nothing else) Until it raises, each op is answered, held or still ahead, and once: so the stream is not read further than that. -/
theorem C123_ahead {α : Type} (isDelete : α → Bool) (ops : List α) (o : BulkOptions) (hsize : 1 ≤ o.chunkSize)
    (schedule : List BulkAction) (s : BulkState α) (hrun : writeOps isDelete ops o schedule = some s) (hr : s.main ≠ .raised) :
    (s.answeredOps ++ s.heldOps ++ s.aheadOps).Perm ops := by
  obtain ⟨lost, h1, h2⟩ := (writeOps_inv hrun).tasks
  have hnr : s.main.isRaised = false := by
    cases hm : s.main with
    | raised => exact absurd hm hr
    | _ => rfl
  rw [h2 hnr, List.append_nil] at h1
  have h3 := h1.flatMap_right Prod.snd
  rw [chunks_flat hsize] at h3
  refine List.Perm.trans ?_ h3
  have e1 : s.aheadOps = s.main.rest.flatMap Prod.snd := by
    unfold BulkState.aheadOps MainState.rest
    cases s.main <;> rfl
  have e2 : s.answeredOps = (okLog s.log).flatMap Prod.snd := by
    rw [BulkState.answeredOps, okLog, List.flatMap_map]
  rw [BulkState.tasks, e1, e2, BulkState.heldOps, holds_eq]
  simp only [List.flatMap_append]
  refine List.perm_append_comm.trans (List.Perm.append_left _ ?_)
  refine List.perm_append_comm.trans ?_
  rw [List.append_assoc]

/-- The bound is reached: two workers have two ops each, two chunks of two wait, and one op is ahead; then one request has been answered. -/
example : ((writeOps (fun _ : Nat => false) [1, 2, 3, 4, 5, 6, 7, 8, 9] exBulk [.main, .main, .get 0, .get 1, .main, .main]).map (fun s =>
      (s.heldOps, s.aheadOps, s.workers.countP WorkerState.isSending))) = some ([5, 6, 7, 8, 1, 2, 3, 4], [9], 2) ∧
    ((writeOps (fun _ : Nat => false) [1, 2, 3, 4, 5, 6, 7, 8, 9] exBulk [.main, .main, .get 0, .get 1, .main, .main, .response 1 (.items [false, false])]).map
      (fun s => (s.answeredOps, s.heldOps, s.aheadOps))) = some ([3, 4], [5, 6, 7, 8, 1, 2], [9]) ∧
    -- and then the main task has to wait
    ((writeOps (fun _ : Nat => false) [1, 2, 3, 4, 5, 6, 7, 8, 9] exBulk [.main, .main, .get 0, .get 1, .main, .main, .main]).isNone = true) := by decide

end Splitgill.Props
