import Verif.Proof.Bulk3
import Verif.Proof.Bulk4
import Verif.Proof.BulkOps
import Verif.Props.Sync
/-!
# C41, C42, C43, C44, C45: writing to Elasticsearch
-/

namespace Splitgill.Props
open Splitgill

/-! ## C41 -/

/-- **C41** when `write_ops` returns, every op has been sent in exactly one successful request (chunks that go out in
different requests are different parts of the stream), the totals are the numbers of index and delete
ops, and if no request timed out then the server has carried out each op once. For every stream, chunk size,
number of workers, buffer size and schedule. -/
theorem C41_every_op_once {α : Type} (isDelete : α → Bool) (ops : List α) (o : BulkOptions) (hsize : 1 ≤ o.chunkSize)
    (schedule : List BulkAction) (s : BulkState α) (hrun : writeOps isDelete ops o schedule = some s)
    (indexed deleted : Nat) (hret : s.main = .returned indexed deleted) :
    ((s.log.filter (fun x => x.2.isOk)).flatMap (fun x => x.1.2)).Perm ops ∧
    ((s.log.filter (fun x => x.2.isOk)).map (fun x => x.1.1)).Nodup ∧
    indexed = ops.countP (fun op => !isDelete op) ∧ deleted = ops.countP isDelete ∧
    (NoTimeouts s → s.written.Perm ops) := by
  have hinv := writeOps_inv hrun
  have hp := hinv.okLog_perm hret
  have hc := chunks_flat (ops := ops) hsize
  obtain ⟨r1, r2⟩ := hinv.result hret
  rw [hc] at r1 r2
  refine ⟨?_, ?_, r1, r2, fun hno => ?_⟩
  · have := hp.flatMap_right Prod.snd
    rw [hc] at this
    simpa [okLog, List.flatMap_map] using this
  · have := (hp.map Prod.fst).nodup_iff.2 (numberFrom_spec 0 _).2.1
    simpa [okLog, Function.comp_def] using this
  · have := written_perm hsize hrun hret
    have e : timedOutOps s.log = [] := by
      unfold timedOutOps
      rw [List.filter_eq_nil_iff.2 (fun x hx => by simp [hno x hx])]
      rfl
    rwa [e, List.append_nil] at this

/-- Five ops (odd numbers are deletes), chunks of two, two workers, room for two chunks. -/
def exBulk : BulkOptions := { chunkSize := 2, workerCount := 2, bufferMultiplier := 1 }

/-- A schedule in which the second worker overtakes the first, whose request is first timed out. -/
def exSchedule : List BulkAction :=
  [.main, .main, .get 0, .get 1, .response 0 (.timeout [false, false]), .main, .response 1 (.items [false, false]), .get 1, .main,
   .main, .response 0 (.items [false, false]), .main, .get 0, .response 1 (.items [false]), .get 1, .main, .main, .main,
   .refreshed false, .refreshed true]

/-- The hypotheses hold for it. -/
example : ((writeOps (fun n : Nat => n % 2 == 1) [1, 2, 3, 4, 5] exBulk exSchedule).map (fun s =>
    ((match s.main with | .returned i d => some (i, d) | _ => none), s.log.map (fun x => (x.1.1, x.1.2)), s.refreshed))) =
    some (some (2, 3), [(0, [1, 2]), (1, [3, 4]), (0, [1, 2]), (2, [5])], true) := by decide

/-! ## C42 -/

/-- **C42** the indices after a sync are the same for all chunk sizes, numbers of workers, buffer sizes and
schedules, as long as `write_ops` returns and no request timed out: those of `sync`, which writes the ops in
order. -/
theorem C42_schedules {P : Type} (X : Parser P) (maxDocs : Nat) (db : PyStr) (resync : Bool) (m : Mongo) (es : ES P)
    (hids : ((m.data db).map MongoRecord.id).Nodup) (hok : LatestOk es) (es0 : ES P) (ops : List (BulkOp P))
    (hops : syncOps X maxDocs db resync m es = .ok (es0, ops)) (o : BulkOptions) (hsize : 1 ≤ o.chunkSize)
    (schedule : List BulkAction) (s : BulkState (BulkOp P)) (hrun : writeOps BulkOp.isDelete ops o schedule = some s)
    (indexed deleted : Nat) (hret : s.main = .returned indexed deleted) (hno : NoTimeouts s) :
    ∃ es', sync X maxDocs db resync m es = .ok es' ∧ SameDocs (es0.applyOps s.written) es' := by
  obtain ⟨h1, h2, h3⟩ := syncOps_latest hids hops
  refine ⟨es0.applyOps ops, by simp only [sync, hops], ?_⟩
  exact applyOps_perm (h3 hok) h1 h2 ((C41_every_op_once _ ops o hsize schedule s hrun _ _ hret).2.2.2.2 hno)

/-- Writing the ops of a sync with a schedule. -/
def exWrite (calls : List ApiCall) (es : ES (Dict × ParsingOptions)) (schedule : List BulkAction) :
    Option (BulkState (BulkOp (Dict × ParsingOptions))) :=
  match syncOps exParser 10 ['x'] false (exDbOf calls) es with
  | .error _ => none
  | .ok (_, ops) => writeOps BulkOp.isDelete ops exBulk schedule

/-- The second worker writes before the first. -/
def exOvertake : List BulkAction :=
  [.main, .main, .get 0, .get 1, .main, .response 1 (.items [false, false]), .response 0 (.items [false, false]), .main, .main, .get 0, .get 1,
   .main, .main, .main, .refreshed true]

set_option maxRecDepth 100000 in
/-- The hypotheses hold for four ops written in two chunks, the second before the first. -/
example : (((exDbOf exCalls2).data ['x']).map MongoRecord.id).Nodup ∧
    ((exWrite exCalls2 [] exOvertake).map (fun s =>
      ((match s.main with | .returned i d => some (i, d) | _ => none), s.log.map (fun x => x.1.1),
        s.log.all (fun x => !x.2.isTimeout), s.written.length))) = some (some (4, 0), [1, 0], true, 4) := by
  decide

/-! ## C43 -/

/-- C43 in full: a request that fails is never hidden, and `write_ops` always ends: it cannot run forever, nor get to
where nothing can happen any more. -/
def C43_full : Prop :=
  ∀ (α : Type) (isDelete : α → Bool) (ops : List α) (o : BulkOptions), 1 ≤ o.chunkSize → 1 ≤ o.workerCount →
    ∀ (schedule : List BulkAction) (s : BulkState α), writeOps isDelete ops o schedule = some s →
      (RequestFailed s → (∀ i d, s.main ≠ .returned i d) ∧ s.refreshed = false) ∧
      ((∀ a, bulkStep isDelete (o.workerCount * o.bufferMultiplier) s a = none) → Ended s)

/-- The only chunk fails after it has been put; `write_ops` then waits in `join()`. -/
def exHang : List BulkAction := [.main, .main, .get 0, .response 0 (.items [true]), .main, .main, .main, .get 1]

/-- **C43 does not hold in full**: when the response to the last chunk has an error, `write_ops` hangs: the worker ends
without `task_done()`, so `join()` never returns, and nothing else can happen. -/
theorem C43_refuted : ¬ C43_full := by
  intro h
  have hrun : ∃ s, writeOps (fun _ : Unit => false) [()] exBulk exHang = some s := ⟨_, rfl⟩
  obtain ⟨s, hs⟩ := hrun
  have := (h Unit (fun _ => false) [()] exBulk (by decide) (by decide) exHang s hs).2
  cases hs
  have := this (by
    intro a
    cases a with
    | main => rfl
    | mainRaises => rfl
    | get w =>
      match w with
      | 0 => rfl
      | 1 => rfl
      | w + 2 => rfl
    | response w resp =>
      match w with
      | 0 => rfl
      | 1 => rfl
      | w + 2 => rfl
    | refreshed ok => rfl)
  rcases this with h | ⟨i, d, h⟩ <;> cases h

/-- **C43**, errors: if a response has an error for some op, or a request ends with an exception, or times out
for the fourth time, `write_ops` does not return normally and does not refresh the indices, in any schedule. -/
theorem C43_errors_partial {α : Type} (isDelete : α → Bool) (ops : List α) (o : BulkOptions)
    (schedule : List BulkAction) (s : BulkState α) (hrun : writeOps isDelete ops o schedule = some s)
    (hfail : RequestFailed s) : (∀ i d, s.main ≠ .returned i d) ∧ s.refreshed = false := by
  have hinv := writeOps_inv hrun
  have hf : anyFailed s.workers = true := by
    rcases hfail with h | ⟨k, h⟩
    · exact hinv.errors h
    · exact hinv.timedOut k h
  have hr : s.refreshed = false := by
    cases hr : s.refreshed with
    | false => rfl
    | true => rw [hinv.not_failed hr] at hf; cases hf
  refine ⟨fun i d h => ?_, hr⟩
  have := (hinv.totals i d (.inl h)).1
  rw [hr] at this; cases this

/-- A run with a failed request; `write_ops` raises as there was another chunk. -/
example : ((writeOps (fun n : Nat => n % 2 == 1) [1, 2, 3, 4, 5] exBulk
    [.main, .main, .get 0, .get 1, .response 0 (.items [false, true]), .main]).map (fun s =>
      (s.log.any (fun x => x.2.isError), match s.main with | .raised => true | _ => false))) = some (true, true) := by decide

/-- **C43**, no false alarms: `write_ops` raises only if a request failed, the stream of ops or the set-up of an index raised, or the
refresh timed out three times. -/
theorem C43_reasons {α : Type} (isDelete : α → Bool) (ops : List α) (o : BulkOptions) (schedule : List BulkAction) (s : BulkState α)
    (hrun : writeOps isDelete ops o schedule = some s) (hr : s.main = .raised) :
    RequestFailed s ∨ .mainRaises ∈ schedule ∨ schedule.count (.refreshed false) = 3 :=
  (writeOps_blame hrun).raised hr

/-- Three timeouts of the refresh; after two of them it may still succeed. -/
example : [[.refreshed false, .refreshed false, .refreshed false], [.refreshed false, .refreshed false, .refreshed true]].map (fun l =>
    (writeOps (fun _ : Unit => false) [()] exBulk ([.main, .main, .get 0, .response 0 (.items [false]), .main, .main, .main, .get 1, .get 0,
      .main, .main] ++ l)).map (fun s => match s.main with | .raised => 0 | .returned i _ => i | _ => 9)) = [some 0, some 1] := by decide

/-- **C43**, the end: no schedule is longer than a bound from the number of ops and workers; and where nothing can
happen any more, `write_ops` has returned or raised, unless a worker has failed. Missing for the full
property: after a failure, see `C43_refuted`. -/
theorem C43_ends_partial {α : Type} (isDelete : α → Bool) (ops : List α) (o : BulkOptions) (hsize : 1 ≤ o.chunkSize)
    (hw : 1 ≤ o.workerCount) (schedule : List BulkAction) (s : BulkState α)
    (hrun : writeOps isDelete ops o schedule = some s) :
    schedule.length ≤ 8 + 2 * o.workerCount + 8 * ops.length ∧
    ((∀ a, bulkStep isDelete (o.workerCount * o.bufferMultiplier) s a = none) →
      s.workers.any WorkerState.hasFailed = false → Ended s) :=
  ⟨writeOps_length hsize hrun, fun h1 h2 => (writeOps_inv hrun).ended hw h1 h2⟩

/-- **C43**, after a failure: where nothing can happen any more and `write_ops` has not ended, it has put all chunks in the
queue, or all its workers have failed. So a failure is raised as long as there are more chunks and a worker. -/
theorem C43_stuck_partial {α : Type} (isDelete : α → Bool) (ops : List α) (o : BulkOptions)
    (hw : 1 ≤ o.workerCount) (schedule : List BulkAction) (s : BulkState α)
    (hrun : writeOps isDelete ops o schedule = some s)
    (hstuck : ∀ a, bulkStep isDelete (o.workerCount * o.bufferMultiplier) s a = none) (hend : ¬ Ended s) :
    s.workers.any WorkerState.hasFailed = true ∧
    ((∀ rest, s.main ≠ .feeding rest) ∨ s.workers.all WorkerState.hasFailed = true) := by
  have hinv := writeOps_inv hrun
  refine ⟨?_, ?_⟩
  · cases hf : s.workers.any WorkerState.hasFailed with
    | true => rfl
    | false => exact absurd (hinv.ended hw hstuck hf) hend
  · by_cases hm : ∃ rest, s.main = .feeding rest
    · obtain ⟨rest, hm⟩ := hm
      exact .inr (hinv.all_failed hm hstuck)
    · exact .inl (fun rest e => hm ⟨rest, e⟩)

/-- Both workers have failed, the queue is full and there is another chunk. -/
def exAllFailed : List BulkAction :=
  [.main, .get 0, .main, .get 1, .main, .main, .response 0 (.items [true]), .response 1 (.items [true])]

example : ((writeOps (fun _ : Nat => false) [1, 2, 3, 4, 5] { chunkSize := 1, workerCount := 2, bufferMultiplier := 1 }
    exAllFailed).map (fun s => (s.workers.all WorkerState.hasFailed, s.queue.length, s.main.rest.length))) =
      some (true, 2, 1) := by decide

/-- With no workers the main task waits for ever. -/
example : ((writeOps (fun _ : Nat => false) [1] { chunkSize := 1, workerCount := 0 } [.main, .main, .main]).map (fun s =>
    (s.unfinished, match s.main with | .joining => true | _ => false))) = some (1, true) := by decide

/-! ## C44 -/

/-- C44 in full: each chunk is sent at most four times, and only after timeouts; when the write returns, the indices are as
if every op had been carried out once. -/
def C44_full : Prop :=
  ∀ (P : Type) (ops : List (BulkOp P)) (o : BulkOptions) (schedule : List BulkAction) (s : BulkState (BulkOp P)) (es : ES P),
    1 ≤ o.chunkSize → LatestOk es → (∀ op ∈ ops, GenOp op) → Consistent ops →
    writeOps BulkOp.isDelete ops o schedule = some s →
    (∀ k, requests s.log k ≤ 4 ∧ requests s.log k ≤ timeouts s.log k + 1) ∧
    ∀ i d, s.main = .returned i d → SameDocs (es.applyOps s.written) (es.applyOps ops)

/-- One archive document. -/
def exArcOp : BulkOp Unit := .index (.arc 0) none { id := ['a'], version := 1, gte := 1, lt := some 2, next := some 2, parsed := () }

/-- The request times out after the server has carried it out. -/
def exTimeout : List BulkAction :=
  [.main, .main, .get 0, .response 0 (.timeout [true]), .response 0 (.items [false]), .main, .main, .main, .get 0, .get 1, .main, .main,
   .refreshed true]

/-- **C44 does not hold in full**: an archive document is written twice when the first request times out although the
server carried it out, as it has no id. -/
theorem C44_refuted : ¬ C44_full := by
  intro h
  have hrun : ∃ s, writeOps BulkOp.isDelete [exArcOp] exBulk exTimeout = some s := ⟨_, rfl⟩
  obtain ⟨s, hs⟩ := hrun
  have hcons : Consistent [exArcOp] := by
    intro a ha b hb _ hne
    rw [List.mem_singleton] at ha
    subst ha
    exact absurd rfl hne
  have := (h Unit [exArcOp] exBulk exTimeout s [] (by decide) latestOk_nil (by simp [GenOp, exArcOp]) hcons hs).2 1 0 (by cases hs; rfl)
  cases hs
  have := (this.docs (.arc 0)).length_eq
  exact absurd this (by decide)

/-- **C44**, attempts: a chunk is sent at most four times, each time but the last ending with a timeout. -/
theorem C44_attempts_partial {α : Type} (isDelete : α → Bool) (ops : List α) (o : BulkOptions)
    (schedule : List BulkAction) (s : BulkState α) (hrun : writeOps isDelete ops o schedule = some s) (k : Nat) :
    requests s.log k ≤ 4 ∧ requests s.log k ≤ timeouts s.log k + 1 :=
  (writeOps_inv hrun).bound k

/-- **C44**, when requests that timed out had not been carried out: the indices are as if every op had been carried
out once. -/
theorem C44_not_applied_partial {P : Type} (ops : List (BulkOp P)) (hg : ∀ op ∈ ops, GenOp op) (hc : Consistent ops)
    (o : BulkOptions) (hsize : 1 ≤ o.chunkSize) (schedule : List BulkAction) (s : BulkState (BulkOp P))
    (hrun : writeOps BulkOp.isDelete ops o schedule = some s) (i d : Nat) (hret : s.main = .returned i d)
    (es : ES P) (hok : LatestOk es) (happ : ∀ x ∈ s.log, x.2.isTimeout = true → appliedOps x = []) :
    SameDocs (es.applyOps s.written) (es.applyOps ops) := by
  have h1 := written_perm hsize hrun hret
  have e : timedOutOps s.log = [] := by
    unfold timedOutOps
    rw [List.flatMap_eq_nil_iff]
    intro x hx
    rw [List.mem_filter] at hx
    exact happ x hx.1 hx.2
  rw [e, List.append_nil] at h1
  exact applyOps_perm hok hg hc h1

/-- **C44**, any timeouts: the latest index is as if every op had been carried out once, and no archive document is lost; those
written more often are from chunks that timed out. -/
theorem C44_latest_partial {P : Type} (ops : List (BulkOp P)) (hg : ∀ op ∈ ops, GenOp op) (hc : Consistent ops)
    (o : BulkOptions) (hsize : 1 ≤ o.chunkSize) (schedule : List BulkAction) (s : BulkState (BulkOp P))
    (hrun : writeOps BulkOp.isDelete ops o schedule = some s) (i d : Nat) (hret : s.main = .returned i d)
    (es : ES P) (hok : LatestOk es) :
    ((es.applyOps s.written).docs .latest).Perm ((es.applyOps ops).docs .latest) ∧
    ∀ k, ∃ extra, ((es.applyOps s.written).docs (.arc k)).Perm ((es.applyOps ops).docs (.arc k) ++ extra) ∧
      ∀ x ∈ extra, ∃ y ∈ s.log, y.2.isTimeout = true ∧ .index (.arc k) x.1 x.2 ∈ appliedOps y := by
  have h1 := written_perm hsize hrun hret
  have hsub : ∀ op ∈ timedOutOps s.log, op ∈ ops := by
    intro op hop
    obtain ⟨x, hx, hop⟩ := List.mem_flatMap.1 hop
    exact written_sub hsize hrun (List.mem_flatMap.2 ⟨x, (List.mem_filter.1 hx).1, hop⟩)
  have hmem : ∀ op, op ∈ s.written ↔ op ∈ ops := by
    intro op
    rw [h1.mem_iff, List.mem_append]
    exact ⟨fun h => h.elim id (hsub op), .inl⟩
  refine ⟨applyOps_latest_same hok hg hc hmem, fun k => ⟨(timedOutOps s.log).filterMap (BulkOp.arcDoc k), ?_, ?_⟩⟩
  · rw [applyOps_arcDocs hg, applyOps_arcDocs (fun op hop => hg op ((hmem op).1 hop)), List.append_assoc,
      ← List.filterMap_append]
    exact (h1.filterMap _).append_left _
  · intro x hx
    obtain ⟨op, hop, hx'⟩ := List.mem_filterMap.1 hx
    obtain ⟨y, hy, hop⟩ := List.mem_flatMap.1 hop
    rw [List.mem_filter] at hy
    refine ⟨y, hy.1, hy.2, ?_⟩
    cases op with
    | delete ix id => cases hx'
    | index ix docId doc =>
      cases ix with
      | latest => cases hx'
      | arc n =>
        simp only [BulkOp.arcDoc] at hx'
        split at hx'
        · rename_i e; subst e; rw [← Option.some.inj hx']; exact hop
        · cases hx'

/-- The ops of a sync meet the hypotheses: see `C42_schedules`; here for the four of the example. -/
theorem C44_sync_ops {P : Type} (X : Parser P) (maxDocs : Nat) (db : PyStr) (resync : Bool) (m : Mongo) (es es0 : ES P)
    (ops : List (BulkOp P)) (hids : ((m.data db).map MongoRecord.id).Nodup)
    (hops : syncOps X maxDocs db resync m es = .ok (es0, ops)) : (∀ op ∈ ops, GenOp op) ∧ Consistent ops :=
  ⟨(syncOps_latest hids hops).1, (syncOps_latest hids hops).2.1⟩

/-- A write that returns after a timeout that the server did not carry out. -/
example : ((writeOps BulkOp.isDelete [exArcOp] exBulk
    [.main, .main, .get 0, .response 0 (.timeout [false]), .response 0 (.items [false]), .main, .main, .main, .get 0, .get 1, .main, .main,
     .refreshed true]).map (fun s => ((match s.main with | .returned i d => some (i, d) | _ => none),
      s.log.all (fun x => !x.2.isTimeout || (appliedOps x).isEmpty), requests s.log 0))) = some (some (1, 0), true, 2) := by decide

/-! ## C45 -/

/-- C45 in full: after a sync that stopped, in whatever way and whatever Elasticsearch shows of it (everything, or nothing
as it was not refreshed), another one gives the indices of a single successful one. -/
def C45_full : Prop :=
  ∀ (P : Type) (X : Parser P) (maxDocs : Nat) (db : PyStr) (m : Mongo) (es es0 : ES P) (ops : List (BulkOp P)) (o : BulkOptions)
    (schedule : List BulkAction) (s : BulkState (BulkOp P)), DbOk db m → LatestOk es → 1 ≤ o.chunkSize →
    syncOps X maxDocs db false m es = .ok (es0, ops) → writeOps BulkOp.isDelete ops o schedule = some s →
    (∃ es' es1, syncSeeing X maxDocs db m (es0.applyOps s.written) (es0.applyOps s.written) = .ok es' ∧
      sync X maxDocs db false m es = .ok es1 ∧ SameIndices es' es1) ∧
    (∃ es' es1, syncSeeing X maxDocs db m es0 (es0.applyOps s.written) = .ok es' ∧
      sync X maxDocs db false m es = .ok es1 ∧ SameIndices es' es1)

/-- One of two chunks is written, then nothing more. -/
def exCrash : List BulkAction := [.main, .get 0, .response 0 (.items [false])]

/-- Chunks of one op. -/
def exBulk1 : BulkOptions := { chunkSize := 1, workerCount := 1 }

/-- What a sync that stopped after one op has written. -/
def exCrashed (calls : List ApiCall) : ES (Dict × ParsingOptions) × ES (Dict × ParsingOptions) :=
  match syncOps exParser 10 ['x'] false (exDbOf calls) [] with
  | .error _ => ([], [])
  | .ok (es0, ops) =>
    match writeOps BulkOp.isDelete ops exBulk1 exCrash with
    | none => ([], [])
    | some s => (es0, es0.applyOps s.written)

set_option maxRecDepth 100000 in
/-- **C45 does not hold in full** when what was written is visible: with two new records of the same version, and only
one written, the next sync finds that version in Elasticsearch and does nothing. -/
theorem C45_refuted_visible : ¬ C45_full := by
  intro h
  cases hops : syncOps exParser 10 ['x'] false (exDbOf exCalls1) [] with
  | error e =>
    have : (match syncOps exParser 10 ['x'] false (exDbOf exCalls1) [] with | .ok _ => true | .error _ => false) = true := by decide
    rw [hops] at this; cases this
  | ok r =>
    obtain ⟨es0, ops⟩ := r
    cases hw : writeOps BulkOp.isDelete ops exBulk1 exCrash with
    | none =>
      have : (match syncOps exParser 10 ['x'] false (exDbOf exCalls1) [] with
        | .ok (_, ops) => (writeOps BulkOp.isDelete ops exBulk1 exCrash).isSome | .error _ => false) = true := by decide
      rw [hops] at this
      dsimp only at this
      rw [hw] at this; cases this
    | some s =>
      obtain ⟨⟨es', es1, h1, h2, h3⟩, _⟩ := h _ exParser 10 ['x'] (exDbOf exCalls1) [] es0 ops exBulk1 exCrash s
        (dbOk_of_check (by decide)) latestOk_nil (by decide) hops hw
      have e : exCrashed exCalls1 = (es0, es0.applyOps s.written) := by
        unfold exCrashed
        rw [hops]
        dsimp only
        rw [hw]
      have e1 : (match syncSeeing exParser 10 ['x'] (exDbOf exCalls1) (exCrashed exCalls1).2 (exCrashed exCalls1).2 with
        | .ok es => (akeys (es.docs .latest)) | .error _ => []) = [some ['a']] := by decide
      have e2 : (match sync exParser 10 ['x'] false (exDbOf exCalls1) [] with
        | .ok es => (akeys (es.docs .latest)) | .error _ => []) = [some ['a'], some ['b']] := by decide
      rw [e] at e1
      rw [h1] at e1
      rw [h2] at e2
      dsimp only at e1 e2
      have hb : some ['b'] ∈ akeys (es1.docs .latest) := by rw [e2]; simp
      obtain ⟨x, hx, hxb⟩ := List.mem_map.1 hb
      have := List.mem_map_of_mem (f := Prod.fst) ((h3.latest x).2 hx)
      rw [hxb] at this
      change some ['b'] ∈ akeys (es'.docs .latest) at this
      rw [e1] at this
      simp at this

set_option maxRecDepth 100000 in
/-- **C45 does not hold in full** when what was written is not visible either: the archive document that was written is
written again. -/
theorem C45_refuted_invisible : ¬ C45_full := by
  intro h
  cases hops : syncOps exParser 10 ['x'] false (exDbOf exCalls2) [] with
  | error e =>
    have : (match syncOps exParser 10 ['x'] false (exDbOf exCalls2) [] with | .ok _ => true | .error _ => false) = true := by decide
    rw [hops] at this; cases this
  | ok r =>
    obtain ⟨es0, ops⟩ := r
    cases hw : writeOps BulkOp.isDelete ops exBulk1 exCrash with
    | none =>
      have : (match syncOps exParser 10 ['x'] false (exDbOf exCalls2) [] with
        | .ok (_, ops) => (writeOps BulkOp.isDelete ops exBulk1 exCrash).isSome | .error _ => false) = true := by decide
      rw [hops] at this
      dsimp only at this
      rw [hw] at this; cases this
    | some s =>
      obtain ⟨_, ⟨es', es1, h1, h2, h3⟩⟩ := h _ exParser 10 ['x'] (exDbOf exCalls2) [] es0 ops exBulk1 exCrash s
        (dbOk_of_check (by decide)) latestOk_nil (by decide) hops hw
      have e : exCrashed exCalls2 = (es0, es0.applyOps s.written) := by
        unfold exCrashed
        rw [hops]
        dsimp only
        rw [hw]
      have e1 : (match syncSeeing exParser 10 ['x'] (exDbOf exCalls2) (exCrashed exCalls2).1 (exCrashed exCalls2).2 with
        | .ok es => es.archived.length | .error _ => 0) = 4 := by decide
      have e2 : (match sync exParser 10 ['x'] false (exDbOf exCalls2) [] with
        | .ok es => es.archived.length | .error _ => 0) = 3 := by decide
      rw [e] at e1
      rw [h1] at e1
      rw [h2] at e2
      dsimp only at e1 e2
      have := h3.archived.length_eq
      omega

/-- **C45**, for a first sync: however it stopped, `sync(resync=True)` gives the indices of a single successful sync. -/
theorem C45_first_resync_partial {P : Type} (X : Parser P) (maxDocs : Nat) (db : PyStr) (m : Mongo) (hm : DbOk db m)
    (es0 : ES P) (ops : List (BulkOp P)) (hops : syncOps X maxDocs db false m [] = .ok (es0, ops)) (o : BulkOptions)
    (hsize : 1 ≤ o.chunkSize) (schedule : List BulkAction) (s : BulkState (BulkOp P))
    (hrun : writeOps BulkOp.isDelete ops o schedule = some s) :
    ∃ es' es1, sync X maxDocs db true m (es0.applyOps s.written) = .ok es' ∧ sync X maxDocs db false m [] = .ok es1 ∧
      SameIndices es' es1 := by
  obtain ⟨hg, hc, hl⟩ := syncOps_latest hm.nodup hops
  have hl0 := hl latestOk_nil
  have hsub : ∀ op ∈ s.written, op ∈ ops := fun op hop => written_sub hsize hrun hop
  have hgw : ∀ op ∈ s.written, GenOp op := fun op hop => hg op (hsub op hop)
  have hcw : Consistent s.written := fun a ha b hb => hc a (hsub a ha) b (hsub b hb)
  have hes0 : es0 = [] := syncOps_es0 hops
  subst hes0
  have hsync : sync X maxDocs db false m [] = .ok (ES.applyOps [] ops) := by simp only [sync, hops]
  cases hd : hasData db m with
  | false =>
    have : ops = [] := by
      unfold syncOps at hops
      rw [hd] at hops
      cases hops; rfl
    subst this
    have hw : s.written = [] := by
      cases hs : s.written with
      | nil => rfl
      | cons x l => exact absurd (hsub x (by rw [hs]; exact List.mem_cons_self)) (by simp)
    refine ⟨[], [], ?_, ?_, ⟨fun _ => Iff.rfl, .refl _⟩⟩
    · rw [hw]; simp [sync, syncOps, hd, ES.applyOps]
    · rw [hsync]; rfl
  | true =>
    obtain ⟨es1, h1, h2⟩ := first_sync hm X maxDocs
    have e1 : es1 = ES.applyOps [] ops := by rw [hsync] at h1; cases h1; rfl
    obtain ⟨es', h3, h4, h5, h6⟩ := resync_effect hm X maxDocs hd (hl0.applyOps hgw) h2
    refine ⟨es', es1, h3, h1, ?_, h5⟩
    have he : ∀ id, es'.latestOf id = es1.latestOf id := by
      intro id
      rw [h6 id]
      cases ho : es1.latestOf id with
      | some d => rfl
      | none =>
        rw [Option.none_or]
        have hw := applyOps_latestOf hl0 hgw hcw id
        by_cases hex : ∃ op ∈ s.written, op.latestId = some id
        · obtain ⟨op, hop, hid⟩ := hex
          rw [hw.1 op hop hid]
          rw [e1, (applyOps_latestOf hl0 hg hc id).1 op (hsub op hop) hid] at ho
          exact ho
        · rw [hw.2 (fun op hop e => hex ⟨op, hop, e⟩)]; rfl
    intro x
    exact (latest_perm h4 h2.ok he).mem_iff

/-- **C45**, for any sync: however it stopped, `sync(resync=True)` makes the archives those of a first sync and writes
all its latest documents. Missing: documents of records deleted meanwhile stay, see `C32_refuted`. -/
theorem C45_resync_partial {P : Type} (X : Parser P) (maxDocs : Nat) (db : PyStr) (m : Mongo) (hm : DbOk db m)
    (hd : hasData db m = true) (resync : Bool) (es es0 : ES P) (hok : LatestOk es) (ops : List (BulkOp P))
    (hops : syncOps X maxDocs db resync m es = .ok (es0, ops)) (o : BulkOptions)
    (hsize : 1 ≤ o.chunkSize) (schedule : List BulkAction) (s : BulkState (BulkOp P))
    (hrun : writeOps BulkOp.isDelete ops o schedule = some s) :
    ∃ es' es1, sync X maxDocs db true m (es0.applyOps s.written) = .ok es' ∧ sync X maxDocs db false m [] = .ok es1 ∧
      es'.archived.Perm es1.archived ∧ ∀ x ∈ es1.docs .latest, x ∈ es'.docs .latest := by
  obtain ⟨hg, hc, hl⟩ := syncOps_latest hm.nodup hops
  have hgw : ∀ op ∈ s.written, GenOp op := fun op hop => hg op (written_sub hsize hrun hop)
  obtain ⟨es1, h1, h2⟩ := first_sync hm X maxDocs
  obtain ⟨es', h3, h4, h5, h6⟩ := resync_effect hm X maxDocs hd ((hl hok).applyOps hgw) h2
  refine ⟨es', es1, h3, h1, h5, fun x hx => ?_⟩
  rw [latest_mem_iff h2.ok] at hx
  rw [latest_mem_iff h4]
  obtain ⟨id, e, h⟩ := hx
  exact ⟨id, e, by rw [h6 id, h]; rfl⟩

/-- **C45**, repeating `sync()` before anything it wrote is visible, if no archive document was written: the result is that of
a single successful sync. -/
theorem C45_invisible_partial {P : Type} (X : Parser P) (maxDocs : Nat) (db : PyStr) (m : Mongo)
    (hids : ((m.data db).map MongoRecord.id).Nodup) (es es0 : ES P) (hok : LatestOk es) (ops : List (BulkOp P))
    (hops : syncOps X maxDocs db false m es = .ok (es0, ops)) (o : BulkOptions) (hsize : 1 ≤ o.chunkSize)
    (schedule : List BulkAction) (s : BulkState (BulkOp P)) (hrun : writeOps BulkOp.isDelete ops o schedule = some s)
    (hno : ∀ op ∈ s.written, ¬ op.isArchive) :
    ∃ es' es1, syncSeeing X maxDocs db m es (es0.applyOps s.written) = .ok es' ∧ sync X maxDocs db false m es = .ok es1 ∧
      SameDocs es' es1 := by
  obtain ⟨hg, hc, hl⟩ := syncOps_latest hids hops
  have hsub : ∀ op ∈ s.written, op ∈ ops := fun op hop => written_sub hsize hrun hop
  refine ⟨(es0.applyOps s.written).applyOps ops, es0.applyOps ops, by simp only [syncSeeing, hops], by simp only [sync, hops], ?_⟩
  rw [← applyOps_append]
  have hmem : ∀ op, op ∈ s.written ++ ops ↔ op ∈ ops := by
    intro op
    rw [List.mem_append]
    exact ⟨fun h => h.elim (hsub op) id, .inr⟩
  refine ⟨fun ix => ?_, fun ix => ?_⟩
  · rw [applyOps_keys, applyOps_keys]
    simp only [hmem]
  · cases ix with
    | latest => exact applyOps_latest_same (hl hok) hg hc hmem
    | arc k =>
      rw [applyOps_arcDocs hg, applyOps_arcDocs (fun op hop => hg op ((hmem op).1 hop)), List.filterMap_append]
      have : s.written.filterMap (BulkOp.arcDoc k) = [] := by
        rw [List.filterMap_eq_nil_iff]
        intro op hop
        cases op with
        | delete ix id => rfl
        | index ix docId d =>
          cases ix with
          | latest => rfl
          | arc n => exact absurd ⟨n, rfl⟩ (hno _ hop)
      rw [this]; exact .refl _

set_option maxRecDepth 100000 in
/-- A first sync of two records, stopped after one of them has been written. -/
example : DbOk ['x'] (exDbOf exCalls1) ∧ hasData ['x'] (exDbOf exCalls1) = true ∧
    (match syncOps exParser 10 ['x'] false (exDbOf exCalls1) [] with
      | .ok (_, ops) => (writeOps BulkOp.isDelete ops exBulk1 exCrash).map (fun s => (ops.map BulkOp.ix, s.written.map BulkOp.ix))
      | .error _ => none) = some ([.latest, .latest], [.latest]) :=
  ⟨dbOk_of_check (by decide), by decide, by decide⟩

end Splitgill.Props
