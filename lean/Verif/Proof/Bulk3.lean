import Verif.Proof.Bulk2
import Verif.Proof.Utils
/-!
# Lemmas: what follows from the invariant of the bulk writer, and progress
-/

namespace Splitgill

section
variable {α : Type} {isDelete : α → Bool} {ops : List α} {o : BulkOptions} {as : List BulkAction} {s : BulkState α}

/-! ## Runs -/

theorem writeOps_inv (h : writeOps isDelete ops o as = some s) :
    BulkInv isDelete (numberFrom 0 (partition ops o.chunkSize)) o.workerCount s :=
  BulkInv.run as (BulkInv.start _ _ _) (numberFrom_spec 0 _).2.1 h

theorem chunks_flat (hs : 1 ≤ o.chunkSize) :
    (numberFrom 0 (partition ops o.chunkSize)).flatMap Prod.snd = ops := by
  rw [List.flatMap_def, (numberFrom_spec 0 _).1, partition_flatten hs]

/-- Once refreshed, nothing has failed. -/
theorem BulkInv.not_failed {chunks : List (NumChunk α)} {N : Nat} (h : BulkInv isDelete chunks N s)
    (hr : s.refreshed = true) : anyFailed s.workers = false := by
  cases hf : anyFailed s.workers with
  | false => rfl
  | true => exact absurd (h.late (.inl hr)).2 (held_of_failed hf)

theorem BulkInv.okLog_perm {chunks : List (NumChunk α)} {N : Nat} (h : BulkInv isDelete chunks N s) {i d : Nat}
    (hr : s.main = .returned i d) : (okLog s.log).Perm chunks := by
  obtain ⟨lost, h1, h2⟩ := h.tasks
  have hl := h2 (by rw [hr]; rfl)
  have ht := h.totals i d (.inl hr)
  have hlate := h.late (.inl ht.1)
  rw [hl] at h1
  simpa [BulkState.tasks, hr, MainState.rest, hlate.1, hlate.2] using h1

theorem BulkInv.result {chunks : List (NumChunk α)} {N : Nat} (h : BulkInv isDelete chunks N s) {i d : Nat}
    (hr : s.main = .returned i d) : i = (chunks.flatMap Prod.snd).countP (fun op => !isDelete op) ∧
      d = (chunks.flatMap Prod.snd).countP isDelete := by
  have ht := h.totals i d (.inl hr)
  have hc := h.counts (h.not_failed ht.1)
  have hp := (h.okLog_perm hr).flatMap_right Prod.snd
  have hg := gather_spec ht.2
  rw [hp.countP_eq, hp.countP_eq] at hc
  exact ⟨by rw [← hc.1]; exact hg.1, by rw [← hc.2]; exact hg.2.1⟩

/-- A request without errors is carried out. -/
theorem appliedOps_ok {x : NumChunk α × BulkResp} (h : x.2.isOk = true) (hfit : x.2.fits x.1.2 = true) :
    appliedOps x = x.1.2 := by
  obtain ⟨c, r⟩ := x
  cases r with
  | items errors =>
    simp only [BulkResp.isOk, Bool.not_eq_true', BulkResp.fits, beq_iff_eq] at h hfit
    have hall : ∀ e ∈ errors, e = false := by
      intro e he
      cases e with
      | false => rfl
      | true =>
        have : errors.any id = true := List.any_eq_true.2 ⟨true, he, rfl⟩
        rw [h] at this; cases this
    have : (c.2.zip errors).filter (fun y => !y.2) = c.2.zip errors := by
      rw [List.filter_eq_self]
      intro y hy
      rw [hall y.2 (List.of_mem_zip (a := y.1) (b := y.2) hy).2]; rfl
    simp only [appliedOps, this]
    exact List.map_fst_zip (Nat.le_of_eq hfit.symm)
  | timeout l => cases h
  | exception l => cases h

/-! ## Only the chunks are sent -/

structure BulkSub (chunks : List (NumChunk α)) (s : BulkState α) : Prop where
  rest : ∀ c ∈ s.main.rest, c ∈ chunks
  queue : ∀ c, some c ∈ s.queue → c ∈ chunks
  held : ∀ c ∈ heldAll s.workers, c ∈ chunks
  log : ∀ x ∈ s.log, x.1 ∈ chunks ∧ x.2.fits x.1.2 = true

theorem BulkSub.step {chunks : List (NumChunk α)} {cap : Nat} {s s' : BulkState α} (h : BulkSub chunks s) {a : BulkAction}
    (hs : bulkStep isDelete cap s a = some s') : BulkSub chunks s' := by
  obtain ⟨m, q, u, ws, log, rf⟩ := s
  obtain ⟨h1, h2, h3, h4⟩ := h
  dsimp only at h1 h2 h3 h4
  have hq : ∀ {c' : NumChunk α}, c' ∈ chunks → ∀ c, some c ∈ q ++ [some c'] → c ∈ chunks := by
    intro c' hc' c hc
    rcases List.mem_append.1 hc with hc | hc
    · exact h2 c hc
    · rw [List.mem_singleton] at hc; cases hc; exact hc'
  have hq' : ∀ c, some c ∈ q ++ [none] → c ∈ chunks := by
    intro c hc
    rcases List.mem_append.1 hc with hc | hc
    · exact h2 c hc
    · simp at hc
  cases a with
  | main =>
    simp only [bulkStep] at hs
    unfold mainStep at hs
    dsimp only at hs
    split at hs
    · cases hs; exact ⟨by simp [MainState.rest], h2, h3, h4⟩
    · rename_i c rest
      split at hs
      · cases hs
      · have hc : c ∈ chunks := h1 c (by simp [MainState.rest])
        split at hs <;> cases hs
        · exact ⟨by simp [MainState.rest], hq hc, h3, h4⟩
        · exact ⟨fun x hx => h1 x (List.mem_cons_of_mem _ hx), hq hc, h3, h4⟩
    · cases hs; exact ⟨by simp [MainState.rest], h2, h3, h4⟩
    · split at hs
      · cases hs
      · cases hs; exact ⟨by simp [MainState.rest], hq', h3, h4⟩
    · split at hs
      · split at hs <;> cases hs <;> exact ⟨by simp [MainState.rest], h2, h3, h4⟩
      · cases hs
    · split at hs
      · cases hs; exact ⟨by simp [MainState.rest], h2, h3, h4⟩
      · cases hs
    · cases hs
    · cases hs
    · cases hs
  | mainRaises =>
    simp only [bulkStep] at hs
    split at hs
    · cases hs; exact ⟨by simp [MainState.rest], h2, h3, h4⟩
    · cases hs
  | get w =>
    simp only [bulkStep] at hs
    split at hs
    · rename_i i d c q' hw
      cases hs
      obtain ⟨l, r, e1, e2⟩ := workers_split hw (.sending c 0 i d)
      subst e1
      refine ⟨h1, fun c hc => h2 c (List.mem_cons_of_mem _ hc), ?_, h4⟩
      intro x hx
      dsimp only at hx
      rw [e2, heldAll_split] at hx
      rw [heldAll_split] at h3
      simp only [WorkerState.held, List.mem_append, List.mem_singleton] at hx
      rcases hx with hx | hx | hx
      · exact h3 x (by simp [hx])
      · rw [hx]; exact h2 c List.mem_cons_self
      · exact h3 x (by simp [hx])
    · rename_i i d q' hw
      cases hs
      obtain ⟨l, r, e1, e2⟩ := workers_split hw (.done i d)
      subst e1
      refine ⟨h1, fun c hc => h2 c (List.mem_cons_of_mem _ hc), ?_, h4⟩
      intro x hx
      dsimp only at hx
      rw [e2, heldAll_split] at hx
      rw [heldAll_split] at h3
      exact h3 x (by simpa [WorkerState.held] using hx)
    · cases hs
  | response w resp =>
    simp only [bulkStep] at hs
    split at hs
    · rename_i c a i d hw
      split at hs
      · rename_i hfit
        have hc := workerResponse_cases isDelete c a i d hfit
        generalize workerResponse isDelete c a i d resp = res at hs hc
        obtain ⟨st, td⟩ := res
        cases hs
        obtain ⟨l, r, e1, e2⟩ := workers_split hw st
        subst e1
        rw [heldAll_split] at h3
        have hcm : c ∈ chunks := h3 c (by simp [WorkerState.held])
        refine ⟨h1, h2, ?_, ?_⟩
        · intro x hx
          dsimp only at hx
          rw [e2, heldAll_split] at hx
          have hst : ∀ y ∈ st.held, y = c := by
            rcases hc with ⟨_, _, _, e⟩ | ⟨_, _, _, _, e⟩ | ⟨_, e⟩ <;> cases e <;> simp [WorkerState.held]
          rcases List.mem_append.1 hx with hx | hx
          · exact h3 x (by simp [hx])
          · rcases List.mem_append.1 hx with hx | hx
            · rw [hst x hx]; exact hcm
            · exact h3 x (by simp [hx])
        · intro x hx
          rcases List.mem_append.1 hx with hx | hx
          · exact h4 x hx
          · rw [List.mem_singleton] at hx; subst hx; exact ⟨hcm, hfit⟩
      · cases hs
    · cases hs
  | refreshed ok =>
    simp only [bulkStep] at hs
    split at hs
    · split at hs
      · cases hs; exact ⟨by simp [MainState.rest], h2, h3, h4⟩
      · split at hs <;> cases hs <;> exact ⟨by simp [MainState.rest], h2, h3, h4⟩
    · cases hs

theorem BulkSub.run {chunks : List (NumChunk α)} {cap : Nat} : ∀ (as : List BulkAction) {s s' : BulkState α},
    BulkSub chunks s → bulkRun isDelete cap s as = some s' → BulkSub chunks s'
  | [], s, s', h, hr => by cases hr; exact h
  | a :: as, s, s', h, hr => by
    unfold bulkRun at hr
    split at hr
    · rename_i s1 h1
      exact BulkSub.run as (h.step h1) hr
    · cases hr

theorem writeOps_sub (h : writeOps isDelete ops o as = some s) :
    BulkSub (numberFrom 0 (partition ops o.chunkSize)) s := by
  refine BulkSub.run as ⟨?_, ?_, ?_, ?_⟩ h
  · intro c hc; exact hc
  · intro c hc; simp [bulkStart] at hc
  · intro c hc
    simp only [bulkStart, heldAll, List.mem_flatMap] at hc
    obtain ⟨w, hw, hc⟩ := hc
    rw [List.eq_of_mem_replicate hw] at hc
    cases hc
  · intro x hx; simp [bulkStart] at hx

theorem mem_appliedOps {x : NumChunk α × BulkResp} {op : α} (h : op ∈ appliedOps x) : op ∈ x.1.2 := by
  obtain ⟨c, r⟩ := x
  cases r <;>
  · simp only [appliedOps, List.mem_map, List.mem_filter] at h
    obtain ⟨y, ⟨hy, _⟩, rfl⟩ := h
    exact (List.of_mem_zip (a := y.1) (b := y.2) hy).1

/-- The server only carries out ops of the stream. -/
theorem written_sub (hs : 1 ≤ o.chunkSize) (h : writeOps isDelete ops o as = some s) {op : α} (hop : op ∈ s.written) : op ∈ ops := by
  obtain ⟨x, hx, hop⟩ := List.mem_flatMap.1 hop
  rw [← chunks_flat (o := o) (ops := ops) hs]
  exact List.mem_flatMap.2 ⟨x.1, ((writeOps_sub h).log x hx).1, mem_appliedOps hop⟩

/-- The log of a run that returns: what succeeded, and timeouts. -/
theorem log_cases {chunks : List (NumChunk α)} {N : Nat} (h : BulkInv isDelete chunks N s) {i d : Nat}
    (hr : s.main = .returned i d) {x : NumChunk α × BulkResp} (hx : x ∈ s.log) : x.2.isOk = true ∨ x.2.isTimeout = true := by
  have hf := h.not_failed (h.totals i d (.inl hr)).1
  cases hxr : x.2 with
  | items errors =>
    cases he : errors.any id with
    | false => exact .inl (by simp [BulkResp.isOk, he])
    | true =>
      have := h.errors ⟨x, hx, by rw [hxr]; exact he⟩
      rw [hf] at this; cases this
  | timeout l => exact .inr rfl
  | exception l =>
    have := h.errors ⟨x, hx, by rw [hxr]; rfl⟩
    rw [hf] at this; cases this

/-- What the server carried out for requests that timed out. -/
def timedOutOps (log : List (NumChunk α × BulkResp)) : List α := (log.filter (fun x => x.2.isTimeout)).flatMap appliedOps

theorem isTimeout_of_ok {r : BulkResp} (h : r.isOk = true) : r.isTimeout = false := by
  cases r with
  | timeout l => cases h
  | items e => rfl
  | exception l => rfl

theorem written_split : ∀ (log : List (NumChunk α × BulkResp)), (∀ x ∈ log, x.2.isOk = true ∨ x.2.isTimeout = true) →
    (∀ x ∈ log, x.2.fits x.1.2 = true) →
    (log.flatMap appliedOps).Perm ((okLog log).flatMap Prod.snd ++ timedOutOps log)
  | [], _, _ => .nil
  | x :: log, h, hf => by
    have ih := written_split log (fun y hy => h y (List.mem_cons_of_mem _ hy)) (fun y hy => hf y (List.mem_cons_of_mem _ hy))
    rw [List.flatMap_cons]
    rcases h x List.mem_cons_self with hx | hx
    · have e1 : okLog (x :: log) = x.1 :: okLog log := by simp [okLog, hx]
      have e2 : timedOutOps (x :: log) = timedOutOps log := by simp [timedOutOps, isTimeout_of_ok hx]
      rw [e1, e2, List.flatMap_cons, appliedOps_ok hx (hf x List.mem_cons_self), List.append_assoc]
      exact ih.append_left _
    · have hn : x.2.isOk = false := by
        cases hok : x.2.isOk with
        | false => rfl
        | true => rw [isTimeout_of_ok hok] at hx; cases hx
      have e1 : okLog (x :: log) = okLog log := by simp [okLog, hn]
      have e2 : timedOutOps (x :: log) = appliedOps x ++ timedOutOps log := by simp [timedOutOps, hx]
      rw [e1, e2]
      refine (ih.append_left _).trans ?_
      rw [← List.append_assoc, ← List.append_assoc]
      exact List.perm_append_comm.append_right _

theorem written_perm (hs : 1 ≤ o.chunkSize) (h : writeOps isDelete ops o as = some s) {i d : Nat} (hr : s.main = .returned i d) :
    s.written.Perm (ops ++ timedOutOps s.log) := by
  have hinv := writeOps_inv h
  refine (written_split s.log (fun x hx => log_cases hinv hr hx) (fun x hx => ((writeOps_sub h).log x hx).2)).trans ?_
  refine List.Perm.append_right _ ?_
  have := (hinv.okLog_perm hr).flatMap_right Prod.snd
  rwa [chunks_flat hs] at this

/-! ## Progress -/

def WorkerState.weight : WorkerState α → Nat
  | .sending _ a _ _ => 1 + (5 - a)
  | _ => 0

def MainState.weight (N : Nat) : MainState α → Nat
  | .feeding rest => 8 + 2 * N + 8 * rest.length
  | .closing n => 7 + 2 * n
  | .joining => 6
  | .gathering => 5
  | .refreshing k _ _ => 1 + k
  | .returned _ _ => 0
  | .raised => 0

def taskWeight : Option (NumChunk α) → Nat
  | some _ => 7
  | none => 1

def queueWeight (q : List (Option (NumChunk α))) : Nat := (q.map taskWeight).sum
def workersWeight (ws : List (WorkerState α)) : Nat := (ws.map WorkerState.weight).sum

/-- Goes down with every action. -/
def BulkState.weight (s : BulkState α) : Nat :=
  s.main.weight s.workers.length + queueWeight s.queue + workersWeight s.workers

theorem workersWeight_split (l r : List (WorkerState α)) (w : WorkerState α) :
    workersWeight (l ++ w :: r) = workersWeight l + w.weight + workersWeight r := by
  simp [workersWeight, Nat.add_assoc]

theorem queueWeight_snoc (q : List (Option (NumChunk α))) (x : Option (NumChunk α)) :
    queueWeight (q ++ [x]) = queueWeight q + taskWeight x := by
  simp [queueWeight]

theorem bulkStep_weight {cap : Nat} {s s' : BulkState α} {a : BulkAction} (hs : bulkStep isDelete cap s a = some s') :
    s'.weight < s.weight := by
  obtain ⟨m, q, u, ws, log, rf⟩ := s
  cases a with
  | main =>
    simp only [bulkStep] at hs
    unfold mainStep at hs
    dsimp only at hs
    split at hs
    · cases hs; simp only [BulkState.weight, MainState.weight, List.length_nil]; omega
    · rename_i c rest
      split at hs
      · cases hs
      · split at hs <;> cases hs <;>
          simp only [BulkState.weight, MainState.weight, queueWeight_snoc, taskWeight, List.length_cons] <;> omega
    · cases hs; simp only [BulkState.weight, MainState.weight]; omega
    · split at hs
      · cases hs
      · cases hs; simp only [BulkState.weight, MainState.weight, queueWeight_snoc, taskWeight]; omega
    · split at hs
      · split at hs <;> cases hs <;> simp only [BulkState.weight, MainState.weight] <;> omega
      · cases hs
    · split at hs
      · cases hs; simp only [BulkState.weight, MainState.weight, refreshAttempts]; omega
      · cases hs
    · cases hs
    · cases hs
    · cases hs
  | mainRaises =>
    simp only [bulkStep] at hs
    split at hs
    · cases hs; simp only [BulkState.weight, MainState.weight]; omega
    · cases hs
  | get w =>
    simp only [bulkStep] at hs
    split at hs
    · rename_i i d c q' hw
      cases hs
      obtain ⟨l, r, e1, e2⟩ := workers_split hw (.sending c 0 i d)
      subst e1
      simp only [BulkState.weight, e2, workersWeight_split, WorkerState.weight, queueWeight, List.map_cons, List.sum_cons,
        taskWeight, List.length_append, List.length_cons]
      omega
    · rename_i i d q' hw
      cases hs
      obtain ⟨l, r, e1, e2⟩ := workers_split hw (.done i d)
      subst e1
      simp only [BulkState.weight, e2, workersWeight_split, WorkerState.weight, queueWeight, List.map_cons, List.sum_cons,
        taskWeight, List.length_append, List.length_cons]
      omega
    · cases hs
  | response w resp =>
    simp only [bulkStep] at hs
    split at hs
    · rename_i c a i d hw
      split at hs
      · rename_i hfit
        have hc := workerResponse_cases isDelete c a i d hfit
        generalize workerResponse isDelete c a i d resp = res at hs hc
        obtain ⟨st, td⟩ := res
        cases hs
        obtain ⟨l, r, e1, e2⟩ := workers_split hw st
        subst e1
        have : st.weight < (WorkerState.sending c a i d).weight := by
          rcases hc with ⟨_, _, _, e⟩ | ⟨_, _, _, hlt, e⟩ | ⟨_, e⟩ <;> cases e <;> simp only [WorkerState.weight]
          · omega
          · simp only [bulkRetries] at hlt; omega
          · omega
        simp only [BulkState.weight, e2, workersWeight_split, List.length_append, List.length_cons]
        omega
      · cases hs
    · cases hs
  | refreshed ok =>
    simp only [bulkStep] at hs
    split at hs
    · split at hs
      · cases hs; simp only [BulkState.weight, MainState.weight]; omega
      · split at hs <;> cases hs <;> simp only [BulkState.weight, MainState.weight] <;> omega
    · cases hs

theorem bulkRun_weight {cap : Nat} : ∀ (as : List BulkAction) {s s' : BulkState α},
    bulkRun isDelete cap s as = some s' → as.length + s'.weight ≤ s.weight
  | [], s, s', hr => by cases hr; simp
  | a :: as, s, s', hr => by
    unfold bulkRun at hr
    split at hr
    · rename_i s1 h1
      have := bulkRun_weight as hr
      have := bulkStep_weight h1
      simp only [List.length_cons]; omega
    · cases hr

theorem workersWeight_start (n : Nat) : workersWeight (List.replicate n (WorkerState.idle (α := α) 0 0)) = 0 := by
  simp [workersWeight, WorkerState.weight]

theorem partition_length (hs : 1 ≤ o.chunkSize) : (partition ops o.chunkSize).length ≤ ops.length := by
  have h1 := partition_flatten hs ops
  have h2 : ∀ c ∈ partition ops o.chunkSize, 1 ≤ c.length := by
    intro c hc
    have := (partitionLoop_chunks _ _ c hc).1
    exact List.length_pos_iff.2 this
  generalize partition ops o.chunkSize = l at h1 h2
  subst h1
  clear hs
  induction l with
  | nil => simp
  | cons c l ih =>
    have := h2 c List.mem_cons_self
    have := ih (fun c hc => h2 c (List.mem_cons_of_mem _ hc))
    simp only [List.length_cons, List.flatten_cons, List.length_append]
    omega

/-- No schedule is longer than this. -/
theorem writeOps_length (hs : 1 ≤ o.chunkSize) (h : writeOps isDelete ops o as = some s) :
    as.length ≤ 8 + 2 * o.workerCount + 8 * ops.length := by
  have h1 := bulkRun_weight as h
  have h2 := partition_length (ops := ops) hs
  have h3 : (numberFrom 0 (partition ops o.chunkSize)).length = (partition ops o.chunkSize).length := by
    have := congrArg List.length (numberFrom_spec 0 (partition ops o.chunkSize)).1
    simpa using this
  simp only [bulkStart, BulkState.weight, MainState.weight, List.length_replicate, workersWeight_start, queueWeight,
    List.map_nil, List.sum_nil, h3] at h1
  omega

/-- All workers have ended normally if none can do anything, none has failed and there is something to get. -/
theorem all_done {cap : Nat} {s : BulkState α} (hstuck : ∀ a, bulkStep isDelete cap s a = none) (hf : anyFailed s.workers = false)
    (hq : s.queue ≠ []) : dones s.workers = s.workers.length := by
  obtain ⟨m, q, u, ws, log, rf⟩ := s
  dsimp only at *
  have key : ∀ w ∈ ws, w.isDone = 1 := by
    intro w hw
    obtain ⟨k, hk⟩ := List.getElem?_of_mem hw
    cases w with
    | idle i d =>
      have := hstuck (.get k)
      cases q with
      | nil => exact absurd rfl hq
      | cons x q => cases x <;> simp [bulkStep, hk] at this
    | sending c a i d =>
      have := hstuck (.response k (.exception (c.2.map (fun _ => false))))
      simp [bulkStep, hk, BulkResp.fits] at this
    | done i d => rfl
    | failed c =>
      have : anyFailed ws = true := List.any_eq_true.2 ⟨_, hw, rfl⟩
      rw [hf] at this; cases this
  clear hstuck hf
  induction ws with
  | nil => rfl
  | cons w ws ih =>
    have h1 := ih (fun w hw => key w (List.mem_cons_of_mem _ hw))
    have h2 := key w List.mem_cons_self
    simp only [dones, List.map_cons, List.sum_cons, List.length_cons, h2] at h1 ⊢
    omega

/-- If nothing can happen while there are chunks to put, all workers have failed. -/
theorem BulkInv.all_failed {chunks : List (NumChunk α)} {N cap : Nat} {s : BulkState α} (h : BulkInv isDelete chunks N s)
    {rest : List (NumChunk α)} (hm : s.main = .feeding rest) (hstuck : ∀ a, bulkStep isDelete cap s a = none) :
    s.workers.all WorkerState.hasFailed = true := by
  obtain ⟨m, q, u, ws, log, rf⟩ := s
  obtain ⟨cs, n, hq, hcs, hput⟩ := h.shape
  have hmain := hstuck .main
  dsimp only at *
  subst hm
  have hp := hput rfl
  simp only [MainState.toPut] at hp
  have hd : dones ws = 0 := by omega
  simp only [bulkStep] at hmain
  unfold mainStep at hmain
  dsimp only at hmain
  cases rest with
  | nil => simp at hmain
  | cons c rest =>
    dsimp only at hmain
    split at hmain
    · rename_i hf'
      rw [List.all_eq_true]
      intro w hw
      obtain ⟨k, hk⟩ := List.getElem?_of_mem hw
      cases w with
      | idle i d =>
        have := hstuck (.get k)
        cases q with
        | nil => simp [queueFull] at hf'; omega
        | cons x q => cases x <;> simp [bulkStep, hk] at this
      | sending c a i d =>
        have := hstuck (.response k (.exception (c.2.map (fun _ => false))))
        simp [bulkStep, hk, BulkResp.fits] at this
      | done i d =>
        obtain ⟨l, r, e, _⟩ := workers_split hk (.done i d)
        rw [e, dones_split] at hd
        simp [WorkerState.isDone] at hd
      | failed c => rfl
    · split at hmain <;> cases hmain

/-- If no worker has failed and nothing can happen, `write_ops` has ended. -/
theorem BulkInv.ended {chunks : List (NumChunk α)} {N cap : Nat} {s : BulkState α} (h : BulkInv isDelete chunks N s) (hN : 1 ≤ N)
    (hstuck : ∀ a, bulkStep isDelete cap s a = none) (hf : anyFailed s.workers = false) :
    s.main = .raised ∨ ∃ i d, s.main = .returned i d := by
  have had := all_done hstuck hf
  obtain ⟨m, q, u, ws, log, rf⟩ := s
  obtain ⟨cs, n, hq, hcs, hput⟩ := h.shape
  have hlen := h.len
  have hunf := h.unfinished
  have hlate := h.late
  have hmain := hstuck .main
  dsimp only at *
  have hsend : heldAll ws = [] := by
    by_contra hne
    obtain ⟨c, hc⟩ := List.exists_mem_of_ne_nil _ hne
    obtain ⟨w, hw, hc⟩ := List.mem_flatMap.1 hc
    obtain ⟨k, hk⟩ := List.getElem?_of_mem hw
    cases w with
    | idle i d => cases hc
    | done i d => cases hc
    | failed c =>
      have : anyFailed ws = true := List.any_eq_true.2 ⟨_, hw, rfl⟩
      rw [hf] at this; cases this
    | sending c a i d =>
      have := hstuck (.response k (.exception (c.2.map (fun _ => false))))
      simp [bulkStep, hk, BulkResp.fits] at this
  simp only [bulkStep] at hmain
  unfold mainStep at hmain
  dsimp only at hmain
  have hfull : ∀ cap' : Nat, queueFull cap' q = true → q ≠ [] := by
    rintro cap' hq rfl
    simp [queueFull] at hq
    omega
  cases m with
  | feeding rest =>
    have hp := hput rfl
    simp only [MainState.toPut] at hp
    cases rest with
    | nil => simp at hmain
    | cons c rest =>
      dsimp only at hmain
      split at hmain
      · rename_i hf'
        have := had (hfull cap hf')
        omega
      · split at hmain <;> cases hmain
  | closing k =>
    have hp := hput rfl
    simp only [MainState.toPut] at hp
    cases k with
    | zero => simp at hmain
    | succ k =>
      dsimp only at hmain
      split at hmain
      · rename_i hf'
        have := had (hfull cap hf')
        omega
      · cases hmain
  | joining =>
    have hp := hput rfl
    simp only [MainState.toPut] at hp
    dsimp only at hmain
    split at hmain
    · split at hmain <;> cases hmain
    · rename_i hu
      rw [hsend] at hunf
      have hqne : q ≠ [] := by
        rintro rfl
        exact hu (by simpa using hunf)
      have hd := had hqne
      have hn : n = 0 := by omega
      have hc0 := hcs (by omega)
      rw [hn, hc0] at hq
      exact absurd hq hqne
  | gathering =>
    have hp := hput rfl
    simp only [MainState.toPut] at hp
    have hq0 := (hlate (.inr rfl)).1
    have hn : n = 0 := by
      rw [hq0] at hq
      have := congrArg List.length hq
      simp at this
      omega
    dsimp only at hmain
    split at hmain
    · cases hmain
    · rename_i hg
      have := gather_all (ws := ws) (by omega)
      obtain ⟨x, y, hx⟩ := this
      rw [hx] at hg; cases hg
  | refreshing k i d =>
    have := hstuck (.refreshed true)
    simp [bulkStep] at this
  | returned i d => exact .inr ⟨i, d, rfl⟩
  | raised => exact .inl rfl

end
end Splitgill
