import Verif.Proof.Bulk
/-!
# Lemmas: the invariant of the bulk writer
-/

namespace Splitgill

section
variable {α : Type} {isDelete : α → Bool} {chunks : List (NumChunk α)} {N cap : Nat}

theorem BulkInv.start (isDelete : α → Bool) (chunks : List (List α)) (N : Nat) :
    BulkInv isDelete (numberFrom 0 chunks) N (bulkStart chunks N) := by
  have h1 : ∀ n, heldAll (List.replicate n (WorkerState.idle (α := α) 0 0)) = [] := by
    intro n; induction n with
    | zero => rfl
    | succ n ih => simp only [List.replicate_succ, heldAll, List.flatMap_cons] at *; rw [ih]; rfl
  have h2 : ∀ n, dones (List.replicate n (WorkerState.idle (α := α) 0 0)) = 0 := by
    intro n; simp [dones, WorkerState.isDone]
  refine ⟨by simp [bulkStart], ⟨[], by simp [bulkStart, BulkState.tasks, MainState.rest, h1, okLog], fun _ => rfl⟩, ?_,
    ⟨[], 0, rfl, fun _ => rfl, fun _ => ?_⟩, ?_, ?_, ?_, ?_, ?_, ?_, ?_, ?_, ?_⟩
  · simp [bulkStart, h1]
  · simp [bulkStart, MainState.toPut, h2]
  · intro h; simp [bulkStart] at h
  · rintro (h | h) <;> simp [bulkStart] at h
  · rintro i d (h | ⟨n, h⟩) <;> simp [bulkStart] at h
  · intro _; simp [bulkStart, sumIndexed, sumDeleted, WorkerState.indexed, WorkerState.deleted, okLog]
  · rintro ⟨x, hx, _⟩; simp [bulkStart] at hx
  · intro c _; simp [bulkStart, requests]
  · intro c a i d hm
    simp [bulkStart] at hm
  · intro k; simp [bulkStart, requests, timeouts]
  · intro k hk; simp [bulkStart, timeouts, bulkRetries] at hk

theorem filterMap_snoc (q : List (Option (NumChunk α))) (x : Option (NumChunk α)) :
    (q ++ [x]).filterMap id = q.filterMap id ++ x.toList := by
  rw [List.filterMap_append]; cases x <;> rfl

theorem BulkInv.main {s s' : BulkState α} (h : BulkInv isDelete chunks N s) (hs : mainStep cap s = some s') :
    BulkInv isDelete chunks N s' := by
  obtain ⟨m, q, u, ws, log, rf⟩ := s
  obtain ⟨hlen, ⟨lost, htask, hlost⟩, hunf, ⟨cs, n, hq, hcs, hput⟩, hrf, hlate, htot, hcnt, herr, hfresh, hsend, hbound, htimed⟩ := h
  dsimp only at *
  unfold mainStep at hs
  dsimp only at hs
  split at hs
  · -- no more chunks
    cases hs
    have hl := hlost rfl
    have hrf' : rf = false := by cases rf with | false => rfl | true => exact absurd (hrf rfl) (by simp [MainState.isLate])
    refine ⟨hlen, ⟨[], ?_, fun _ => rfl⟩, hunf, ⟨cs, n, hq, hcs, fun _ => ?_⟩, ?_, ?_, ?_, hcnt, herr, ?_, hsend, hbound, htimed⟩
    · simpa [BulkState.tasks, hl, MainState.rest] using htask
    · have := hput rfl
      simpa [MainState.toPut, hlen] using this
    · intro h'; simp [hrf'] at h'
    · rintro (h' | h')
      · simp [hrf'] at h'
      · cases h'
    · rintro i d (h' | ⟨n, h'⟩) <;> cases h'
    · intro c hc
      exact hfresh c (by simpa [MainState.rest] using hc)
  · -- a chunk
    rename_i c rest
    split at hs
    · cases hs
    · have hl := hlost rfl
      have hp := hput rfl
      have hrf' : rf = false := by cases rf with | false => rfl | true => exact absurd (hrf rfl) (by simp [MainState.isLate])
      simp only [MainState.toPut] at hp
      have hn : n = 0 := by omega
      have hd : dones ws = 0 := by omega
      subst hn
      have hq' : q = cs.map some := by simpa using hq
      have hshape : q ++ [some c] = (cs ++ [c]).map some ++ List.replicate 0 none := by simp [hq']
      split at hs <;> cases hs
      · refine ⟨hlen, ⟨rest, ?_, fun h' => by simp [MainState.isRaised] at h'⟩, ?_, ⟨cs ++ [c], 0, hshape, fun h' => ?_,
          fun h' => by simp [MainState.isRaised] at h'⟩, ?_, ?_, ?_, hcnt, herr, ?_, hsend, hbound, htimed⟩
        · refine List.Perm.trans ?_ htask
          classical
          rw [List.perm_iff_count]
          intro a
          simp only [BulkState.tasks, hl, MainState.rest, filterMap_snoc, Option.toList, List.count_append, List.count_cons,
            List.count_nil, List.nil_append, List.append_nil]
          omega
        · simp only [List.length_append, List.length_singleton, hunf]; omega
        · dsimp only at h'; omega
        · intro h'; rfl
        · rintro (h' | h')
          · simp [hrf'] at h'
          · cases h'
        · rintro i d (h' | ⟨n, h'⟩) <;> cases h'
        · intro x hx
          refine hfresh x ?_
          simp only [MainState.rest, List.nil_append, filterMap_snoc, List.mem_append, Option.toList, List.mem_singleton] at hx ⊢
          rcases hx with hx | hx
          · exact .inr hx
          · exact .inl (by rw [hx]; exact List.mem_cons_self)
      · refine ⟨hlen, ⟨[], ?_, fun _ => rfl⟩, ?_, ⟨cs ++ [c], 0, hshape, fun h' => ?_, fun _ => ?_⟩, ?_, ?_, ?_, hcnt, herr, ?_, hsend, hbound, htimed⟩
        · refine List.Perm.trans ?_ htask
          classical
          rw [List.perm_iff_count]
          intro a
          simp only [BulkState.tasks, hl, MainState.rest, filterMap_snoc, Option.toList, List.count_append, List.count_cons,
            List.count_nil, List.append_nil]
          omega
        · simp only [List.length_append, List.length_singleton, hunf]; omega
        · dsimp only at h'; omega
        · simp only [MainState.toPut]; omega
        · intro h'; simp [hrf'] at h'
        · rintro (h' | h')
          · simp [hrf'] at h'
          · cases h'
        · rintro i d (h' | ⟨n, h'⟩) <;> cases h'
        · intro x hx
          refine hfresh x ?_
          simp only [MainState.rest, filterMap_snoc, List.mem_append, Option.toList, List.mem_singleton] at hx ⊢
          rcases hx with hx | hx | hx
          · exact .inl (List.mem_cons_of_mem _ hx)
          · exact .inr hx
          · exact .inl (by rw [hx]; exact List.mem_cons_self)
  · -- all markers put
    cases hs
    have hrf' : rf = false := by cases rf with | false => rfl | true => exact absurd (hrf rfl) (by simp [MainState.isLate])
    refine ⟨hlen, ⟨lost, htask, fun _ => hlost rfl⟩, hunf, ⟨cs, n, hq, hcs, fun _ => hput rfl⟩, ?_, ?_, ?_, hcnt, herr, hfresh, hsend, hbound, htimed⟩
    · intro h'; simp [hrf'] at h'
    · rintro (h' | h')
      · simp [hrf'] at h'
      · cases h'
    · rintro i d (h' | ⟨n, h'⟩) <;> cases h'
  · -- a marker
    rename_i k
    split at hs
    · cases hs
    · cases hs
      have hrf' : rf = false := by cases rf with | false => rfl | true => exact absurd (hrf rfl) (by simp [MainState.isLate])
      refine ⟨hlen, ⟨lost, ?_, fun _ => hlost rfl⟩, ?_, ⟨cs, n + 1, ?_, hcs, fun _ => ?_⟩, ?_, ?_, ?_, hcnt, herr, ?_, hsend, hbound, htimed⟩
      · simpa [BulkState.tasks, MainState.rest, filterMap_snoc] using htask
      · simp only [List.length_append, List.length_singleton, hunf]; omega
      · dsimp only
        rw [hq, List.append_assoc, List.replicate_succ']
      · have := hput rfl
        simp only [MainState.toPut] at this ⊢
        omega
      · intro h'; simp [hrf'] at h'
      · rintro (h' | h')
        · simp [hrf'] at h'
        · cases h'
      · rintro i d (h' | ⟨n, h'⟩) <;> cases h'
      · intro x hx
        exact hfresh x (by simpa [MainState.rest, filterMap_snoc] using hx)
  · -- join
    have hrf' : rf = false := by cases rf with | false => rfl | true => exact absurd (hrf rfl) (by simp [MainState.isLate])
    split at hs
    · rename_i hu
      have hu0 : q.length = 0 ∧ (heldAll ws).length = 0 := by omega
      split at hs <;> cases hs
      · rename_i hf
        exact absurd (List.length_eq_zero_iff.1 hu0.2) (held_of_failed hf)
      · refine ⟨hlen, ⟨lost, htask, fun _ => hlost rfl⟩, hunf, ⟨cs, n, hq, hcs, fun _ => hput rfl⟩, ?_, ?_, ?_, hcnt, herr, hfresh, hsend, hbound, htimed⟩
        · intro h'; simp [hrf'] at h'
        · intro _; exact ⟨List.length_eq_zero_iff.1 hu0.1, List.length_eq_zero_iff.1 hu0.2⟩
        · rintro i d (h' | ⟨n, h'⟩) <;> cases h'
    · cases hs
  · -- gather
    split at hs
    · rename_i i d hg
      cases hs
      refine ⟨hlen, ⟨lost, htask, fun _ => hlost rfl⟩, hunf, ⟨cs, n, hq, hcs, fun _ => hput rfl⟩, ?_, ?_, ?_, hcnt, herr, hfresh, hsend, hbound, htimed⟩
      · intro _; rfl
      · intro _; exact hlate (.inr rfl)
      · rintro i' d' (h' | ⟨n, h'⟩)
        · cases h'
        · cases h'; exact ⟨rfl, hg⟩
    · cases hs
  · cases hs
  · cases hs
  · cases hs

theorem BulkInv.mainRaises {s s' : BulkState α} (h : BulkInv isDelete chunks N s)
    (hs : bulkStep isDelete cap s .mainRaises = some s') : BulkInv isDelete chunks N s' := by
  obtain ⟨m, q, u, ws, log, rf⟩ := s
  obtain ⟨hlen, ⟨lost, htask, hlost⟩, hunf, ⟨cs, n, hq, hcs, hput⟩, hrf, hlate, htot, hcnt, herr, hfresh, hsend, hbound, htimed⟩ := h
  dsimp only at *
  unfold bulkStep at hs
  dsimp only at hs
  split at hs
  · rename_i rest
    cases hs
    have hl := hlost rfl
    have hrf' : rf = false := by cases rf with | false => rfl | true => exact absurd (hrf rfl) (by simp [MainState.isLate])
    refine ⟨hlen, ⟨rest, ?_, fun h' => by simp [MainState.isRaised] at h'⟩, hunf, ⟨cs, n, hq, hcs,
      fun h' => by simp [MainState.isRaised] at h'⟩, fun _ => rfl, ?_, ?_, hcnt, herr, ?_, hsend, hbound, htimed⟩
    · refine List.Perm.trans ?_ htask
      classical
      rw [List.perm_iff_count]
      intro a
      simp only [BulkState.tasks, hl, MainState.rest, List.count_append, List.nil_append, List.append_nil]
      omega
    · rintro (h' | h')
      · simp [hrf'] at h'
      · cases h'
    · rintro i d (h' | ⟨n, h'⟩) <;> cases h'
    · intro x hx
      exact hfresh x (List.mem_append_right _ (by simpa [MainState.rest] using hx))
  · cases hs

theorem BulkInv.refresh {s s' : BulkState α} (h : BulkInv isDelete chunks N s) {ok : Bool}
    (hs : bulkStep isDelete cap s (.refreshed ok) = some s') : BulkInv isDelete chunks N s' := by
  obtain ⟨m, q, u, ws, log, rf⟩ := s
  obtain ⟨hlen, ⟨lost, htask, hlost⟩, hunf, ⟨cs, n, hq, hcs, hput⟩, hrf, hlate, htot, hcnt, herr, hfresh, hsend, hbound, htimed⟩ := h
  dsimp only at *
  unfold bulkStep at hs
  dsimp only at hs
  split at hs
  · rename_i k i d
    have ht := htot i d (.inr ⟨k, rfl⟩)
    have hl := hlate (.inl ht.1)
    split at hs
    · cases hs
      refine ⟨hlen, ⟨lost, htask, fun _ => hlost rfl⟩, hunf, ⟨cs, n, hq, hcs, fun _ => hput rfl⟩, fun _ => rfl, fun _ => hl, ?_, hcnt, herr, hfresh, hsend, hbound, htimed⟩
      rintro i' d' (h' | ⟨n, h'⟩)
      · cases h'; exact ht
      · cases h'
    · split at hs
      · cases hs
        refine ⟨hlen, ⟨lost, htask, fun _ => hlost rfl⟩, hunf, ⟨cs, n, hq, hcs, fun _ => hput rfl⟩, fun _ => rfl, fun _ => hl, ?_, hcnt, herr, hfresh, hsend, hbound, htimed⟩
        rintro i' d' (h' | ⟨n, h'⟩) <;> cases h'
      · cases hs
        refine ⟨hlen, ⟨lost, htask, fun _ => hlost rfl⟩, hunf, ⟨cs, n, hq, hcs, fun _ => hput rfl⟩, fun _ => rfl, fun _ => hl, ?_, hcnt, herr, hfresh, hsend, hbound, htimed⟩
        rintro i' d' (h' | ⟨n, h'⟩)
        · cases h'
        · cases h'; exact ht
  · cases hs

theorem BulkInv.get {s s' : BulkState α} (h : BulkInv isDelete chunks N s) (hnd : (chunks.map Prod.fst).Nodup) {w : Nat}
    (hs : bulkStep isDelete cap s (.get w) = some s') : BulkInv isDelete chunks N s' := by
  obtain ⟨m, q, u, ws, log, rf⟩ := s
  obtain ⟨hlen, ⟨lost, htask, hlost⟩, hunf, ⟨cs, n, hq, hcs, hput⟩, hrf, hlate, htot, hcnt, herr, hfresh, hsend, hbound, htimed⟩ := h
  dsimp only at *
  unfold bulkStep at hs
  dsimp only at hs
  split at hs
  · -- a chunk
    rename_i i d c q' hw
    cases hs
    obtain ⟨l, r, e1, e2⟩ := workers_split hw (.sending c 0 i d)
    subst e1
    rw [e2]
    have hl' : ¬ (rf = true ∨ m = .gathering) := by
      intro h'; have := (hlate h').1; cases this
    obtain ⟨cs', rfl⟩ : ∃ cs', cs = c :: cs' := by
      cases cs with
      | nil =>
        cases n with
        | zero => simp at hq
        | succ n => simp [List.replicate_succ] at hq
      | cons c' cs' =>
        simp only [List.map_cons, List.cons_append, List.cons.injEq, Option.some.injEq] at hq
        exact ⟨cs', by rw [hq.1]⟩
    simp only [List.map_cons, List.cons_append, List.cons.injEq, true_and] at hq
    have hd0 : dones (l ++ WorkerState.idle i d :: r) = 0 := by
      by_contra hne
      have := hcs (by omega)
      cases this
    rw [dones_split] at hd0 hput
    refine ⟨by simpa using hlen, ⟨lost, ?_, hlost⟩, ?_, ⟨cs', n, hq, fun h' => ?_, fun h' => ?_⟩, hrf, fun h' => absurd h' hl', ?_, ?_, ?_, ?_, ?_, hbound, ?_⟩
    · refine List.Perm.trans ?_ htask
      classical
      rw [List.perm_iff_count]
      intro a
      simp only [BulkState.tasks, heldAll_split, WorkerState.held, List.count_append, List.count_cons,
        List.count_nil, List.filterMap_cons, id, List.nil_append]
      omega
    · dsimp only
      simp only [heldAll_split, WorkerState.held, List.length_append, List.length_cons, List.length_nil] at hunf ⊢
      omega
    · dsimp only at h'
      rw [dones_split] at h'
      simp only [WorkerState.isDone] at h' hd0
      omega
    · have := hput h'
      dsimp only
      rw [dones_split]
      simp only [WorkerState.isDone] at this ⊢
      omega
    · intro i' d' h'
      obtain ⟨t1, t2⟩ := htot i' d' h'
      exact absurd (.inl t1) hl'
    · intro h'
      dsimp only at h'
      rw [anyFailed_split] at h' hcnt
      have := hcnt (by simpa [WorkerState.hasFailed] using h')
      simpa [sumIndexed_split, sumDeleted_split, WorkerState.indexed, WorkerState.deleted] using this
    · intro h'
      have := herr h'
      dsimp only
      rw [anyFailed_split] at this ⊢
      simpa [WorkerState.hasFailed] using this
    · intro x hx
      refine hfresh x ?_
      dsimp only at hx
      rcases List.mem_append.1 hx with hx | hx
      · exact List.mem_append_left _ hx
      · exact List.mem_append_right _ (by simp only [List.filterMap_cons, id]; exact List.mem_cons_of_mem _ hx)
    · intro c' a' i' d' hm'
      dsimp only at hm'
      rcases List.mem_append.1 hm' with hm' | hm'
      · exact hsend c' a' i' d' (List.mem_append_left _ hm')
      · rcases List.mem_cons.1 hm' with hm' | hm'
        · cases hm'
          have h0 : requests log c.1 = 0 := hfresh c (List.mem_append_right _ (by
            simp only [List.filterMap_cons, id]
            exact List.mem_cons_self))
          have := timeouts_le log c.1
          exact ⟨Nat.zero_le _, h0, by dsimp only; omega⟩
        · exact hsend c' a' i' d' (List.mem_append_right _ (List.mem_cons_of_mem _ hm'))
    · intro k hk
      have := htimed k hk
      dsimp only
      rw [anyFailed_split] at this ⊢
      simpa [WorkerState.hasFailed] using this
  · -- a marker
    rename_i i d q' hw
    cases hs
    obtain ⟨l, r, e1, e2⟩ := workers_split hw (.done i d)
    subst e1
    rw [e2]
    have hl' : ¬ (rf = true ∨ m = .gathering) := by
      intro h'; have := (hlate h').1; cases this
    have hcs0 : cs = [] := by
      cases cs with
      | nil => rfl
      | cons c' cs' => simp at hq
    subst hcs0
    obtain ⟨n', rfl⟩ : ∃ n', n = n' + 1 := by
      cases n with
      | zero => simp at hq
      | succ n => exact ⟨n, rfl⟩
    simp only [List.map_nil, List.nil_append, List.replicate_succ, List.cons.injEq, true_and] at hq
    rw [dones_split] at hput
    refine ⟨by simpa using hlen, ⟨lost, ?_, hlost⟩, ?_, ⟨[], n', by simpa using hq, fun h' => rfl, fun h' => ?_⟩, hrf, fun h' => absurd h' hl', ?_, ?_, ?_, ?_, ?_, hbound, ?_⟩
    · refine List.Perm.trans ?_ htask
      simp [BulkState.tasks, heldAll_split, WorkerState.held]
    · dsimp only
      simp only [heldAll_split, WorkerState.held, List.length_append, List.length_cons, List.length_nil] at hunf ⊢
      omega
    · have := hput h'
      dsimp only
      rw [dones_split]
      simp only [WorkerState.isDone] at this ⊢
      omega
    · intro i' d' h'
      obtain ⟨t1, t2⟩ := htot i' d' h'
      exact absurd (.inl t1) hl'
    · intro h'
      dsimp only at h'
      rw [anyFailed_split] at h' hcnt
      have := hcnt (by simpa [WorkerState.hasFailed] using h')
      simpa [sumIndexed_split, sumDeleted_split, WorkerState.indexed, WorkerState.deleted] using this
    · intro h'
      have := herr h'
      dsimp only
      rw [anyFailed_split] at this ⊢
      simpa [WorkerState.hasFailed] using this
    · intro x hx
      exact hfresh x (by simpa using hx)
    · intro c' a' i' d' hm'
      dsimp only at hm'
      rcases List.mem_append.1 hm' with hm' | hm'
      · exact hsend c' a' i' d' (List.mem_append_left _ hm')
      · rcases List.mem_cons.1 hm' with hm' | hm'
        · cases hm'
        · exact hsend c' a' i' d' (List.mem_append_right _ (List.mem_cons_of_mem _ hm'))
    · intro k hk
      have := htimed k hk
      dsimp only
      rw [anyFailed_split] at this ⊢
      simpa [WorkerState.hasFailed] using this
  · cases hs

/-- How a worker can go on. -/
theorem workerResponse_cases (isDelete : α → Bool) (c : NumChunk α) (a i d : Nat) {resp : BulkResp}
    (hfit : resp.fits c.2 = true) :
    (resp.isOk = true ∧ resp.isError = false ∧ resp.isTimeout = false ∧ workerResponse isDelete c a i d resp =
      (.idle (i + c.2.countP (fun op => !isDelete op)) (d + c.2.countP isDelete), true)) ∨
    (resp.isOk = false ∧ resp.isError = false ∧ resp.isTimeout = true ∧ a < bulkRetries ∧
      workerResponse isDelete c a i d resp = (.sending c (a + 1) i d, false)) ∨
    (resp.isOk = false ∧ workerResponse isDelete c a i d resp = (.failed c, false)) := by
  cases resp with
  | items errors =>
    cases he : errors.any id with
    | true => exact .inr (.inr ⟨by simp [BulkResp.isOk, he], by simp [workerResponse, he]⟩)
    | false =>
      refine .inl ⟨by simp [BulkResp.isOk, he], by simp [BulkResp.isError, he], rfl, ?_⟩
      simp only [workerResponse, he, Bool.false_eq_true, if_false]
      have hl : errors.length = c.2.length := by simpa [BulkResp.fits] using hfit
      rw [countItems_ok hl he, countItems_ok hl he]
      have e1 : (fun op => isDelete op == false) = fun op => !isDelete op := by funext op; cases isDelete op <;> rfl
      have e2 : (fun op => isDelete op == true) = isDelete := by funext op; cases isDelete op <;> rfl
      rw [e1, e2]
  | timeout l =>
    by_cases ha : a < bulkRetries
    · exact .inr (.inl ⟨rfl, rfl, rfl, ha, by simp [workerResponse, ha]⟩)
    · exact .inr (.inr ⟨rfl, by simp [workerResponse, ha]⟩)
  | exception l => exact .inr (.inr ⟨rfl, rfl⟩)

set_option maxHeartbeats 1000000 in
theorem BulkInv.response {s s' : BulkState α} (h : BulkInv isDelete chunks N s) (hnd : (chunks.map Prod.fst).Nodup) {w : Nat}
    {resp : BulkResp} (hs : bulkStep isDelete cap s (.response w resp) = some s') : BulkInv isDelete chunks N s' := by
  obtain ⟨m, q, u, ws, log, rf⟩ := s
  obtain ⟨hlen, ⟨lost, htask, hlost⟩, hunf, ⟨cs, n, hq, hcs, hput⟩, hrf, hlate, htot, hcnt, herr, hfresh, hsend, hbound, htimed⟩ := h
  dsimp only at *
  unfold bulkStep at hs
  dsimp only at hs
  split at hs
  swap
  · cases hs
  rename_i c a i d hw
  split at hs
  swap
  · cases hs
  rename_i hfit
  have hc := workerResponse_cases isDelete c a i d hfit
  generalize hst : workerResponse isDelete c a i d resp = res at hs hc
  obtain ⟨st, td⟩ := res
  dsimp only at hs
  cases hs
  obtain ⟨l, r, e1, e2⟩ := workers_split hw st
  subst e1
  rw [e2]
  have hl' : ¬ (rf = true ∨ m = .gathering) := by
    intro h'; have := (hlate h').2; rw [heldAll_split] at this; simp [WorkerState.held] at this
  obtain ⟨ha, hreq, hto⟩ := hsend c a i d (by simp)
  -- the numbers of the other chunks are others
  have hnum : ((BulkState.tasks ⟨m, q, u, l ++ .sending c a i d :: r, log, rf⟩ ++ lost).map Prod.fst).Nodup :=
    (htask.map _).nodup_iff.2 hnd
  have hperm : (BulkState.tasks ⟨m, q, u, l ++ .sending c a i d :: r, log, rf⟩ ++ lost).Perm
      (c :: ((m.rest ++ q.filterMap id) ++ (heldAll l ++ heldAll r) ++ (okLog log ++ lost))) := by
    classical
    rw [List.perm_iff_count]
    intro x
    simp only [BulkState.tasks, heldAll_split, WorkerState.held, List.count_append, List.count_cons, List.count_nil]
    omega
  have hnum2 := (hperm.map Prod.fst).nodup_iff.1 hnum
  rw [List.map_cons, List.nodup_cons] at hnum2
  have hother : ∀ x, x ∈ m.rest ++ q.filterMap id ∨ x ∈ heldAll l ∨ x ∈ heldAll r → x.1 ≠ c.1 := by
    intro x hx e
    refine hnum2.1 ?_
    rw [← e]
    refine List.mem_map_of_mem ?_
    rcases hx with hx | hx | hx
    · exact List.mem_append_left _ (List.mem_append_left _ hx)
    · exact List.mem_append_left _ (List.mem_append_right _ (List.mem_append_left _ hx))
    · exact List.mem_append_left _ (List.mem_append_right _ (List.mem_append_right _ hx))
  have hheld : ∀ (ws : List (WorkerState α)) c' a' i' d', WorkerState.sending c' a' i' d' ∈ ws → c' ∈ heldAll ws := by
    intro ws c' a' i' d' hm
    exact List.mem_flatMap.2 ⟨_, hm, by simp [WorkerState.held]⟩
  have hmem' : ∀ c' a' i' d', WorkerState.sending c' a' i' d' ∈ l ∨ WorkerState.sending c' a' i' d' ∈ r →
      a' ≤ bulkRetries ∧ requests (log ++ [(c, resp)]) c'.1 = a' ∧ timeouts (log ++ [(c, resp)]) c'.1 = a' := by
    intro c' a' i' d' hm
    have hne : c'.1 ≠ c.1 := hother c' (.inr (hm.imp (hheld l c' a' i' d') (hheld r c' a' i' d')))
    have := hsend c' a' i' d' (by
      rcases hm with hm | hm
      · exact List.mem_append_left _ hm
      · exact List.mem_append_right _ (List.mem_cons_of_mem _ hm))
    rw [requests_append, if_neg (fun e => hne e.symm), timeouts_append, if_neg (fun e => hne e.1.symm)]
    exact this
  have hbound' : ∀ k, requests (log ++ [(c, resp)]) k ≤ bulkRetries + 1 ∧
      requests (log ++ [(c, resp)]) k ≤ timeouts (log ++ [(c, resp)]) k + 1 := by
    intro k
    rw [requests_append, timeouts_append]
    by_cases hk : c.1 = k
    · subst hk; rw [hreq, if_pos rfl, hto]; omega
    · rw [if_neg hk, if_neg (fun e => hk e.1)]; have := hbound k; omega
  have hfresh' : ∀ x ∈ m.rest ++ q.filterMap id, requests (log ++ [(c, resp)]) x.1 = 0 := by
    intro x hx
    rw [requests_append, if_neg (fun e => hother x (.inl hx) e.symm)]
    exact hfresh x hx
  have hdones : st.isDone = 0 := by
    rcases hc with ⟨_, _, _, e⟩ | ⟨_, _, _, _, e⟩ | ⟨_, e⟩ <;> cases e <;> rfl
  rw [dones_split] at hput hcs
  refine ⟨by simpa using hlen, ⟨lost, ?_, hlost⟩, ?_, ⟨cs, n, hq, fun h' => hcs ?_, fun h' => ?_⟩, hrf, fun h' => absurd h' hl', ?_, ?_, ?_, hfresh', ?_, hbound', ?_⟩
  · refine List.Perm.trans ?_ htask
    classical
    rw [List.perm_iff_count]
    intro x
    rcases hc with ⟨ho, _, _, e⟩ | ⟨ho, _, _, _, e⟩ | ⟨ho, e⟩ <;> cases e <;>
      simp only [BulkState.tasks, heldAll_split, WorkerState.held, List.count_append, List.count_cons, List.count_nil,
        okLog_append, ho, if_true, Bool.false_eq_true, if_false] <;> omega
  · rcases hc with ⟨ho, _, _, e⟩ | ⟨ho, _, _, _, e⟩ | ⟨ho, e⟩ <;> cases e <;>
      simp only [heldAll_split, WorkerState.held, List.length_append, List.length_cons, List.length_nil, if_true,
        Bool.false_eq_true, if_false] at hunf ⊢ <;> omega
  · dsimp only at h'
    rw [dones_split, hdones] at h'
    simp only [WorkerState.isDone]; omega
  · have := hput h'
    dsimp only
    rw [dones_split, hdones]
    simp only [WorkerState.isDone] at this; omega
  · intro i' d' h'
    obtain ⟨t1, t2⟩ := htot i' d' h'
    exact absurd (.inl t1) hl'
  · intro h'
    dsimp only at h' ⊢
    rw [anyFailed_split] at h' hcnt
    rcases hc with ⟨ho, _, _, e⟩ | ⟨ho, _, _, _, e⟩ | ⟨ho, e⟩ <;> cases e
    · have := hcnt (by simpa [WorkerState.hasFailed] using h')
      simp only [sumIndexed_split, sumDeleted_split, WorkerState.indexed, WorkerState.deleted, okLog_append, ho, if_true,
        List.flatMap_append, List.flatMap_cons, List.flatMap_nil, List.append_nil, List.countP_append] at this ⊢
      omega
    · have := hcnt (by simpa [WorkerState.hasFailed] using h')
      simp only [sumIndexed_split, sumDeleted_split, WorkerState.indexed, WorkerState.deleted, okLog_append, ho,
        Bool.false_eq_true, if_false, List.append_nil] at this ⊢
      exact this
    · simp [WorkerState.hasFailed] at h'
  · rintro ⟨x, hx, hxe⟩
    dsimp only at hx ⊢
    rw [anyFailed_split] at herr ⊢
    rcases List.mem_append.1 hx with hx | hx
    · have := herr ⟨x, hx, hxe⟩
      simp only [WorkerState.hasFailed, Bool.false_or] at this
      rw [Bool.or_eq_true] at this ⊢
      rcases this with h | h
      · exact .inl h
      · exact .inr (by rw [h, Bool.or_true])
    · rw [List.mem_singleton] at hx
      subst hx
      dsimp only at hxe
      rcases hc with ⟨ho, he, _, e⟩ | ⟨ho, he, _, _, e⟩ | ⟨ho, e⟩
      · rw [he] at hxe; cases hxe
      · rw [he] at hxe; cases hxe
      · cases e; simp [WorkerState.hasFailed]
  · intro c' a' i' d' hm'
    dsimp only at hm' ⊢
    rcases List.mem_append.1 hm' with hm' | hm'
    · exact hmem' c' a' i' d' (.inl hm')
    · rcases List.mem_cons.1 hm' with hm' | hm'
      · rcases hc with ⟨ho, _, _, e⟩ | ⟨ho, _, ht, hlt, e⟩ | ⟨ho, e⟩ <;> cases e <;> cases hm'
        refine ⟨hlt, ?_, ?_⟩
        · rw [requests_append, if_pos rfl, hreq]
        · rw [timeouts_append, if_pos ⟨rfl, ht⟩, hto]
      · exact hmem' c' a' i' d' (.inr hm')
  · intro k hk
    dsimp only at hk ⊢
    rw [anyFailed_split] at htimed ⊢
    rw [timeouts_append] at hk
    by_cases hck : c.1 = k ∧ resp.isTimeout = true
    · rw [if_pos hck] at hk
      rcases hc with ⟨_, _, ht, _⟩ | ⟨_, _, _, hlt, _⟩ | ⟨_, e⟩
      · rw [ht] at hck; cases hck.2
      · have := timeouts_le log k
        rw [← hck.1, hreq] at this
        rw [← hck.1] at hk
        omega
      · cases e; simp [WorkerState.hasFailed]
    · rw [if_neg hck] at hk
      have := htimed k hk
      simp only [WorkerState.hasFailed, Bool.false_or] at this
      rw [Bool.or_eq_true] at this ⊢
      rcases this with h | h
      · exact .inl h
      · exact .inr (by rw [h, Bool.or_true])

theorem BulkInv.step {s s' : BulkState α} (h : BulkInv isDelete chunks N s) (hnd : (chunks.map Prod.fst).Nodup) {a : BulkAction}
    (hs : bulkStep isDelete cap s a = some s') : BulkInv isDelete chunks N s' := by
  cases a with
  | main => exact h.main hs
  | mainRaises => exact h.mainRaises hs
  | get w => exact h.get hnd hs
  | response w resp => exact h.response hnd hs
  | refreshed ok => exact h.refresh hs

theorem BulkInv.run : ∀ (as : List BulkAction) {s s' : BulkState α}, BulkInv isDelete chunks N s →
    (chunks.map Prod.fst).Nodup → bulkRun isDelete cap s as = some s' → BulkInv isDelete chunks N s'
  | [], s, s', h, _, hr => by cases hr; exact h
  | a :: as, s, s', h, hnd, hr => by
    unfold bulkRun at hr
    split at hr
    · rename_i s1 h1
      exact BulkInv.run as (h.step hnd h1) hnd hr
    · cases hr

theorem numberFrom_spec : ∀ (n : Nat) (cs : List (List α)), (numberFrom n cs).map Prod.snd = cs ∧
    ((numberFrom n cs).map Prod.fst).Nodup ∧ ∀ k ∈ (numberFrom n cs).map Prod.fst, n ≤ k
  | n, [] => by simp [numberFrom]
  | n, c :: cs => by
    obtain ⟨h1, h2, h3⟩ := numberFrom_spec (n + 1) cs
    refine ⟨by simp [numberFrom, h1], ?_, ?_⟩
    · simp only [numberFrom, List.map_cons, List.nodup_cons]
      exact ⟨fun hm => by have := h3 n hm; omega, h2⟩
    · intro k hk
      simp only [numberFrom, List.map_cons, List.mem_cons] at hk
      rcases hk with rfl | hk
      · exact Nat.le_refl _
      · have := h3 k hk; omega

end
end Splitgill
