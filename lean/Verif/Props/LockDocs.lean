import Verif.Proof.LockDocs
/-!
# C91: a lock is taken, described and freed as its users see it

Any number of processes call any methods of `LockManager` in any order. `holder id log` is, from the calls and how they ended alone, the
document of the last call that took the lock, if nobody has freed it since.
-/

namespace Splitgill.Props

/-- `get_metadata` returns the document of whoever took the lock last, and `None` if it has been freed since (or was never taken);
`is_locked` says whether there is one. -/
theorem C91_metadata (calls : List (Nat × LockCall)) (p : Nat) (id : PyStr) :
    ((LockCall.metadata id).run (runLocks calls).2).1 = .doc (holder id (runLocks calls).1) ∧
    ((LockCall.isLocked id).run (runLocks calls).2).1 = .answer (holder id (runLocks calls).1).isSome ∧
    (runLocks (calls ++ [(p, .metadata id)])).2 = (runLocks calls).2 ∧
    (runLocks (calls ++ [(p, .isLocked id)])).2 = (runLocks calls).2 := by
  have h := (runLocks_inv calls).2 id
  simp only [runLocks_snoc]
  refine ⟨?_, ?_, rfl, rfl⟩
  · simp only [LockCall.run, h]
  · simp only [LockCall.run, lockIsLocked, h]

/-- `acquire` and entering a `with` block take the lock exactly when nobody has it: then the document has the id, the time, the host and, if
there are any, the keyword arguments. When somebody has it, nothing changes: `acquire` returns `False`, or raises if it should; the block is
not entered. -/
theorem C91_acquire (calls : List (Nat × LockCall)) (id : PyStr) (r : Bool) (t : Int) (h : PyStr) (k : Dict) :
    (holder id (runLocks calls).1 = none →
      ((LockCall.acquire id r t h k).run (runLocks calls).2).1 = .answer true ∧
      ((LockCall.enter id t h k).run (runLocks calls).2).1 = .returned ∧
      ∀ x ∈ [LockCall.acquire id r t h k, .enter id t h k], ∀ p, holder id (runLocks (calls ++ [(p, x)])).1 =
        some { lockId := id, lockedAt := t, lockedBy := h, data := if k = [] then none else some k }) ∧
    (holder id (runLocks calls).1 ≠ none →
      ((LockCall.acquire id r t h k).run (runLocks calls).2).1 = (if r then .alreadyLocked else .answer false) ∧
      ((LockCall.enter id t h k).run (runLocks calls).2).1 = .alreadyLocked ∧
      ∀ x ∈ [LockCall.acquire id r t h k, .enter id t h k], ∀ p, (runLocks (calls ++ [(p, x)])).2 = (runLocks calls).2) := by
  obtain ⟨hn, hm⟩ := runLocks_inv calls
  have hm := hm id
  have A := acquireLock_eq id r t h k hn
  have B := acquireLock_eq id true t h k hn
  refine ⟨fun hf => ?_, fun hf => ?_⟩
  · rw [← hm] at hf
    rcases A with ⟨a, _⟩ | ⟨_, c', a, _, _⟩
    · exact absurd hf a
    rcases B with ⟨b, _⟩ | ⟨_, c'', b, _, _⟩
    · exact absurd hf b
    refine ⟨by simp only [LockCall.run, a], by simp only [LockCall.run, b], fun x hx p => ?_⟩
    simp only [List.mem_cons, List.not_mem_nil, or_false] at hx
    rw [runLocks_snoc]
    rcases hx with rfl | rfl
    · simp [LockCall.run, a, holder, LockCall.frees, LockEntry.took, lockDoc]
    · simp [LockCall.run, b, holder, LockCall.frees, LockEntry.took, lockDoc]
  · rw [← hm] at hf
    rcases A with ⟨_, a⟩ | ⟨a, _⟩
    swap
    · exact absurd a hf
    rcases B with ⟨_, b⟩ | ⟨b, _⟩
    swap
    · exact absurd b hf
    refine ⟨by cases r <;> simp [LockCall.run, a], by simp [LockCall.run, b], fun x hx p => ?_⟩
    simp only [List.mem_cons, List.not_mem_nil, or_false] at hx
    rw [runLocks_snoc]
    rcases hx with rfl | rfl
    · cases r <;> simp [LockCall.run, a]
    · simp [LockCall.run, b]

/-- After `release` and after the end of a block the lock is free; releasing a free lock is no error. No call changes anything for other
locks. -/
theorem C91_release (calls : List (Nat × LockCall)) (p : Nat) (id : PyStr) :
    (∀ x ∈ [LockCall.release id, .leave id], (x.run (runLocks calls).2).1 = .returned ∧
      lockMetadata id (runLocks (calls ++ [(p, x)])).2 = none) ∧
    (∀ other, other ≠ id → ∀ r t h k, ∀ x ∈ [LockCall.acquire id r t h k, .enter id t h k, .release id, .leave id],
      lockMetadata other (runLocks (calls ++ [(p, x)])).2 = lockMetadata other (runLocks calls).2) := by
  obtain ⟨hn, hm⟩ := runLocks_inv calls
  refine ⟨fun x hx => ?_, fun other ho r t h k x hx => ?_⟩
  · simp only [List.mem_cons, List.not_mem_nil, or_false] at hx
    rw [runLocks_snoc]
    rcases hx with rfl | rfl <;> simp [LockCall.run, lockMetadata_release hn]
  · rw [runLocks_snoc]
    simp only [List.mem_cons, List.not_mem_nil, or_false] at hx
    rcases hx with rfl | rfl | rfl | rfl
    · rcases acquireLock_eq id r t h k hn with ⟨_, a⟩ | ⟨_, c', a, _, b⟩
      · cases r <;> simp [LockCall.run, a]
      · simp [LockCall.run, a, b, ho.symm]
    · rcases acquireLock_eq id true t h k hn with ⟨_, a⟩ | ⟨_, c', a, _, b⟩
      · simp [LockCall.run, a]
      · simp [LockCall.run, a, b, ho.symm]
    · simp [LockCall.run, lockMetadata_release hn, ho.symm]
    · simp [LockCall.run, lockMetadata_release hn, ho.symm]

/-- As long as nobody calls `release(id)` by hand, at most one process is in a `with` block for `id`, and during all of it `get_metadata`
returns the document this process has put there. -/
theorem C91_blocks (calls : List (Nat × LockCall)) (id : PyStr) (hb : BlocksOk (runLocks calls).1)
    (hr : NotByHand id (runLocks calls).1) (p : Nat) (d : LockDoc) (h : inside p id (runLocks calls).1 = some d) :
    lockMetadata id (runLocks calls).2 = some d ∧ ∀ q, inside q id (runLocks calls).1 ≠ none → q = p := by
  rw [(runLocks_inv calls).2]
  exact inside_holds id calls hb hr h

/-- Process 0 enters a block, process 1 releases the lock by hand and enters its own block, process 0 leaves its block. -/
def exByHand : List (Nat × LockCall) :=
  [(0, .enter "l".toList 5 "a".toList []), (1, .release "l".toList), (1, .enter "l".toList 6 "b".toList []), (0, .leave "l".toList)]

/-- Without that condition it is false, and not only for the lock that was released by hand: the end of the block of process 0 takes away the
lock of process 1, which has done nothing to it. Process 1 is in its block and the lock is free for process 2. -/
theorem C91_by_hand_refuted :
    BlocksOk (runLocks exByHand).1 ∧ (inside 1 "l".toList (runLocks exByHand).1).isSome = true ∧
    lockMetadata "l".toList (runLocks exByHand).2 = none ∧
    inside 1 "l".toList (runLocks (exByHand ++ [(2, .enter "l".toList 7 "c".toList [])])).1 ≠ none ∧
    inside 2 "l".toList (runLocks (exByHand ++ [(2, .enter "l".toList 7 "c".toList [])])).1 ≠ none := by
  refine ⟨⟨?_, ?_, ?_, ?_, trivial⟩, by decide, by decide, by decide, by decide⟩
  · rintro id h; cases h; decide
  all_goals rintro id h; cases h

/-- Two locks, three processes: process 0 is in a block with data, process 1 fails, process 2 takes another lock, process 0 leaves and process 1
enters. -/
def exBlocks : List (Nat × LockCall) :=
  [(0, .enter "l".toList 5 "a".toList [("why".toList, .int 3)]), (1, .acquire "l".toList false 6 "b".toList []),
    (1, .enter "l".toList 7 "b".toList []), (2, .acquire "m".toList true 8 "c".toList []), (0, .leave "l".toList),
    (1, .enter "l".toList 9 "b".toList [])]

example : BlocksOk (runLocks exBlocks).1 ∧ NotByHand "l".toList (runLocks exBlocks).1 ∧
    inside 1 "l".toList (runLocks exBlocks).1 = some (lockDoc "l".toList 9 "b".toList []) ∧
    (runLocks exBlocks).1.map LockEntry.result = [.returned, .returned, .answer true, .alreadyLocked, .answer false, .returned] ∧
    lockMetadata "l".toList (runLocks (exBlocks.take 4)).2 =
      some ⟨"l".toList, 5, "a".toList, some [("why".toList, .int 3)]⟩ := by
  refine ⟨⟨?_, ?_, ?_, ?_, ?_, ?_, trivial⟩, ?_, by decide, by decide, by decide⟩
  · rintro id h; cases h
  · rintro id h; cases h; decide
  · rintro id h; cases h
  · rintro id h; cases h
  · rintro id h; cases h
  · rintro id h; cases h
  · intro e he
    have : (runLocks exBlocks).1.map LockEntry.call = (exBlocks.map Prod.snd).reverse := rfl
    have hm := this ▸ List.mem_map_of_mem (f := LockEntry.call) he
    simp only [exBlocks, List.map_cons, List.map_nil, List.reverse_cons, List.reverse_nil, List.nil_append, List.cons_append, List.mem_cons,
      List.not_mem_nil, or_false] at hm
    rcases hm with h | h | h | h | h | h <;> rw [h] <;> exact (nomatch ·)

end Splitgill.Props
