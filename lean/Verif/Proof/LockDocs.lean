import Verif.Spec.LockDocs
import Mathlib.Data.List.Nodup
import Mathlib.Data.List.Induction
/-!
# Lemmas: locks and their documents
-/

namespace Splitgill

theorem runLocks_snoc (calls : List (Nat × LockCall)) (p : Nat) (x : LockCall) :
    runLocks (calls ++ [(p, x)]) = (⟨p, x, (x.run (runLocks calls).2).1⟩ :: (runLocks calls).1, (x.run (runLocks calls).2).2) := by
  unfold runLocks
  rw [List.foldl_append]
  rfl

/-- The ids of the documents differ (the unique index). -/
def LockIds (c : List LockDoc) : Prop := (c.map LockDoc.lockId).Nodup

theorem lockMetadata_none {id : PyStr} {c : List LockDoc} : lockMetadata id c = none ↔ c.any (fun d => decide (d.lockId = id)) = false := by
  unfold lockMetadata
  rw [List.find?_eq_none, List.any_eq_false]

theorem lockMetadata_append {id : PyStr} {c : List LockDoc} {d : LockDoc} (h : c.any (fun x => decide (x.lockId = d.lockId)) = false) :
    lockMetadata id (c ++ [d]) = if d.lockId = id then some d else lockMetadata id c := by
  unfold lockMetadata
  rw [List.find?_append]
  split
  · rename_i he
    subst he
    have := lockMetadata_none.2 h
    unfold lockMetadata at this
    rw [this]
    simp
  · rename_i he
    simp [he]

theorem lockMetadata_release {id i : PyStr} : ∀ {c : List LockDoc}, LockIds c →
    lockMetadata id (releaseLock i c) = if i = id then none else lockMetadata id c
  | [], _ => by simp [lockMetadata, releaseLock]
  | d :: c, hn => by
    have hn' : d.lockId ∉ c.map LockDoc.lockId ∧ LockIds c := List.nodup_cons.1 hn
    have ih := lockMetadata_release (id := id) (i := i) hn'.2
    unfold releaseLock lockMetadata at ih ⊢
    by_cases hd : d.lockId = i
    · rw [List.eraseP_cons_of_pos (by simpa using hd)]
      by_cases hi : i = id
      · rw [if_pos hi, List.find?_eq_none]
        intro x hx
        simp only [decide_eq_true_eq]
        intro e
        exact hn'.1 (by rw [hd, hi, ← e]; exact List.mem_map_of_mem hx)
      · rw [if_neg hi, List.find?_cons_of_neg (by simpa [hd] using hi)]
    · rw [List.eraseP_cons_of_neg (by simpa using hd)]
      by_cases hx : d.lockId = id
      · rw [List.find?_cons_of_pos (by simpa using hx), List.find?_cons_of_pos (by simpa using hx), if_neg]
        rintro rfl; exact hd hx
      · rw [List.find?_cons_of_neg (by simpa using hx), List.find?_cons_of_neg (by simpa using hx)]
        exact ih

theorem lockIds_insert {c c' : List LockDoc} {d : LockDoc} (hn : LockIds c) (h : insertLock d c = some c') :
    LockIds c' ∧ ∀ id, lockMetadata id c' = if d.lockId = id then some d else lockMetadata id c := by
  unfold insertLock at h
  split at h
  · cases h
  · rename_i hx
    cases h
    have hx : c.any (fun x => decide (x.lockId = d.lockId)) = false := by simpa using hx
    refine ⟨?_, fun id => lockMetadata_append hx⟩
    unfold LockIds
    rw [List.map_append, List.map_singleton]
    refine List.Nodup.append hn (List.nodup_singleton _) ?_
    rw [List.disjoint_singleton]
    intro hm
    obtain ⟨x, h1, h2⟩ := List.mem_map.1 hm
    have := List.any_eq_false.1 hx x h1
    simp [h2] at this

theorem insertLock_none {c : List LockDoc} {d : LockDoc} : insertLock d c = none ↔ lockMetadata d.lockId c ≠ none := by
  unfold insertLock
  rw [ne_eq, lockMetadata_none]
  split
  · rename_i h; simp [h]
  · rename_i h; simp [h]

/-- What `acquire` does. -/
theorem acquireLock_eq (id : PyStr) (r : Bool) (t : Int) (h : PyStr) (k : Dict) {c : List LockDoc} (hn : LockIds c) :
    (lockMetadata id c ≠ none ∧ acquireLock id r t h k c = (if r then .error .alreadyLocked else .ok false, c)) ∨
    (lockMetadata id c = none ∧ ∃ c', acquireLock id r t h k c = (.ok true, c') ∧ LockIds c' ∧
      ∀ i, lockMetadata i c' = if id = i then some (lockDoc id t h k) else lockMetadata i c) := by
  unfold acquireLock
  cases hi : insertLock (lockDoc id t h k) c with
  | none => exact .inl ⟨insertLock_none.1 hi, rfl⟩
  | some c' =>
    refine .inr ⟨?_, c', rfl, (lockIds_insert hn hi).1, (lockIds_insert hn hi).2⟩
    by_contra hne
    have := (insertLock_none (c := c) (d := lockDoc id t h k)).2 hne
    rw [hi] at this; cases this

theorem lockIds_release {i : PyStr} {c : List LockDoc} (hn : LockIds c) : LockIds (releaseLock i c) := by
  unfold LockIds releaseLock
  exact (List.Sublist.map _ List.eraseP_sublist).nodup hn

/-- The collection agrees with what was called. -/
theorem runLocks_inv (calls : List (Nat × LockCall)) :
    LockIds (runLocks calls).2 ∧ ∀ id, lockMetadata id (runLocks calls).2 = holder id (runLocks calls).1 := by
  induction calls using List.reverseRecOn with
  | nil => exact ⟨List.nodup_nil, fun _ => rfl⟩
  | append_singleton calls pc ih =>
    obtain ⟨p, x⟩ := pc
    obtain ⟨hn, hh⟩ := ih
    rw [runLocks_snoc]
    dsimp only
    cases x with
    | acquire i r t h k =>
      rcases acquireLock_eq i r t h k hn with ⟨h1, h2⟩ | ⟨h1, c', h2, h3, h4⟩
      · cases r <;> simp only [LockCall.run, h2, holder, LockCall.frees, LockEntry.took, if_true, Bool.false_eq_true, if_false,
          Option.none_or] <;> exact ⟨hn, hh⟩
      · simp only [LockCall.run, h2]
        refine ⟨h3, fun id => ?_⟩
        rw [h4, holder]
        simp only [LockCall.frees, Bool.false_eq_true, if_false, LockEntry.took]
        split
        · rfl
        · rw [Option.none_or]; exact hh id
    | release i =>
      simp only [LockCall.run]
      refine ⟨lockIds_release hn, fun id => ?_⟩
      rw [lockMetadata_release hn, holder]
      simp only [LockCall.frees, decide_eq_true_eq, LockEntry.took, Option.none_or, hh]
    | isLocked i =>
      simp only [LockCall.run, holder, LockCall.frees, Bool.false_eq_true, if_false, LockEntry.took, Option.none_or]
      exact ⟨hn, hh⟩
    | metadata i =>
      simp only [LockCall.run, holder, LockCall.frees, Bool.false_eq_true, if_false, LockEntry.took, Option.none_or]
      exact ⟨hn, hh⟩
    | enter i t h k =>
      rcases acquireLock_eq i true t h k hn with ⟨h1, h2⟩ | ⟨h1, c', h2, h3, h4⟩
      · simp only [LockCall.run, h2, holder, LockCall.frees, LockEntry.took, if_true, Bool.false_eq_true, if_false,
          Option.none_or]
        exact ⟨hn, hh⟩
      · simp only [LockCall.run, h2]
        refine ⟨h3, fun id => ?_⟩
        rw [h4, holder]
        simp only [LockCall.frees, Bool.false_eq_true, if_false, LockEntry.took]
        split
        · rfl
        · rw [Option.none_or]; exact hh id
    | leave i =>
      simp only [LockCall.run]
      refine ⟨lockIds_release hn, fun id => ?_⟩
      rw [lockMetadata_release hn, holder]
      simp only [LockCall.frees, decide_eq_true_eq, LockEntry.took, Option.none_or, hh]

/-- A process in a block is the only one, and the document is its. -/
theorem inside_holds (id : PyStr) (calls : List (Nat × LockCall)) (hb : BlocksOk (runLocks calls).1)
    (hr : NotByHand id (runLocks calls).1) {p : Nat} {d : LockDoc} (h : inside p id (runLocks calls).1 = some d) :
    holder id (runLocks calls).1 = some d ∧ ∀ q, inside q id (runLocks calls).1 ≠ none → q = p := by
  induction calls using List.reverseRecOn generalizing p d with
  | nil => cases h
  | append_singleton calls pc ih =>
    obtain ⟨p', x⟩ := pc
    have hinv := runLocks_inv calls
    rw [runLocks_snoc] at hb hr h ⊢
    dsimp only at hb hr h ⊢
    have ih := @ih hb.2 (fun e he => hr e (List.mem_cons_of_mem _ he))
    have hb1 := hb.1
    have hr1 := hr _ List.mem_cons_self
    clear hb hr
    generalize (runLocks calls).1 = log at *
    generalize (runLocks calls).2 = c at *
    -- calls that are not about blocks, and do not succeed in taking the lock
    have skip : ∀ res : LockResult, (∀ q, inside q id (⟨p', x, res⟩ :: log) = inside q id log) →
        (holder id log = none ∨ holder id (⟨p', x, res⟩ :: log) = holder id log) → inside p id (⟨p', x, res⟩ :: log) = some d →
        holder id (⟨p', x, res⟩ :: log) = some d ∧ ∀ q, inside q id (⟨p', x, res⟩ :: log) ≠ none → q = p := by
      intro res h1 h2 h3
      rw [h1] at h3
      obtain ⟨g1, g2⟩ := ih h3
      rcases h2 with h2 | h2
      · rw [h2] at g1; cases g1
      · exact ⟨h2.trans g1, fun q hq => g2 q (by rwa [h1] at hq)⟩
    cases x with
    | acquire i r t k kw =>
      refine skip _ (fun q => by simp [inside]) ?_ h
      rcases acquireLock_eq i r t k kw hinv.1 with ⟨h1, h2⟩ | ⟨h1, c', h2, _, _⟩
      · right
        cases r <;> simp [LockCall.run, h2, holder, LockCall.frees, LockEntry.took]
      · by_cases hi : i = id
        · left; rw [← hinv.2, ← hi]; exact h1
        · right; simp [LockCall.run, h2, holder, LockCall.frees, LockEntry.took, hi]
    | release i =>
      refine skip _ (fun q => by simp [inside]) (.inr ?_) h
      have : i ≠ id := fun e => hr1 (by rw [e])
      simp [holder, LockCall.frees, LockEntry.took, this]
    | isLocked i => exact skip _ (fun q => by simp [inside]) (.inr (by simp [holder, LockCall.frees, LockEntry.took])) h
    | metadata i => exact skip _ (fun q => by simp [inside]) (.inr (by simp [holder, LockCall.frees, LockEntry.took])) h
    | enter i t k kw =>
      rcases acquireLock_eq i true t k kw hinv.1 with ⟨h1, h2⟩ | ⟨h1, c', h2, _, _⟩
      · simp only [LockCall.run, h2, if_true] at h ⊢
        exact skip _ (fun q => by simp [inside]) (.inr (by simp [holder, LockCall.frees, LockEntry.took])) h
      · simp only [LockCall.run, h2] at h ⊢
        by_cases hi : i = id
        · subst hi
          rw [hinv.2] at h1
          have hno : ∀ q, inside q i log = none := by
            intro q
            cases hq : inside q i log with
            | none => rfl
            | some x => have := (ih hq).1; rw [h1] at this; cases this
          simp only [inside, if_true] at h
          split at h
          · rename_i hp
            subst hp
            refine ⟨by simpa [holder, LockCall.frees, LockEntry.took] using h, fun q hq => ?_⟩
            simp only [inside, if_true] at hq
            by_contra hne
            rw [if_neg (fun e => hne e.symm)] at hq
            exact hq (hno q)
          · rw [hno] at h; cases h
        · exact skip _ (fun q => by simp [inside, hi]) (.inr (by simp [holder, LockCall.frees, LockEntry.took, hi])) h
    | leave i =>
      simp only [LockCall.run] at h ⊢
      by_cases hi : i = id
      · subst hi
        simp only [inside, if_true] at h
        split at h
        · cases h
        · rename_i hp
          obtain ⟨g1, g2⟩ := ih h
          exact absurd (g2 p' (hb1 i rfl)) hp
      · exact skip _ (fun q => by simp [inside, hi]) (.inr (by simp [holder, LockCall.frees, LockEntry.took, hi])) h

end Splitgill
