import Verif.Proof.Bulk3
import Verif.Spec.BulkBound
/-!
# Proofs about what a writer holds
-/

namespace Splitgill

section
variable {α : Type} {isDelete : α → Bool} {cap size : Nat} {s s' : BulkState α}

/-- A chunk of a good size. -/
def GoodChunk (size : Nat) (c : NumChunk α) : Prop := c.2 ≠ [] ∧ c.2.length ≤ size

structure BulkBounded (cap size : Nat) (s : BulkState α) : Prop where
  queue : 0 < cap → s.queue.length ≤ cap
  rest : ∀ c ∈ s.main.rest, GoodChunk size c
  queued : ∀ c, some c ∈ s.queue → GoodChunk size c
  workers : ∀ w ∈ s.workers, ∀ c ∈ w.held, GoodChunk size c
  log : ∀ x ∈ s.log, GoodChunk size x.1

theorem queue_room {q : List (Option (NumChunk α))} (h : ¬ queueFull cap q = true) (x : Option (NumChunk α)) : 0 < cap → (q ++ [x]).length ≤ cap := by
  intro hc
  rw [queueFull, decide_eq_true_eq] at h
  rw [List.length_append, List.length_singleton]
  omega

theorem BulkBounded.main (h : BulkBounded cap size s) (e : mainStep cap s = some s') : BulkBounded cap size s' := by
  obtain ⟨h1, h2, h3, h4, h5⟩ := h
  unfold mainStep at e
  split at e
  · cases e; exact ⟨h1, nofun, h3, h4, h5⟩
  · next c rest hm =>
    have h2' : ∀ x ∈ c :: rest, GoodChunk size x := fun x hx => h2 x (by rw [hm]; exact hx)
    have hq : ∀ x, some x ∈ s.queue ++ [some c] → GoodChunk size x := by
      intro x hx
      rcases List.mem_append.1 hx with hx | hx
      · exact h3 x hx
      · have := List.mem_singleton.1 hx
        injection this with this
        rw [this]
        exact h2' c List.mem_cons_self
    split at e
    · cases e
    · next hf =>
      dsimp only at e
      split at e
      · cases e; exact ⟨queue_room hf _, nofun, hq, h4, h5⟩
      · cases e; exact ⟨queue_room hf _, fun x hx => h2' x (List.mem_cons_of_mem _ hx), hq, h4, h5⟩
  · cases e; exact ⟨h1, nofun, h3, h4, h5⟩
  · split at e
    · cases e
    · next hf =>
      cases e
      refine ⟨queue_room hf _, nofun, fun x hx => ?_, h4, h5⟩
      rcases List.mem_append.1 hx with hx | hx
      · exact h3 x hx
      · simp at hx
  · split at e
    · split at e <;> (cases e; exact ⟨h1, nofun, h3, h4, h5⟩)
    · cases e
  · split at e
    · cases e; exact ⟨h1, nofun, h3, h4, h5⟩
    · cases e
  · cases e
  · cases e
  · cases e

theorem BulkBounded.setWorker {ws : List (WorkerState α)} {k : Nat} {w : WorkerState α} (h : ∀ w ∈ ws, ∀ c ∈ w.held, GoodChunk size c)
    (hw : ∀ c ∈ w.held, GoodChunk size c) : ∀ w' ∈ ws.set k w, ∀ c ∈ w'.held, GoodChunk size c := by
  intro w' hw'
  rcases List.mem_or_eq_of_mem_set hw' with h' | rfl
  · exact h w' h'
  · exact hw

theorem BulkBounded.step (a : BulkAction) (h : BulkBounded cap size s) (e : bulkStep isDelete cap s a = some s') : BulkBounded cap size s' := by
  cases a with
  | main => exact h.main e
  | mainRaises =>
    obtain ⟨h1, h2, h3, h4, h5⟩ := h
    simp only [bulkStep] at e
    split at e
    · cases e; exact ⟨h1, nofun, h3, h4, h5⟩
    · cases e
  | get w =>
    obtain ⟨h1, h2, h3, h4, h5⟩ := h
    simp only [bulkStep] at e
    split at e
    · next i d c q hw hq =>
      cases e
      rw [hq] at h1 h3
      refine ⟨fun hc => by have := h1 hc; rw [List.length_cons] at this; show q.length ≤ cap; omega, h2, fun x hx => h3 x (List.mem_cons_of_mem _ hx), BulkBounded.setWorker h4 ?_, h5⟩
      intro c' hc'
      have := List.mem_singleton.1 hc'
      subst this
      exact h3 _ List.mem_cons_self
    · next i d q hw hq =>
      cases e
      rw [hq] at h1 h3
      exact ⟨fun hc => by have := h1 hc; rw [List.length_cons] at this; show q.length ≤ cap; omega, h2, fun x hx => h3 x (List.mem_cons_of_mem _ hx), BulkBounded.setWorker h4 nofun, h5⟩
    · cases e
  | response w resp =>
    obtain ⟨h1, h2, h3, h4, h5⟩ := h
    simp only [bulkStep] at e
    split at e
    · next c attempts i d hw =>
      have hc : GoodChunk size c := h4 _ (List.mem_of_getElem? hw) c (List.mem_singleton.2 rfl)
      split at e
      · cases e
        refine ⟨h1, h2, h3, BulkBounded.setWorker h4 ?_, ?_⟩
        · intro c' hc'
          have : c' = c := by
            unfold workerResponse at hc'
            cases resp with
            | items l =>
              simp only at hc'
              split at hc'
              · exact List.mem_singleton.1 hc'
              · cases hc'
            | timeout l =>
              simp only at hc'
              split at hc' <;> exact List.mem_singleton.1 hc'
            | exception l => exact List.mem_singleton.1 hc'
          rw [this]; exact hc
        · intro x hx
          rcases List.mem_append.1 hx with hx | hx
          · exact h5 x hx
          · rw [List.mem_singleton.1 hx]; exact hc
      · cases e
    · cases e
  | refreshed ok =>
    obtain ⟨h1, h2, h3, h4, h5⟩ := h
    simp only [bulkStep] at e
    split at e
    · split at e
      · cases e; exact ⟨h1, nofun, h3, h4, h5⟩
      · split at e
        · cases e; exact ⟨h1, nofun, h3, h4, h5⟩
        · cases e; exact ⟨h1, nofun, h3, h4, h5⟩
    · cases e

theorem BulkBounded.run : ∀ (as : List BulkAction) {s s' : BulkState α}, BulkBounded cap size s → bulkRun isDelete cap s as = some s' → BulkBounded cap size s'
  | [], s, s', h, e => by cases e; exact h
  | a :: as, s, s', h, e => by
    rw [bulkRun] at e
    split at e
    · next s1 h1 => exact BulkBounded.run as (h.step a h1) e
    · cases e

theorem writeOps_bounded {ops : List α} {o : BulkOptions} {as : List BulkAction} (h : writeOps isDelete ops o as = some s) :
    BulkBounded (o.workerCount * o.bufferMultiplier) o.chunkSize s := by
  refine BulkBounded.run as ⟨fun _ => Nat.zero_le _, ?_, fun c h => (by cases h), ?_, fun x h => (by cases h)⟩ h
  · intro c hc
    have : c.2 ∈ (numberFrom 0 (partition ops o.chunkSize)).map Prod.snd := List.mem_map.2 ⟨c, hc, rfl⟩
    rw [(numberFrom_spec 0 _).1] at this
    exact partitionLoop_chunks _ _ _ this
  · intro w hw c hc
    rw [List.eq_of_mem_replicate hw] at hc
    cases hc

theorem length_chunks {cs : List (NumChunk α)} (h : ∀ c ∈ cs, GoodChunk size c) : (cs.flatMap Prod.snd).length ≤ size * cs.length := by
  induction cs with
  | nil => simp
  | cons c cs ih =>
    have h1 := (h c List.mem_cons_self).2
    have h2 := ih fun x hx => h x (List.mem_cons_of_mem _ hx)
    rw [List.flatMap_cons, List.length_append, List.length_cons, Nat.mul_add, Nat.mul_one]
    omega

theorem holds_eq (ws : List (WorkerState α)) : ws.flatMap WorkerState.holds = (heldAll ws).flatMap Prod.snd := by
  induction ws with
  | nil => rfl
  | cons w ws ih =>
    rw [heldAll, List.flatMap_cons, List.flatMap_cons, List.flatMap_append, ih]
    congr 1
    cases w <;> simp [WorkerState.holds, WorkerState.held]

theorem heldAll_length (ws : List (WorkerState α)) : (heldAll ws).length ≤ ws.length := by
  induction ws with
  | nil => simp [heldAll]
  | cons w ws ih =>
    have : w.held.length ≤ 1 := by cases w <;> simp [WorkerState.held]
    rw [heldAll, List.flatMap_cons, List.length_append, List.length_cons]
    unfold heldAll at ih
    omega

end
end Splitgill
