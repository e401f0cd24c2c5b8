import Verif.Spec.Bulk
import Mathlib.Data.List.Perm.Lattice
import Mathlib.Data.List.Count
import Mathlib.Data.List.Nodup
import Mathlib.Tactic.Tauto
/-!
# Lemmas: the bulk writer
-/

namespace Splitgill

section
variable {α : Type}

/-! ## What is where -/

def MainState.rest : MainState α → List (NumChunk α)
  | .feeding rest => rest
  | _ => []

/-- The stop markers still to be put, with `N` workers. -/
def MainState.toPut (N : Nat) : MainState α → Nat
  | .feeding _ => N
  | .closing n => n
  | _ => 0

def MainState.isRaised : MainState α → Bool
  | .raised => true
  | _ => false

def MainState.isLate : MainState α → Bool
  | .refreshing _ _ _ => true
  | .returned _ _ => true
  | .raised => true
  | _ => false

def WorkerState.held : WorkerState α → List (NumChunk α)
  | .sending c _ _ _ => [c]
  | .failed c => [c]
  | _ => []

def WorkerState.isDone : WorkerState α → Nat
  | .done _ _ => 1
  | _ => 0

def WorkerState.indexed : WorkerState α → Nat
  | .idle i _ => i
  | .sending _ _ i _ => i
  | .done i _ => i
  | .failed _ => 0

def WorkerState.deleted : WorkerState α → Nat
  | .idle _ d => d
  | .sending _ _ _ d => d
  | .done _ d => d
  | .failed _ => 0

def okLog (log : List (NumChunk α × BulkResp)) : List (NumChunk α) := (log.filter (fun x => x.2.isOk)).map Prod.fst

def heldAll (ws : List (WorkerState α)) : List (NumChunk α) := ws.flatMap WorkerState.held
def dones (ws : List (WorkerState α)) : Nat := (ws.map WorkerState.isDone).sum
def sumIndexed (ws : List (WorkerState α)) : Nat := (ws.map WorkerState.indexed).sum
def sumDeleted (ws : List (WorkerState α)) : Nat := (ws.map WorkerState.deleted).sum
def anyFailed (ws : List (WorkerState α)) : Bool := ws.any WorkerState.hasFailed

/-- The chunks that are somewhere. -/
def BulkState.tasks (s : BulkState α) : List (NumChunk α) :=
  s.main.rest ++ (s.queue.filterMap id ++ (heldAll s.workers ++ okLog s.log))

structure BulkInv (isDelete : α → Bool) (chunks : List (NumChunk α)) (N : Nat) (s : BulkState α) : Prop where
  len : s.workers.length = N
  tasks : ∃ lost, (s.tasks ++ lost).Perm chunks ∧ (s.main.isRaised = false → lost = [])
  unfinished : s.unfinished = s.queue.length + (heldAll s.workers).length
  shape : ∃ (cs : List (NumChunk α)) (n : Nat), s.queue = cs.map some ++ List.replicate n none ∧
    (0 < dones s.workers → cs = []) ∧
    (s.main.isRaised = false → s.main.toPut N + n + dones s.workers = N)
  refreshed : s.refreshed = true → s.main.isLate = true
  late : (s.refreshed = true ∨ s.main = .gathering) → s.queue = [] ∧ heldAll s.workers = []
  totals : ∀ i d, (s.main = .returned i d ∨ ∃ n, s.main = .refreshing n i d) →
    s.refreshed = true ∧ gatherResults s.workers = some (i, d)
  counts : anyFailed s.workers = false →
    sumIndexed s.workers = ((okLog s.log).flatMap Prod.snd).countP (fun op => !isDelete op) ∧
    sumDeleted s.workers = ((okLog s.log).flatMap Prod.snd).countP isDelete
  errors : (∃ x ∈ s.log, x.2.isError = true) → anyFailed s.workers = true
  fresh : ∀ c ∈ s.main.rest ++ s.queue.filterMap id, requests s.log c.1 = 0
  sending : ∀ c a i d, WorkerState.sending c a i d ∈ s.workers → a ≤ bulkRetries ∧ requests s.log c.1 = a ∧ timeouts s.log c.1 = a
  bound : ∀ k, requests s.log k ≤ bulkRetries + 1 ∧ requests s.log k ≤ timeouts s.log k + 1
  timedOut : ∀ k, timeouts s.log k = bulkRetries + 1 → anyFailed s.workers = true

/-! ## Lists of workers -/

theorem workers_split {ws : List (WorkerState α)} {w : Nat} {x : WorkerState α} (h : ws[w]? = some x) (y : WorkerState α) :
    ∃ l r, ws = l ++ x :: r ∧ ws.set w y = l ++ y :: r := by
  induction ws generalizing w with
  | nil => simp at h
  | cons a ws ih =>
    cases w with
    | zero =>
      simp only [List.getElem?_cons_zero, Option.some.injEq] at h
      subst h
      exact ⟨[], ws, rfl, rfl⟩
    | succ w =>
      simp only [List.getElem?_cons_succ] at h
      obtain ⟨l, r, h1, h2⟩ := ih h
      exact ⟨a :: l, r, by rw [h1]; rfl, by rw [List.set_cons_succ, h2]; rfl⟩

theorem heldAll_split (l r : List (WorkerState α)) (x : WorkerState α) :
    heldAll (l ++ x :: r) = heldAll l ++ (x.held ++ heldAll r) := by simp [heldAll]
theorem dones_split (l r : List (WorkerState α)) (x : WorkerState α) :
    dones (l ++ x :: r) = dones l + (x.isDone + dones r) := by simp [dones]
theorem sumIndexed_split (l r : List (WorkerState α)) (x : WorkerState α) :
    sumIndexed (l ++ x :: r) = sumIndexed l + (x.indexed + sumIndexed r) := by simp [sumIndexed]
theorem sumDeleted_split (l r : List (WorkerState α)) (x : WorkerState α) :
    sumDeleted (l ++ x :: r) = sumDeleted l + (x.deleted + sumDeleted r) := by simp [sumDeleted]
theorem anyFailed_split (l r : List (WorkerState α)) (x : WorkerState α) :
    anyFailed (l ++ x :: r) = (anyFailed l || (x.hasFailed || anyFailed r)) := by simp [anyFailed]

theorem held_of_failed {ws : List (WorkerState α)} (h : anyFailed ws = true) : heldAll ws ≠ [] := by
  obtain ⟨x, hx, hf⟩ := List.any_eq_true.1 h
  intro he
  have : x.held = [] := List.flatMap_eq_nil_iff.1 he x hx
  cases x <;> simp [WorkerState.hasFailed, WorkerState.held] at *

theorem gather_spec {ws : List (WorkerState α)} {i d : Nat} (h : gatherResults ws = some (i, d)) :
    i = sumIndexed ws ∧ d = sumDeleted ws ∧ anyFailed ws = false := by
  induction ws generalizing i d with
  | nil => simp only [gatherResults, Option.some.injEq, Prod.mk.injEq] at h; simp [← h.1, ← h.2, sumIndexed, sumDeleted, anyFailed]
  | cons w ws ih =>
    unfold gatherResults at h
    cases w with
    | done a b =>
      cases hg : gatherResults ws with
      | none => rw [hg] at h; simp [WorkerState.result?] at h
      | some p =>
        rw [hg] at h
        obtain ⟨i', d'⟩ := p
        simp only [WorkerState.result?, Option.some.injEq, Prod.mk.injEq] at h
        obtain ⟨h1, h2, h3⟩ := ih hg
        simp only [sumIndexed, sumDeleted, anyFailed, List.map_cons, List.sum_cons, List.any_cons] at *
        refine ⟨?_, ?_, by simp [WorkerState.hasFailed, h3]⟩ <;> simp only [WorkerState.indexed, WorkerState.deleted] <;> omega
    | _ => simp [WorkerState.result?] at h

theorem gather_all {ws : List (WorkerState α)} (h : dones ws = ws.length) : ∃ i d, gatherResults ws = some (i, d) := by
  induction ws with
  | nil => exact ⟨0, 0, rfl⟩
  | cons w ws ih =>
    have hle : dones ws ≤ ws.length := by
      clear ih h
      induction ws with
      | nil => simp [dones]
      | cons x ws ih =>
        simp only [dones, List.map_cons, List.sum_cons, List.length_cons] at *
        have : x.isDone ≤ 1 := by cases x <;> simp [WorkerState.isDone]
        omega
    simp only [dones, List.map_cons, List.sum_cons, List.length_cons] at h hle ih
    cases w with
    | done a b =>
      obtain ⟨i, d, hg⟩ := ih (by simp only [WorkerState.isDone] at h; omega)
      exact ⟨a + i, b + d, by simp [gatherResults, WorkerState.result?, hg]⟩
    | _ => simp only [WorkerState.isDone] at h; omega

/-! ## Items -/

theorem countItems_ok {isDelete : α → Bool} {ops : List α} {errors : List Bool} (hl : errors.length = ops.length)
    (h : errors.any id = false) (b : Bool) : countItems isDelete b ops errors = ops.countP (fun op => isDelete op == b) := by
  unfold countItems
  induction ops generalizing errors with
  | nil => simp
  | cons op ops ih =>
    cases errors with
    | nil => simp at hl
    | cons e errors =>
      simp only [List.any_cons, id, Bool.or_eq_false_iff] at h
      have := ih (by simpa using hl) h.2
      rw [List.zip_cons_cons, List.countP_cons, List.countP_cons, this, h.1]
      simp

theorem okLog_append (log : List (NumChunk α × BulkResp)) (c : NumChunk α) (r : BulkResp) :
    okLog (log ++ [(c, r)]) = okLog log ++ (if r.isOk then [c] else []) := by
  unfold okLog
  rw [List.filter_append, List.map_append]
  by_cases h : r.isOk = true
  · simp [h]
  · simp [h]

theorem requests_append (log : List (NumChunk α × BulkResp)) (c : NumChunk α) (r : BulkResp) (k : Nat) :
    requests (log ++ [(c, r)]) k = requests log k + (if c.1 = k then 1 else 0) := by
  unfold requests
  rw [List.countP_append]
  by_cases h : c.1 = k <;> simp [h]

theorem timeouts_append (log : List (NumChunk α × BulkResp)) (c : NumChunk α) (r : BulkResp) (k : Nat) :
    timeouts (log ++ [(c, r)]) k = timeouts log k + (if c.1 = k ∧ r.isTimeout = true then 1 else 0) := by
  unfold timeouts
  rw [List.countP_append]
  by_cases h : c.1 = k <;> cases hr : r.isTimeout <;> simp [h, hr]

theorem timeouts_le (log : List (NumChunk α × BulkResp)) (k : Nat) : timeouts log k ≤ requests log k := by
  unfold timeouts requests
  exact List.countP_mono_left (fun x _ h => by simp only [Bool.and_eq_true] at h; exact h.1)

end
end Splitgill
