import Verif.Proof.Bulk3
/-!
# Lemmas: why the bulk writer raises
-/

namespace Splitgill

section
variable {α : Type} {isDelete : α → Bool} {chunks : List (NumChunk α)} {N cap : Nat}

/-- The main task has not asked for a refresh. -/
def MainState.isEarly : MainState α → Bool
  | .feeding _ => true
  | .closing _ => true
  | .joining => true
  | .gathering => true
  | _ => false

/-- What went wrong after these actions. -/
structure Blame (as : List BulkAction) (s : BulkState α) : Prop where
  failed : anyFailed s.workers = true → RequestFailed s
  early : s.main.isEarly = true → as.count (.refreshed false) = 0
  refreshing : ∀ n i d, s.main = .refreshing n i d → n + as.count (.refreshed false) = refreshAttempts ∧ 0 < n
  raised : s.main = .raised → RequestFailed s ∨ .mainRaises ∈ as ∨ as.count (.refreshed false) = refreshAttempts

theorem count_snoc (as : List BulkAction) (a b : BulkAction) : (as ++ [b]).count a = as.count a + if b = a then 1 else 0 := by
  rw [List.count_append, List.count_singleton]
  congr 1
  by_cases h : b = a <;> simp [h]

theorem Blame.step {as : List BulkAction} {s s' : BulkState α} (h : Blame as s) (hi : BulkInv isDelete chunks N s)
    (hi' : BulkInv isDelete chunks N s') {a : BulkAction} (hs : bulkStep isDelete cap s a = some s') : Blame (as ++ [a]) s' := by
  have hmem : ∀ {b : BulkAction}, b ∈ as → b ∈ as ++ [a] := fun hb => List.mem_append_left _ hb
  cases a with
  | main =>
    have hcount : (as ++ [BulkAction.main]).count (.refreshed false) = as.count (.refreshed false) := by
      rw [count_snoc, if_neg (by decide)]; rfl
    rw [bulkStep] at hs
    unfold mainStep at hs
    split at hs
    · rename_i hm
      cases hs
      refine ⟨h.failed, fun _ => ?_, (fun _ _ _ e => by cases e), (fun e => by cases e)⟩
      rw [hcount]; exact h.early (by rw [hm]; rfl)
    · rename_i hm
      split at hs
      · cases hs
      · dsimp only at hs
        split at hs
        · rename_i hf
          cases hs
          exact ⟨h.failed, (fun e => by cases e), (fun _ _ _ e => by cases e), fun _ => .inl (h.failed hf)⟩
        · cases hs
          refine ⟨h.failed, fun _ => ?_, (fun _ _ _ e => by cases e), (fun e => by cases e)⟩
          rw [hcount]; exact h.early (by rw [hm]; rfl)
    · rename_i hm
      cases hs
      refine ⟨h.failed, fun _ => ?_, (fun _ _ _ e => by cases e), (fun e => by cases e)⟩
      rw [hcount]; exact h.early (by rw [hm]; rfl)
    · rename_i hm
      split at hs
      · cases hs
      · cases hs
        refine ⟨h.failed, fun _ => ?_, (fun _ _ _ e => by cases e), (fun e => by cases e)⟩
        rw [hcount]; exact h.early (by rw [hm]; rfl)
    · rename_i hm
      split at hs
      · split at hs
        · rename_i hf
          cases hs
          exact ⟨h.failed, (fun e => by cases e), (fun _ _ _ e => by cases e), fun _ => .inl (h.failed hf)⟩
        · cases hs
          refine ⟨h.failed, fun _ => ?_, (fun _ _ _ e => by cases e), (fun e => by cases e)⟩
          rw [hcount]; exact h.early (by rw [hm]; rfl)
      · cases hs
    · rename_i hm
      split at hs
      · cases hs
        refine ⟨h.failed, (fun e => by cases e), fun n i d e => ?_, (fun e => by cases e)⟩
        cases e
        rw [hcount, h.early (by rw [hm]; rfl)]
        exact ⟨rfl, by decide⟩
      · cases hs
    · cases hs
    · cases hs
    · cases hs
  | mainRaises =>
    rw [bulkStep] at hs
    split at hs
    · cases hs
      exact ⟨h.failed, (fun e => by cases e), (fun _ _ _ e => by cases e), fun _ => .inr (.inl (List.mem_append_right _ (List.mem_singleton.2 rfl)))⟩
    · cases hs
  | get w =>
    have hcount : (as ++ [BulkAction.get w]).count (.refreshed false) = as.count (.refreshed false) := by
      rw [count_snoc, if_neg (by intro e; cases e)]; rfl
    have key : ∀ (x y : WorkerState α), s.workers[w]? = some x → y.hasFailed = false →
        anyFailed (s.workers.set w y) = true → anyFailed s.workers = true := by
      intro x y hx hy hf
      obtain ⟨l, r, e1, e2⟩ := workers_split hx y
      rw [e2, anyFailed_split, hy, Bool.false_or] at hf
      rw [e1, anyFailed_split]
      rw [Bool.or_eq_true] at hf ⊢
      exact hf.imp id (fun h => by rw [h, Bool.or_true])
    rw [bulkStep] at hs
    split at hs
    · rename_i hx _
      cases hs
      refine ⟨fun hf => h.failed (key _ _ hx rfl hf), fun e => by rw [hcount]; exact h.early e, fun n i d e => by rw [hcount]; exact h.refreshing n i d e,
        fun e => ?_⟩
      rw [hcount]
      exact (h.raised e).imp id (Or.imp hmem id)
    · rename_i hx _
      cases hs
      refine ⟨fun hf => h.failed (key _ _ hx rfl hf), fun e => by rw [hcount]; exact h.early e, fun n i d e => by rw [hcount]; exact h.refreshing n i d e,
        fun e => ?_⟩
      rw [hcount]
      exact (h.raised e).imp id (Or.imp hmem id)
    · cases hs
  | response w resp =>
    have hcount : (as ++ [BulkAction.response w resp]).count (.refreshed false) = as.count (.refreshed false) := by
      rw [count_snoc, if_neg (by intro e; cases e)]; rfl
    rw [bulkStep] at hs
    split at hs
    · rename_i c a i d hx
      split at hs
      · rename_i hfit
        cases hs
        have hmono : RequestFailed s → RequestFailed { s with
            workers := s.workers.set w (workerResponse isDelete c a i d resp).1
            unfinished := if (workerResponse isDelete c a i d resp).2 then s.unfinished - 1 else s.unfinished
            log := s.log ++ [(c, resp)] } := by
          rintro (⟨x, hx, he⟩ | ⟨k, hk⟩)
          · exact .inl ⟨x, List.mem_append_left _ hx, he⟩
          · refine .inr ⟨k, ?_⟩
            have h1 := (hi'.bound k).1
            have h2 := timeouts_le (s.log ++ [(c, resp)]) k
            have h3 := timeouts_append s.log c resp k
            dsimp only at h1 ⊢
            have h4 : bulkRetries = 3 := rfl
            omega
        have hfail : anyFailed (s.workers.set w (workerResponse isDelete c a i d resp).1) = true → RequestFailed { s with
            workers := s.workers.set w (workerResponse isDelete c a i d resp).1
            unfinished := if (workerResponse isDelete c a i d resp).2 then s.unfinished - 1 else s.unfinished
            log := s.log ++ [(c, resp)] } := by
          intro hf
          obtain ⟨l, r, e1, e2⟩ := workers_split hx (workerResponse isDelete c a i d resp).1
          rw [e2, anyFailed_split] at hf
          cases hw : (workerResponse isDelete c a i d resp).1.hasFailed with
          | false =>
            rw [hw, Bool.false_or, Bool.or_eq_true] at hf
            refine hmono (h.failed ?_)
            rw [e1, anyFailed_split, Bool.or_eq_true]
            exact hf.imp id (fun h => by rw [h, Bool.or_true])
          | true =>
            cases resp with
            | items errors =>
              cases he : errors.any id with
              | true => exact .inl ⟨(c, .items errors), List.mem_append_right _ (List.mem_singleton.2 rfl), he⟩
              | false => simp [workerResponse, he, WorkerState.hasFailed] at hw
            | exception l => exact .inl ⟨(c, .exception l), List.mem_append_right _ (List.mem_singleton.2 rfl), rfl⟩
            | timeout l =>
              refine .inr ⟨c.1, ?_⟩
              obtain ⟨g1, _, g3⟩ := hi.sending c a i d (List.mem_of_getElem? hx)
              have ha : ¬ a < bulkRetries := by
                intro ha
                simp [workerResponse, ha, WorkerState.hasFailed] at hw
              dsimp only
              rw [timeouts_append, g3, if_pos ⟨rfl, rfl⟩]
              have h4 : bulkRetries = 3 := rfl
              omega
        refine ⟨hfail, fun e => by rw [hcount]; exact h.early e, fun n i d e => by rw [hcount]; exact h.refreshing n i d e, fun e => ?_⟩
        rw [hcount]
        exact (h.raised e).imp hmono (Or.imp hmem id)
      · cases hs
    · cases hs
  | refreshed ok =>
    rw [bulkStep] at hs
    split at hs
    · rename_i n i d hm
      obtain ⟨h1, h2⟩ := h.refreshing n i d hm
      split at hs
      · cases hs
        exact ⟨h.failed, (fun e => by cases e), (fun _ _ _ e => by cases e), (fun e => by cases e)⟩
      · rename_i hok
        have hok : ok = false := by simpa using hok
        subst hok
        have hcount : (as ++ [BulkAction.refreshed false]).count (.refreshed false) = as.count (.refreshed false) + 1 := by
          rw [count_snoc, if_pos rfl]
        split at hs
        · cases hs
          refine ⟨h.failed, (fun e => by cases e), (fun _ _ _ e => by cases e), fun _ => .inr (.inr ?_)⟩
          rw [hcount]; omega
        · cases hs
          refine ⟨h.failed, (fun e => by cases e), fun n' i' d' e => ?_, (fun e => by cases e)⟩
          cases e
          rw [hcount]; omega
    · cases hs

theorem Blame.run : ∀ (as : List BulkAction) {pre : List BulkAction} {s s' : BulkState α}, Blame pre s → BulkInv isDelete chunks N s →
    (chunks.map Prod.fst).Nodup → bulkRun isDelete cap s as = some s' → Blame (pre ++ as) s'
  | [], pre, s, s', h, _, _, hr => by cases hr; rwa [List.append_nil]
  | a :: as, pre, s, s', h, hi, hnd, hr => by
    unfold bulkRun at hr
    split at hr
    · rename_i s1 h1
      have hi1 := hi.step hnd h1
      have := Blame.run as (h.step hi hi1 h1) hi1 hnd hr
      rwa [List.append_assoc] at this
    · cases hr

theorem writeOps_blame {ops : List α} {o : BulkOptions} {as : List BulkAction} {s : BulkState α}
    (h : writeOps isDelete ops o as = some s) : Blame as s := by
  have start : Blame [] (bulkStart (partition ops o.chunkSize) o.workerCount) := by
    refine ⟨fun hf => ?_, fun _ => rfl, fun _ _ _ e => (nomatch e), fun e => (nomatch e)⟩
    exfalso
    simp [bulkStart, anyFailed, WorkerState.hasFailed] at hf
  exact Blame.run as start (BulkInv.start isDelete _ _) (numberFrom_spec 0 _).2.1 h

end
end Splitgill
