import Verif.Proof.World
import Verif.Proof.Options
/-! # `commit()` command by command is `commit()`; effects of the calls -/

namespace Splitgill

/-! ## update_many -/

theorem commitColl_none {v : Int} : ∀ {c : Coll}, hasUncommittedData c = false → commitColl v c = c
  | [], _ => rfl
  | d :: c, h => by
    simp only [hasUncommittedData, List.any_cons, Bool.or_eq_false_iff] at h
    have ih := commitColl_none (v := v) (c := c) h.2
    simp only [commitColl] at ih
    simp only [commitColl, List.map_cons, h.1, ih]; rfl

theorem commitColl_nth (v : Int) : ∀ (k : Nat) (c : Coll), commitColl v (commitNth v k c) = commitColl v c
  | _, [] => by simp [commitNth]
  | k, d :: c => by
    unfold commitNth
    by_cases h : d.version.isNone = true
    · rw [if_pos h]
      cases k with
      | zero => simp [commitColl, Option.isNone_iff_eq_none.1 h]
      | succ k =>
        have ih := commitColl_nth v k c
        simp only [commitColl] at ih
        simp only [commitColl, List.map_cons, ih]
    · rw [if_neg h]
      have ih := commitColl_nth v k c
      simp only [commitColl] at ih
      simp only [commitColl, List.map_cons, ih]

theorem commitOptions_none {v : Int} : ∀ {c : List OptDoc}, c.any (fun d => d.version.isNone) = false →
    commitOptions v c = c
  | [], _ => rfl
  | d :: c, h => by
    simp only [List.any_cons, Bool.or_eq_false_iff] at h
    have ih := commitOptions_none (v := v) (c := c) h.2
    simp only [commitOptions] at ih
    simp only [commitOptions, List.map_cons, h.1, ih]; rfl

theorem commitOptions_nth (v : Int) : ∀ (k : Nat) (c : List OptDoc),
    commitOptions v (commitNthOptions v k c) = commitOptions v c
  | _, [] => by simp [commitNthOptions]
  | k, d :: c => by
    unfold commitNthOptions
    by_cases h : d.version.isNone = true
    · rw [if_pos h]
      cases k with
      | zero => simp [commitOptions, Option.isNone_iff_eq_none.1 h]
      | succ k =>
        have ih := commitOptions_nth v k c
        simp only [commitOptions] at ih
        simp only [commitOptions, List.map_cons, ih]
    · rw [if_neg h]
      have ih := commitOptions_nth v k c
      simp only [commitOptions] at ih
      simp only [commitOptions, List.map_cons, ih]

theorem setData_self (m : Mongo) (db : PyStr) : m.setData db (m.data db) = m := by
  unfold Mongo.setData
  have : (fun n => if n = db then m.data db else m.data n) = m.data := by
    funext n; split
    · rename_i h; rw [h]
    · rfl
  rw [this]

theorem setData_data (m : Mongo) (db : PyStr) (c : Coll) : (m.setData db c).data db = c := by
  simp [Mongo.setData]

theorem setData_setData (m : Mongo) (db : PyStr) (c c' : Coll) : (m.setData db c).setData db c' = m.setData db c' := by
  unfold Mongo.setData
  congr 1
  funext n; split <;> simp_all

/-! ## The rest of the call -/

/-- After the clock was read. -/
def finUpdate (db : PyStr) (v : Int) (m : Mongo) : Except ApiErr (Option Int) × Mongo :=
  let m := m.setData db (commitColl v (m.data db))
  (.ok (some v), release db { m with options := commitOptions v m.options })

/-- From `has_options()` on. -/
def finOptions (db : PyStr) (c : Int) (m : Mongo) : Except ApiErr (Option Int) × Mongo :=
  finUpdate db c
    (if !hasOptions m && !hasUncommittedOptions m then updateOptionsNoCommit db defaultOptions m else m)

/-- What the call will give from a point on, if it runs alone and reads `c` from the clock. -/
def fin (db : PyStr) (c : Int) (m : Mongo) : Pc → Except ApiErr (Option Int) × Mongo
  | .acquire => commit db c m
  | .checkData => if !hasUncommittedData (m.data db) && !hasUncommittedOptions m then (.ok none, release db m)
      else finOptions db c m
  | .checkOptions => if !hasUncommittedOptions m then (.ok none, release db m) else finOptions db c m
  | .hasOptions => finOptions db c m
  | .pendingOptions =>
    finUpdate db c (if !hasUncommittedOptions m then updateOptionsNoCommit db defaultOptions m else m)
  | .getOptions => finUpdate db c (updateOptionsNoCommit db defaultOptions m)
  | .upCheck l =>
    let m := if hasUncommittedOptions m then rollbackOptions m else m
    finUpdate db c (if sameAsLatest l defaultOptions then m else insertOptions db defaultOptions m)
  | .upRollback l =>
    let m := rollbackOptions m
    finUpdate db c (if sameAsLatest l defaultOptions then m else insertOptions db defaultOptions m)
  | .upInsert l => finUpdate db c (if sameAsLatest l defaultOptions then m else insertOptions db defaultOptions m)
  | .clock => finUpdate db c m
  | .data v => finUpdate db v m
  | .options v => (.ok (some v), release db { m with options := commitOptions v m.options })
  | .release r => (.ok r, release db m)
  | .raising => (.error (.py .unsupported), release db m)
  | .done r => (.ok r, m)
  | .locked => (.error .alreadyLocked, m)
  | .failed => (.error (.py .unsupported), m)

theorem commit_locked {db : PyStr} {c : Int} {m : Mongo} (h : db ∈ m.locks) :
    commit db c m = (.error .alreadyLocked, m) := by
  simp [commit, withLock, acquire, h]

theorem commit_free {db : PyStr} {c : Int} {m : Mongo} (h : db ∉ m.locks) :
    commit db c m = fin db c { m with locks := m.locks ++ [db] } .checkData := by
  simp only [commit, withLock, acquire, h, if_false, commitBody, fin, finOptions, finUpdate]
  split <;> rfl

theorem fin_step (db : PyStr) (c clock : Int) (pick : Nat) (m : Mongo) (pc : Pc) :
    fin db c (commitStep db clock pick m pc).1 (commitStep db clock pick m pc).2 =
      fin db (if pc = .clock then clock else c) m pc := by
  cases pc with
  | acquire =>
    by_cases h : db ∈ m.locks
    · rw [commitStep_acquire_locked h]; simp [fin, commit_locked h]
    · rw [commitStep_acquire_free h]; simp only [reduceCtorEq, if_false]
      conv => rhs; simp only [fin]
      rw [commit_free h]
  | checkData =>
    simp only [commitStep, fin, reduceCtorEq, if_false]
    by_cases h : hasUncommittedData (m.data db) = true
    · simp [h, fin]
    · simp [h, fin]
  | checkOptions =>
    simp only [commitStep, fin, reduceCtorEq, if_false]
    by_cases h : hasUncommittedOptions m = true
    · simp [h, fin]
    · simp [h, fin]
  | hasOptions =>
    simp only [commitStep, fin, reduceCtorEq, if_false, finOptions]
    by_cases h : hasOptions m = true
    · simp [h, fin]
    · simp [h, fin]
  | pendingOptions =>
    simp only [commitStep, fin, reduceCtorEq, if_false]
    by_cases h : hasUncommittedOptions m = true
    · simp [h, fin]
    · simp [h, fin]
  | getOptions => rfl
  | upCheck l =>
    simp only [commitStep, fin, reduceCtorEq, if_false]
    by_cases h : hasUncommittedOptions m = true
    · simp [h, fin]
    · simp [h, fin]
  | upRollback l => simp [commitStep, fin]
  | upInsert l => simp [commitStep, fin]
  | clock => simp [commitStep, fin]
  | data v =>
    simp only [commitStep, reduceCtorEq, if_false]
    by_cases h : hasUncommittedData (m.data db) = true
    · rw [if_pos h]
      simp only [fin, finUpdate, setData_data, commitColl_nth, setData_setData]
    · rw [if_neg h]
      simp only [fin, finUpdate]
      rw [commitColl_none (by simpa using h), setData_self]
  | options v =>
    simp only [commitStep, reduceCtorEq, if_false]
    by_cases h : hasUncommittedOptions m = true
    · rw [if_pos h]
      simp only [fin, commitOptions_nth]
    · rw [if_neg h]
      simp only [fin]
      rw [commitOptions_none (by simpa [hasUncommittedOptions] using h)]
  | release r => simp [commitStep, fin]
  | raising => simp [commitStep, fin]
  | done r => simp [commitStep, fin]
  | locked => simp [commitStep, fin]
  | failed => simp [commitStep, fin]

theorem fin_run (db : PyStr) : ∀ (choices : List (Int × Nat)) (c : Int) (m : Mongo) (pc : Pc),
    ∃ c', (c' = c ∨ c' ∈ choices.map Prod.fst) ∧
      fin db c (commitRun db (m, pc) choices).1 (commitRun db (m, pc) choices).2 = fin db c' m pc
  | [], c, m, pc => ⟨c, .inl rfl, rfl⟩
  | x :: choices, c, m, pc => by
    obtain ⟨c', h1, h2⟩ := fin_run db choices c (commitStep db x.1 x.2 m pc).1 (commitStep db x.1 x.2 m pc).2
    refine ⟨if pc = .clock then x.1 else c', ?_, ?_⟩
    · split
      · exact .inr (by simp)
      · rcases h1 with h1 | h1
        · exact .inl h1
        · exact .inr (by simp [h1])
    · rw [← fin_step, ← h2]; rfl

/-! ## Termination -/

theorem count_nth (v : Int) : ∀ {c : Coll}, hasUncommittedData c = true →
    (commitNth v 0 c).countP (fun d => d.version.isNone) < c.countP (fun d => d.version.isNone)
  | d :: c, h => by
    unfold commitNth
    by_cases hd : d.version.isNone = true
    · rw [if_pos hd]; simp [hd]
    · rw [if_neg hd]
      have : hasUncommittedData c = true := by
        simpa [hasUncommittedData, hd] using h
      have := count_nth v this
      simp only [List.countP_cons, hd]; simpa using this

theorem count_nth_options (v : Int) : ∀ {c : List OptDoc}, c.any (fun d => d.version.isNone) = true →
    (commitNthOptions v 0 c).countP (fun d => d.version.isNone) < c.countP (fun d => d.version.isNone)
  | d :: c, h => by
    unfold commitNthOptions
    by_cases hd : d.version.isNone = true
    · rw [if_pos hd]; simp [hd]
    · rw [if_neg hd]
      have : c.any (fun d => d.version.isNone) = true := by
        simpa [hd] using h
      have := count_nth_options v this
      simp only [List.countP_cons, hd]; simpa using this

theorem commitRun_cons (db : PyStr) (s : Mongo × Pc) (x : Int × Nat) (cs : List (Int × Nat)) :
    commitRun db s (x :: cs) = commitRun db (commitStep db x.1 x.2 s.1 s.2) cs := rfl

/-- From a point, the call can end. -/
def CanEnd (db : PyStr) (clock : Int) (s : Mongo × Pc) : Prop :=
  ∃ cs : List (Int × Nat), (∀ c ∈ cs, c.1 = clock) ∧ (commitRun db s cs).2.ended = true

theorem CanEnd.step {db : PyStr} {clock : Int} {s : Mongo × Pc}
    (h : CanEnd db clock (commitStep db clock 0 s.1 s.2)) : CanEnd db clock s := by
  obtain ⟨cs, h1, h2⟩ := h
  refine ⟨(clock, 0) :: cs, ?_, h2⟩
  intro c hc
  rcases List.mem_cons.1 hc with rfl | hc
  · rfl
  · exact h1 c hc

theorem canEnd_now {db : PyStr} {clock : Int} {s : Mongo × Pc} (h : s.2.ended = true) : CanEnd db clock s :=
  ⟨[], by simp, h⟩

theorem canEnd_release (db : PyStr) (clock : Int) (m : Mongo) (r : Option Int) : CanEnd db clock (m, .release r) :=
  .step (canEnd_now rfl)

theorem canEnd_options (db : PyStr) (clock v : Int) : ∀ (n : Nat) (m : Mongo),
    m.options.countP (fun d => d.version.isNone) = n → CanEnd db clock (m, .options v) := by
  intro n
  induction n using Nat.strongRecOn with
  | _ n ih =>
    intro m hm
    apply CanEnd.step
    simp only [commitStep]
    split
    · rename_i h
      refine ih _ ?_ _ rfl
      rw [← hm]; exact count_nth_options v h
    · exact canEnd_release _ _ _ _

theorem canEnd_data (db : PyStr) (clock v : Int) : ∀ (n : Nat) (m : Mongo),
    (m.data db).countP (fun d => d.version.isNone) = n → CanEnd db clock (m, .data v) := by
  intro n
  induction n using Nat.strongRecOn with
  | _ n ih =>
    intro m hm
    apply CanEnd.step
    simp only [commitStep]
    split
    · rename_i h
      refine ih _ ?_ _ rfl
      rw [← hm, setData_data]; exact count_nth v h
    · exact canEnd_options _ _ _ _ _ rfl

theorem canEnd (db : PyStr) (clock : Int) (m : Mongo) : CanEnd db clock (m, .acquire) := by
  have h1 : ∀ m, CanEnd db clock (m, .clock) := fun m => .step (canEnd_data _ _ _ _ _ rfl)
  have h2 : ∀ m l, CanEnd db clock (m, .upInsert l) := fun m l => .step (h1 _)
  have h3 : ∀ m l, CanEnd db clock (m, .upCheck l) := fun m l => .step (by
    simp only [commitStep]; split
    · exact .step (h2 _ _)
    · exact h2 _ _)
  have h4 : ∀ m, CanEnd db clock (m, .pendingOptions) := fun m => .step (by
    simp only [commitStep]; split
    · exact h1 _
    · exact .step (h3 _ _))
  have h5 : ∀ m, CanEnd db clock (m, .hasOptions) := fun m => .step (by
    simp only [commitStep]; split
    · exact h1 _
    · exact h4 _)
  have h6 : ∀ m, CanEnd db clock (m, .checkData) := fun m => .step (by
    simp only [commitStep]; split
    · exact h5 _
    · exact .step (by
        simp only [commitStep]; split
        · exact h5 _
        · exact canEnd_release _ _ _ _))
  apply CanEnd.step
  by_cases h : db ∈ m.locks
  · rw [commitStep_acquire_locked h]; exact canEnd_now rfl
  · rw [commitStep_acquire_free h]; exact h6 _

end Splitgill
