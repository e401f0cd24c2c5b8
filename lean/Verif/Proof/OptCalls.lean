import Verif.Proof.OptProcs
import Verif.Proof.World
import Verif.Spec.OptCalls
/-! # Lemmas: calls about options end -/

namespace Splitgill

theorem countP_commitNth {v : Int} : ∀ {k : Nat} {c : Coll}, k < c.countP (fun d => d.version.isNone) →
    (commitNth v k c).countP (fun d => d.version.isNone) + 1 = c.countP (fun d => d.version.isNone)
  | k, [], h => by simp at h
  | k, d :: c, h => by
    by_cases hd : d.version.isNone = true
    · rw [List.countP_cons, if_pos hd] at h ⊢
      cases k with
      | zero =>
        rw [commitNth, if_pos hd]
        simp
      | succ k =>
        rw [commitNth, if_pos hd]
        rw [List.countP_cons, if_pos hd, countP_commitNth (by omega)]
    · have e : commitNth v k (d :: c) = d :: commitNth v k c := by
        cases k <;> rw [commitNth, if_neg hd]
      rw [List.countP_cons, if_neg hd] at h ⊢
      rw [e, List.countP_cons, if_neg hd, Nat.add_zero, countP_commitNth (by omega)]
      rfl

theorem countP_commitNthOptions {v : Int} : ∀ {k : Nat} {c : List OptDoc}, k < c.countP (fun d => d.version.isNone) →
    (commitNthOptions v k c).countP (fun d => d.version.isNone) + 1 = c.countP (fun d => d.version.isNone)
  | k, [], h => by simp at h
  | k, d :: c, h => by
    by_cases hd : d.version.isNone = true
    · rw [List.countP_cons, if_pos hd] at h ⊢
      cases k with
      | zero =>
        rw [commitNthOptions, if_pos hd]
        simp
      | succ k =>
        rw [commitNthOptions, if_pos hd]
        rw [List.countP_cons, if_pos hd, countP_commitNthOptions (by omega)]
    · have e : commitNthOptions v k (d :: c) = d :: commitNthOptions v k c := by
        cases k <;> rw [commitNthOptions, if_neg hd]
      rw [List.countP_cons, if_neg hd] at h ⊢
      rw [e, List.countP_cons, if_neg hd, Nat.add_zero, countP_commitNthOptions (by omega)]
      rfl

theorem countP_deleteNth : ∀ {k : Nat} {c : List OptDoc}, k < c.countP (fun d => d.version.isNone) →
    (deleteNthOptions k c).countP (fun d => d.version.isNone) + 1 = c.countP (fun d => d.version.isNone)
  | k, [], h => by simp at h
  | k, d :: c, h => by
    by_cases hd : d.version.isNone = true
    · rw [List.countP_cons, if_pos hd] at h ⊢
      cases k with
      | zero =>
        rw [deleteNthOptions, if_pos hd]
      | succ k =>
        rw [deleteNthOptions, if_pos hd]
        rw [List.countP_cons, if_pos hd, countP_deleteNth (by omega)]
    · have e : deleteNthOptions k (d :: c) = d :: deleteNthOptions k c := by
        cases k <;> rw [deleteNthOptions, if_neg hd]
      rw [List.countP_cons, if_neg hd] at h ⊢
      rw [e, List.countP_cons, if_neg hd, Nat.add_zero, countP_deleteNth (by omega)]
      rfl

/-- The uncommitted records of the database. -/
def dataLeft (db : PyStr) (m : Mongo) : Nat := (m.data db).countP (fun d => d.version.isNone)
/-- The uncommitted options. -/
def optionsLeft (m : Mongo) : Nat := m.options.countP (fun d => d.version.isNone)

theorem hasUncommittedData_left {c : Coll} : hasUncommittedData c = true ↔ c.countP (fun d => d.version.isNone) ≠ 0 := by
  rw [hasUncommittedData, List.any_eq_true]
  rw [show (c.countP (fun d => d.version.isNone) ≠ 0) ↔ 0 < c.countP (fun d => d.version.isNone) by omega, List.countP_pos_iff]

theorem hasUncommittedOptions_left {m : Mongo} : hasUncommittedOptions m = true ↔ optionsLeft m ≠ 0 := by
  rw [hasUncommittedOptions, List.any_eq_true, optionsLeft]
  rw [show (m.options.countP (fun d => d.version.isNone) ≠ 0) ↔ 0 < m.options.countP (fun d => d.version.isNone) by omega, List.countP_pos_iff]

theorem optionsLeft_insert (db : PyStr) (o : ParsingOptions) (m : Mongo) : optionsLeft (insertOptions db o m) = optionsLeft m + 1 := by
  simp [optionsLeft, insertOptions, List.countP_append]

theorem optionsLeft_rollback (m : Mongo) : optionsLeft (rollbackOptions m) = 0 := by
  rw [optionsLeft, List.countP_eq_zero]
  intro d hd
  have := (List.mem_filter.1 hd).2
  cases e : d.version <;> simp_all

/-- The commands that are left, at most. -/
def Pc.rank (db : PyStr) (m : Mongo) : Pc → Nat
  | .acquire => 14 + dataLeft db m + optionsLeft m
  | .checkData => 13 + dataLeft db m + optionsLeft m
  | .checkOptions => 12 + dataLeft db m + optionsLeft m
  | .hasOptions => 11 + dataLeft db m + optionsLeft m
  | .pendingOptions => 10 + dataLeft db m + optionsLeft m
  | .getOptions => 9 + dataLeft db m + optionsLeft m
  | .upCheck _ => 8 + dataLeft db m + optionsLeft m
  | .upRollback _ => 7 + dataLeft db m + optionsLeft m
  | .upInsert _ => 6 + dataLeft db m + optionsLeft m
  | .clock => 4 + dataLeft db m + optionsLeft m
  | .data _ => 3 + dataLeft db m + optionsLeft m
  | .options _ => 2 + optionsLeft m
  | .release _ => 1
  | .raising => 1
  | _ => 0

/-- The same for calls about options. -/
def OptPc.rank (db : PyStr) (m : Mongo) : OptPc → Nat
  | .getOptions => 19 + dataLeft db m + optionsLeft m
  | .check _ => 18 + dataLeft db m + optionsLeft m
  | .rollback _ => 17 + dataLeft db m + optionsLeft m
  | .insert _ => 16 + dataLeft db m + optionsLeft m
  | .commit pc => pc.rank db m
  | .delete => 1 + optionsLeft m
  | _ => 0

theorem Pc.rank_zero {db : PyStr} {m : Mongo} {pc : Pc} (h : pc.rank db m = 0) : pc.ended = true := by
  cases pc <;> simp only [Pc.rank] at h <;> first | rfl | omega

theorem OptPc.rank_zero {db : PyStr} {m : Mongo} {pc : OptPc} (h : pc.rank db m = 0) : pc.ended = true := by
  cases pc with
  | commit pc => exact Pc.rank_zero h
  | _ => simp only [OptPc.rank] at h; first | rfl | omega

theorem Pc.rank_le (db : PyStr) (m : Mongo) (pc : Pc) : pc.rank db m ≤ 14 + dataLeft db m + optionsLeft m := by
  cases pc <;> simp only [Pc.rank] <;> omega

theorem OptPc.rank_le (db : PyStr) (m : Mongo) (pc : OptPc) : pc.rank db m ≤ 19 + dataLeft db m + optionsLeft m := by
  cases pc with
  | commit pc => have := pc.rank_le db m; simp only [OptPc.rank]; omega
  | _ => simp only [OptPc.rank]; omega

theorem commitStep_rank {db : PyStr} {clock : Int} {pick : Nat} {m : Mongo} {pc : Pc} (hd : ∀ v, pc = .data v → dataLeft db m ≠ 0 → pick < dataLeft db m)
    (ho : ∀ v, pc = .options v → optionsLeft m ≠ 0 → pick < optionsLeft m) (h : pc.ended = false) :
    (commitStep db clock pick m pc).2.rank db (commitStep db clock pick m pc).1 < pc.rank db m := by
  have dl : ∀ o l, dataLeft db { m with options := o, locks := l } = dataLeft db m := fun _ _ => rfl
  have ol : ∀ d l, optionsLeft { m with data := d, locks := l } = optionsLeft m := fun _ _ => rfl
  cases pc with
  | acquire =>
    by_cases hl : db ∈ m.locks
    · rw [commitStep_acquire_locked hl]
      simp only [Pc.rank]
      omega
    · rw [commitStep_acquire_free hl]
      simp only [Pc.rank, dataLeft, optionsLeft]
      omega
  | checkData => simp only [commitStep]; split <;> simp only [Pc.rank] <;> omega
  | checkOptions => simp only [commitStep]; split <;> simp only [Pc.rank] <;> omega
  | hasOptions => simp only [commitStep]; split <;> simp only [Pc.rank] <;> omega
  | pendingOptions => simp only [commitStep]; split <;> simp only [Pc.rank] <;> omega
  | getOptions => simp only [commitStep, Pc.rank]; omega
  | upCheck l => simp only [commitStep]; split <;> simp only [Pc.rank] <;> omega
  | upRollback l =>
    simp only [commitStep, Pc.rank]
    rw [optionsLeft_rollback]
    show 6 + dataLeft db m + 0 < _
    omega
  | upInsert l =>
    simp only [commitStep]
    split
    · simp only [Pc.rank]; omega
    · simp only [Pc.rank]
      rw [optionsLeft_insert]
      show 4 + dataLeft db m + _ < _
      omega
  | clock => simp only [commitStep, Pc.rank]; omega
  | data v =>
    simp only [commitStep]
    split
    · rename_i hu
      have hu : dataLeft db m ≠ 0 := hasUncommittedData_left.1 hu
      have := countP_commitNth (v := v) (hd v rfl hu)
      simp only [Pc.rank]
      have e : dataLeft db (m.setData db (commitNth v pick (m.data db))) + 1 = dataLeft db m := by
        simpa [dataLeft, Mongo.setData] using this
      have e' : optionsLeft (m.setData db (commitNth v pick (m.data db))) = optionsLeft m := rfl
      omega
    · simp only [Pc.rank]; omega
  | options v =>
    simp only [commitStep]
    split
    · rename_i hu
      have := countP_commitNthOptions (v := v) (ho v rfl (hasUncommittedOptions_left.1 hu))
      simp only [Pc.rank]
      have e : optionsLeft { m with options := commitNthOptions v pick m.options } + 1 = optionsLeft m := this
      omega
    · simp only [Pc.rank]; omega
  | release r => simp [commitStep, Pc.rank]
  | raising => simp [commitStep, Pc.rank]
  | done r => cases h
  | locked => cases h
  | failed => cases h

/-- The process is at a command of its call. -/
def OptProc.Sound (x : OptProc) : Prop :=
  match x.call, x.pc with
  | _, .commit _ => True
  | _, .failed => True
  | .update _ _, .delete => False
  | .update _ _, _ => True
  | .rollback, .delete => True
  | .rollback, .done => True
  | _, _ => False

theorem optStep_rank {x : OptProc} (hs : x.Sound) {clock : Int} {pick : Nat} {m : Mongo} (hp : docsLeft m x ≠ 0 → pick < docsLeft m x)
    (h : x.pc.ended = false) :
    (x.call.step x.db clock pick m x.pc).2.rank x.db (x.call.step x.db clock pick m x.pc).1 < x.pc.rank x.db m := by
  obtain ⟨db, call, pc, alive⟩ := x
  dsimp only at *
  cases pc with
  | commit c =>
    simp only [OptCall.step, OptPc.rank]
    exact commitStep_rank (by rintro v rfl; exact hp) (by rintro v rfl; exact hp) h
  | delete =>
    simp only [OptCall.step]
    split
    · rename_i hu
      have := countP_deleteNth (hp (hasUncommittedOptions_left.1 hu))
      simp only [OptPc.rank]
      have e : optionsLeft { m with options := deleteNthOptions pick m.options } + 1 = optionsLeft m := this
      omega
    · simp only [OptPc.rank]; omega
  | done => cases h
  | failed => cases h
  | getOptions =>
    cases call with
    | update o b => simp only [OptCall.step, updateStep, OptPc.rank]; omega
    | _ => cases hs
  | check l =>
    cases call with
    | update o b => simp only [OptCall.step, updateStep]; split <;> simp only [OptPc.rank] <;> omega
    | _ => cases hs
  | rollback l =>
    cases call with
    | update o b =>
      simp only [OptCall.step, updateStep]
      split
      · rename_i hu
        have := countP_deleteNth (hp (hasUncommittedOptions_left.1 hu))
        simp only [OptPc.rank]
        have e : optionsLeft { m with options := deleteNthOptions pick m.options } + 1 = optionsLeft m := this
        have e' : dataLeft db { m with options := deleteNthOptions pick m.options } = dataLeft db m := rfl
        omega
      · simp only [OptPc.rank]; omega
    | _ => cases hs
  | insert l =>
    cases call with
    | update o b =>
      simp only [OptCall.step, updateStep]
      split
      · simp only [OptPc.rank]; omega
      · have e : dataLeft db (insertOptions db o m) = dataLeft db m := rfl
        split <;> simp only [OptPc.rank, Pc.rank, optionsLeft_insert, e] <;> omega
    | _ => cases hs

theorem OptProc.Sound.next {x : OptProc} (hs : x.Sound) (clock : Int) (pick : Nat) (m : Mongo) (alive : Bool) :
    OptProc.Sound ⟨x.db, x.call, (x.call.step x.db clock pick m x.pc).2, alive⟩ := by
  obtain ⟨db, call, pc, al⟩ := x
  cases pc with
  | commit c => cases call <;> simp only [OptCall.step, OptProc.Sound]
  | delete =>
    cases call with
    | update o b => cases hs
    | commit => cases hs
    | rollback => simp only [OptCall.step]; split <;> simp only [OptProc.Sound]
  | done =>
    cases call with
    | commit => cases hs
    | _ => simp only [OptCall.step, updateStep, OptProc.Sound]
  | failed => cases call <;> simp only [OptCall.step, updateStep, OptProc.Sound]
  | getOptions =>
    cases call with
    | update o b => simp only [OptCall.step, updateStep, OptProc.Sound]
    | _ => cases hs
  | check l =>
    cases call with
    | update o b => simp only [OptCall.step, updateStep]; split <;> simp only [OptProc.Sound]
    | _ => cases hs
  | rollback l =>
    cases call with
    | update o b => simp only [OptCall.step, updateStep]; split <;> simp only [OptProc.Sound]
    | _ => cases hs
  | insert l =>
    cases call with
    | update o b => simp only [OptCall.step, updateStep]; split <;> (try split) <;> simp only [OptProc.Sound]
    | _ => cases hs

theorem OptProc.Sound.raise {x : OptProc} (hs : x.Sound) (alive : Bool) : OptProc.Sound ⟨x.db, x.call, x.pc.raise, alive⟩ := by
  obtain ⟨db, call, pc, al⟩ := x
  cases pc <;> cases call <;> first | trivial | cases hs

theorem OptProc.Sound.of {x y : OptProc} (hs : x.Sound) (h1 : y.call = x.call) (h2 : y.pc = x.pc) : y.Sound := by
  unfold OptProc.Sound at *
  rw [h1, h2]
  exact hs

/-- All processes are at commands of their calls. -/
def OptSys.Sound (s : OptSys) : Prop := ∀ q x, s.procs q = some x → x.Sound

theorem OptSys.Sound.act {s : OptSys} (hs : s.Sound) (a : OptAct) : (s.act a).Sound := by
  intro q x' hx'
  rcases OptSys.act_procs hx' with ⟨x, h1, h2, h3, h4 | h4 | ⟨clock, pick, _, h4⟩⟩ | ⟨_, h4⟩
  · exact (hs q x h1).of h3 h4
  · exact ((hs q x h1).raise x'.alive).of h3 h4
  · exact ((hs q x h1).next clock pick s.mongo x'.alive).of h3 h4
  · unfold OptProc.Sound
    rw [h4]
    cases x'.call <;> trivial

theorem OptSys.Sound.run : ∀ (acts : List OptAct) {s : OptSys}, s.Sound → (s.run acts).Sound
  | [], _, h => h
  | a :: acts, _, h => OptSys.Sound.run acts (h.act a)

theorem OptSys.step_alive {s : OptSys} {p : Nat} {x : OptProc} (h : s.procs p = some x) (ha : x.alive = true) (clock : Int) (pick : Nat) :
    s.act (.step p clock pick) =
      OptSys.set { s with mongo := (x.call.step x.db clock pick s.mongo x.pc).1 } p ⟨x.db, x.call, (x.call.step x.db clock pick s.mongo x.pc).2, true⟩ := by
  obtain ⟨db, call, pc, alive⟩ := x
  cases ha
  simp only [OptSys.act, h]

/-- A call that has ended stays as it is. -/
theorem ended_step {x : OptProc} (h : x.pc.ended = true) (clock : Int) (pick : Nat) (m : Mongo) :
    x.call.step x.db clock pick m x.pc = (m, x.pc) := by
  obtain ⟨db, call, pc, alive⟩ := x
  cases pc with
  | commit c => cases c <;> first | rfl | cases h
  | done => cases call <;> rfl
  | failed => cases call <;> rfl
  | _ => cases h

theorem alone_ends {p : Nat} : ∀ (turns : List (Int × Nat)) {s : OptSys} {x : OptProc}, s.procs p = some x → x.alive = true → x.Sound →
    TakesDocs p s turns → x.pc.rank x.db s.mongo ≤ turns.length →
    ∃ y, (s.alone p turns).procs p = some y ∧ y.alive = true ∧ y.db = x.db ∧ y.call = x.call ∧ y.pc.ended = true
  | [], s, x, hx, ha, hs, ht, hl => ⟨x, hx, ha, rfl, rfl, OptPc.rank_zero (db := x.db) (m := s.mongo) (by simpa using hl)⟩
  | t :: turns, s, x, hx, ha, hs, ht, hl => by
    have key : s.alone p (t :: turns) = (s.act (.step p t.1 t.2)).alone p turns := rfl
    have hx' : (s.act (.step p t.1 t.2)).procs p = some ⟨x.db, x.call, (x.call.step x.db t.1 t.2 s.mongo x.pc).2, true⟩ := by
      rw [OptSys.step_alive hx ha, OptSys.set_procs, if_pos rfl]
    have hm : (s.act (.step p t.1 t.2)).mongo = (x.call.step x.db t.1 t.2 s.mongo x.pc).1 := by
      rw [OptSys.step_alive hx ha]; rfl
    have hr : (x.call.step x.db t.1 t.2 s.mongo x.pc).2.rank x.db (x.call.step x.db t.1 t.2 s.mongo x.pc).1 ≤ turns.length := by
      by_cases he : x.pc.ended = true
      · rw [ended_step he]
        have : x.pc.rank x.db s.mongo = 0 := by
          cases h : x.pc with
          | commit c => rw [h] at he; cases c <;> first | rfl | cases he
          | done => rfl
          | failed => rfl
          | _ => rw [h] at he; cases he
        dsimp only
        omega
      · have := optStep_rank (clock := t.1) hs (ht.1 x hx) (by simpa using he)
        simp only [List.length_cons] at hl
        omega
    obtain ⟨y, h1, h2, h3, h4, h5⟩ := alone_ends turns hx' rfl (hs.next _ _ _ _) ht.2 (by rw [hm]; exact hr)
    exact ⟨y, by rw [key]; exact h1, h2, h3, h4, h5⟩

/-- The state as one of processes that commit. -/
def OptSys.locks (s : OptSys) : Sys :=
  { mongo := s.mongo
    procs := fun q => (s.procs q).bind (fun x => match x.pc with | .commit c => some ⟨x.db, c, x.alive⟩ | _ => none) }

theorem OptSys.locks_holds {s : OptSys} {p : Nat} {db : PyStr} : s.locks.Holds p db ↔ s.Inside p db := by
  constructor
  · rintro ⟨P, h1, h2, h3, h4⟩
    obtain ⟨x, h5, h6⟩ := Option.bind_eq_some_iff.1 h1
    split at h6
    · rename_i c hc
      cases h6
      exact ⟨x, h5, h2, h4, c, hc, h3⟩
    · cases h6
  · rintro ⟨x, h1, h2, h3, c, h4, h5⟩
    refine ⟨⟨x.db, c, x.alive⟩, ?_, h2, h5, h3⟩
    simp only [OptSys.locks, h1, Option.bind_some, h4]

theorem LockInv.weaken {s s' : Sys} (h : LockInv s) (hl : s'.mongo.locks = s.mongo.locks) (hh : ∀ p db, s'.Holds p db → s.Holds p db) : LockInv s' :=
  ⟨by rw [hl]; exact h.nodup, fun p db hp => by rw [hl]; exact h.has p db (hh p db hp), fun p q db hp hq => h.one p q db (hh p db hp) (hh q db hq)⟩

theorem updateStep_locks (db : PyStr) (o : ParsingOptions) (b : Bool) (pick : Nat) (m : Mongo) (pc : OptPc) :
    (updateStep db o b pick m pc).1.locks = m.locks := by
  cases pc <;> simp only [updateStep] <;> repeat (first | rfl | split)

theorem updateStep_inside {db : PyStr} {o : ParsingOptions} {b : Bool} {pick : Nat} {m : Mongo} {pc : OptPc} (hpc : ∀ c, pc ≠ .commit c) {c : Pc}
    (h : (updateStep db o b pick m pc).2 = .commit c) : c = .acquire := by
  cases pc <;> simp only [updateStep] at h
  case commit c => exact absurd rfl (hpc c)
  all_goals (first | (cases h; done) | (split at h <;> first | (cases h; done) | (cases h; rfl) | (split at h <;> first | (cases h; done) | (cases h; rfl))))

/-- A command outside of a commit does not touch the locks and does not go inside. -/
theorem step_outside {x : OptProc} (hx : ∀ c, x.pc ≠ .commit c) (clock : Int) (pick : Nat) (m : Mongo) :
    (x.call.step x.db clock pick m x.pc).1.locks = m.locks ∧
      ∀ c, (x.call.step x.db clock pick m x.pc).2 = .commit c → c = .acquire := by
  obtain ⟨db, call, pc, alive⟩ := x
  dsimp only at *
  cases pc with
  | commit c => exact absurd rfl (hx c)
  | delete => simp only [OptCall.step]; split <;> exact ⟨rfl, fun c hc => by cases hc⟩
  | _ =>
    cases call with
    | update o b =>
      simp only [OptCall.step]
      exact ⟨updateStep_locks _ _ _ _ _ _, fun c hc => updateStep_inside (by simp) hc⟩
    | _ => exact ⟨rfl, fun c hc => by cases hc⟩

theorem lockInv_opt {s : OptSys} (h : LockInv s.locks) (a : OptAct)
    (hc : match a with | .adminRelease id => ∀ p, ¬ s.Inside p id | _ => True) : LockInv (s.act a).locks := by
  cases a with
  | start p db call =>
    refine h.weaken ?_ ?_
    · simp only [OptSys.act]; split <;> rfl
    · intro q d hq
      rw [OptSys.locks_holds] at hq ⊢
      simp only [OptSys.act] at hq
      split at hq
      · obtain ⟨x, h1, h2, h3, c, h4, h5⟩ := hq
        rw [OptSys.set_procs] at h1
        split at h1
        · cases h1
          cases call <;> cases h4
          cases h5
        · exact ⟨x, h1, h2, h3, c, h4, h5⟩
      · exact hq
  | raise p =>
    refine h.weaken ?_ ?_
    · simp only [OptSys.act]; split <;> rfl
    · intro q d hq
      rw [OptSys.locks_holds] at hq ⊢
      simp only [OptSys.act] at hq
      split at hq
      · rename_i db call pc hp
        obtain ⟨x, h1, h2, h3, c, h4, h5⟩ := hq
        rw [OptSys.set_procs] at h1
        split at h1
        · rename_i e
          subst e
          cases h1
          refine ⟨_, hp, rfl, h3, ?_⟩
          dsimp only at h4
          cases pc with
          | commit c' =>
            simp only [OptPc.raise] at h4
            split at h4
            · rename_i hi
              exact ⟨c', rfl, hi⟩
            · split at h4
              · cases h4
                exact ⟨_, rfl, h5⟩
              · cases h4
                cases h5
          | _ => cases h4
        · exact ⟨x, h1, h2, h3, c, h4, h5⟩
      · exact hq
  | crash p =>
    refine h.weaken ?_ ?_
    · simp only [OptSys.act]; split <;> rfl
    · intro q d hq
      rw [OptSys.locks_holds] at hq ⊢
      simp only [OptSys.act] at hq
      split at hq
      · obtain ⟨x, h1, h2, h3, c, h4, h5⟩ := hq
        rw [OptSys.set_procs] at h1
        split at h1
        · cases h1
          cases h2
        · exact ⟨x, h1, h2, h3, c, h4, h5⟩
      · exact hq
  | others data => exact h.weaken rfl (fun p db hp => hp)
  | adminRelease id => exact lockInv_act h (.adminRelease id) (fun p hp => hc p (OptSys.locks_holds.1 hp))
  | step p clock pick =>
    by_cases hp : ∃ x, s.procs p = some x ∧ x.alive = true
    · obtain ⟨x, hx, ha⟩ := hp
      by_cases hcm : ∃ c, x.pc = .commit c
      · obtain ⟨c, hcm⟩ := hcm
        have hpx : s.locks.procs p = some ⟨x.db, c, true⟩ := by simp [OptSys.locks, hx, hcm, ha]
        have e : (s.act (.step p clock pick)).locks = s.locks.act (.step p clock pick) := by
          rw [OptSys.step_alive hx ha]
          simp only [Sys.act, hpx]
          simp only [OptSys.locks, OptCall.step, hcm, OptSys.set]
          congr 1
          funext q
          by_cases hq : q = p
          · simp [hq]
          · simp [hq]
        rw [e]
        exact lockInv_act h _ trivial
      · have hcm : ∀ c, x.pc ≠ .commit c := fun c e => hcm ⟨c, e⟩
        have ho := step_outside hcm clock pick s.mongo
        rw [OptSys.step_alive hx ha]
        refine h.weaken ho.1 ?_
        intro q d hq
        rw [OptSys.locks_holds] at hq ⊢
        obtain ⟨y, h1, h2, h3, c, h4, h5⟩ := hq
        rw [OptSys.set_procs] at h1
        split at h1
        · cases h1
          rw [ho.2 c h4] at h5
          cases h5
        · exact ⟨y, h1, h2, h3, c, h4, h5⟩
    · have e : s.act (.step p clock pick) = s := by
        simp only [OptSys.act]
        split
        · rename_i h'
          exact absurd ⟨_, h', rfl⟩ hp
        · rfl
      rw [e]
      exact h

theorem lockInv_opts : ∀ (acts : List OptAct) {s : OptSys}, LockInv s.locks → CarefulOpt s acts → LockInv (s.run acts).locks
  | [], _, h, _ => h
  | a :: acts, s, h, hc => lockInv_opts acts (s := s.act a) (lockInv_opt h a hc.1) hc.2

theorem lockInv_optStart {s : OptSys} (hs : ∀ q, s.procs q = none) (h : s.mongo.locks.Nodup) : LockInv s.locks :=
  ⟨h, fun p db hp => (by obtain ⟨x, h1, _⟩ := OptSys.locks_holds.1 hp; rw [hs] at h1; cases h1),
    fun p q db hp _ => (by obtain ⟨x, h1, _⟩ := OptSys.locks_holds.1 hp; rw [hs] at h1; cases h1)⟩

end Splitgill
