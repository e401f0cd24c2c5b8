import Verif.Proof.World4
/-!
# C20-C23: locks, commit, interrupted commits

`Sys.run` runs any number of processes calling `commit()`, command by command, in any order, with any of them
raising or dying anywhere and with any changes of the data in between.
-/

namespace Splitgill.Props
open Splitgill

/-- **C20** in every state reached by any actions of any processes, at most one living process is between
acquiring and releasing the lock of a database (locks being released by hand only when no living process
holds them), and its lock is there. -/
theorem C20_mutex (m : Mongo) (hm : m.locks.Nodup) (acts : List Act) (hc : Careful (Sys.init m) acts)
    (db : PyStr) :
    (∀ p q, ((Sys.init m).run acts).Holds p db → ((Sys.init m).run acts).Holds q db → p = q) ∧
    (∀ p, ((Sys.init m).run acts).Holds p db → isLocked db ((Sys.init m).run acts).mongo = true) := by
  have h := lockInv_run acts (lockInv_init hm) hc
  exact ⟨fun p q => h.one p q db, fun p hp => by simpa [isLocked] using h.has p db hp⟩

/-- **C20** a process that starts a commit while another is inside gets `AlreadyLocked`: its command changes
nothing, and nothing it does afterwards changes anything. -/
theorem C20_loser_changes_nothing (m : Mongo) (hm : m.locks.Nodup) (acts : List Act)
    (hc : Careful (Sys.init m) acts) (db : PyStr) (p q : Nat) (hp : ((Sys.init m).run acts).Holds p db)
    (hq : ((Sys.init m).run acts).procs q = some ⟨db, .acquire, true⟩) (clock : Int) (pick : Nat) :
    let s := (Sys.init m).run acts
    let s' := s.act (.step q clock pick)
    s'.mongo = s.mongo ∧ s'.procs q = some ⟨db, .locked, true⟩ ∧
    ∀ (clock' : Int) (pick' : Nat), (s'.act (.step q clock' pick')).mongo = s'.mongo ∧
      (s'.act (.raise q)).mongo = s'.mongo ∧ (s'.act (.crash q)).mongo = s'.mongo := by
  intro s s'
  have h := lockInv_run acts (lockInv_init hm) hc
  have hl : db ∈ s.mongo.locks := h.has p db hp
  have hs' : s' = { mongo := s.mongo, procs := fun r => if r = q then some ⟨db, .locked, true⟩ else s.procs r } := by
    have : s.procs q = some ⟨db, .acquire, true⟩ := hq
    simp only [s', Sys.act, this, commitStep_acquire_locked hl]
  rw [hs']
  refine ⟨rfl, by simp, ?_⟩
  intro c' p'
  refine ⟨?_, ?_, ?_⟩
  · simp [Sys.act, commitStep]
  · simp [Sys.act, Pc.inside, Pc.ended]
  · simp [Sys.act]

/-- Two processes commit `x`; the first is inside, the second is about to acquire the lock. -/
def exActs : List Act := [.start 0 ['x'], .start 1 ['x'], .step 0 5 0]

example : Careful (Sys.init Mongo.empty) exActs ∧ ((Sys.init Mongo.empty).run exActs).Holds 0 ['x'] ∧
    ((Sys.init Mongo.empty).run exActs).procs 1 = some ⟨['x'], .acquire, true⟩ := by
  refine ⟨?_, ?_, ?_⟩
  · simp [exActs, Careful]
  · exact ⟨⟨['x'], .checkData, true⟩, by decide, rfl, rfl, rfl⟩
  · decide

/-- **C21** a lock taken with the context manager is released when the body returns or raises, whatever the
body does (as long as the body itself leaves the lock documents alone); while the body runs the lock is there;
if it is held already, the body does not run. -/
theorem C21_context_manager {α : Type} (id : PyStr) (body : Mongo → Except ApiErr α × Mongo)
    (hb : ∀ m, (body m).2.locks = m.locks) (m : Mongo) :
    (isLocked id m = false → ∃ m1, isLocked id m1 = true ∧ m1.data = m.data ∧ m1.options = m.options ∧
      (withLock id body m).1 = (body m1).1 ∧
      (withLock id body m).2.data = (body m1).2.data ∧ (withLock id body m).2.options = (body m1).2.options ∧
      (withLock id body m).2.locks = m.locks ∧ isLocked id (withLock id body m).2 = false) ∧
    (isLocked id m = true → withLock id body m = (.error .alreadyLocked, m)) := by
  constructor
  · intro h
    have h' : id ∉ m.locks := by simpa [isLocked] using h
    refine ⟨{ m with locks := m.locks ++ [id] }, by simp [isLocked], rfl, rfl, ?_⟩
    have hl := hb { m with locks := m.locks ++ [id] }
    simp only [withLock, acquire, h', if_false, release, isLocked, hl, erase_append_self h', decide_false,
      and_self]
  · intro h
    have h' : id ∈ m.locks := by simpa [isLocked] using h
    simp [withLock, acquire, h']

/-- **C21** after a process dies inside, the lock stays whatever else happens, until it is released by hand:
it is there in every later state, and every commit that gets to acquiring it ends with `AlreadyLocked` and
changes nothing. -/
theorem C21_crash_keeps_lock (m : Mongo) (hm : m.locks.Nodup) (acts : List Act)
    (hc : Careful (Sys.init m) acts) (db : PyStr) (p : Nat) (hp : ((Sys.init m).run acts).Holds p db)
    (more : List Act) (hmore : ∀ a ∈ more, a ≠ .adminRelease db) :
    let s := (((Sys.init m).run acts).act (.crash p)).run more
    isLocked db s.mongo = true ∧
    (∀ q, s.procs q = some ⟨db, .acquire, true⟩ → ∀ clock pick,
      (s.act (.step q clock pick)).mongo = s.mongo ∧
      (s.act (.step q clock pick)).procs q = some ⟨db, .locked, true⟩) ∧
    (∀ clock, commit db clock s.mongo = (.error .alreadyLocked, s.mongo)) := by
  intro s
  have h := lockInv_run acts (lockInv_init hm) hc
  obtain ⟨h1, h2⟩ := act_crash h hp
  have h3 := (stale_run more h1 h2 hmore).1
  have h3 : db ∈ s.mongo.locks := h3
  refine ⟨by simpa [isLocked] using h3, ?_, fun clock => commit_locked h3⟩
  intro q hq clock pick
  simp only [Sys.act, hq, commitStep_acquire_locked h3]
  simp

/-- **C21** after releasing by hand the lock can be acquired again. -/
theorem C21_release_frees (m : Mongo) (hm : m.locks.Nodup) (acts : List Act) (hc : Careful (Sys.init m) acts)
    (db : PyStr) :
    let s := ((Sys.init m).run acts).act (.adminRelease db)
    isLocked db s.mongo = false ∧ (acquire db s.mongo).1 = true := by
  intro s
  have h := lockInv_run acts (lockInv_init hm) hc
  have hn : db ∉ s.mongo.locks := by
    simp only [s, Sys.act, release]
    intro h'
    exact (h.nodup.mem_erase_iff.1 h').1 rfl
  exact ⟨by simpa [isLocked] using hn, by simp [acquire, hn]⟩

/-- **C21** commands of a commit of one database and acquiring or releasing one lock never change whether
another is locked. -/
theorem C21_other_locks (id other : PyStr) (ho : other ≠ id) (m : Mongo) :
    isLocked other (acquire id m).2 = isLocked other m ∧
    isLocked other (release id m) = isLocked other m ∧
    ∀ clock pick pc, isLocked other (commitStep id clock pick m pc).1 = isLocked other m := by
  refine ⟨?_, ?_, ?_⟩
  · simp only [isLocked, acquire]
    split
    · rfl
    · simp [ho]
  · simp only [isLocked, release, List.mem_erase_of_ne ho]
  · intro clock pick pc
    simp only [isLocked, step_other_lock ho]

example : ((Sys.init Mongo.empty).run exActs).Holds 0 ['x'] ∧
    (((((Sys.init Mongo.empty).run exActs).act (.crash 0)).run [.start 2 ['x']]).procs 2) =
      some ⟨['x'], .acquire, true⟩ :=
  ⟨⟨⟨['x'], .checkData, true⟩, by decide, rfl, rfl, rfl⟩, by decide⟩

/-- **C20** what the commands of a commit running alone add up to: it always comes to an end, and the result
is that of `commit` with one of the clock readings. -/
theorem C20_alone (db : PyStr) (m : Mongo) :
    (∀ clock, ∃ cs : List (Int × Nat), (∀ c ∈ cs, c.1 = clock) ∧ (commitRun db (m, .acquire) cs).2.ended = true) ∧
    ∀ (clock : Int) (cs : List (Int × Nat)), (∀ c ∈ cs, c.1 = clock) →
      (commitRun db (m, .acquire) cs).2.ended = true →
      (commitRun db (m, .acquire) cs).1 = (commit db clock m).2 ∧
      (∀ r, (commitRun db (m, .acquire) cs).2 = .done r → (commit db clock m).1 = .ok r) ∧
      ((commitRun db (m, .acquire) cs).2 = .locked → (commit db clock m).1 = .error .alreadyLocked) := by
  constructor
  · intro clock; exact canEnd db clock m
  · intro clock cs hcs hend
    obtain ⟨c', h1, h2⟩ := fin_run db cs clock m .acquire
    have hc' : c' = clock := by
      rcases h1 with h1 | h1
      · exact h1
      · rw [List.mem_map] at h1
        obtain ⟨x, hx, rfl⟩ := h1
        exact hcs x hx
    subst hc'
    have h3 : fin db c' m .acquire = commit db c' m := rfl
    rw [h3] at h2
    rw [← h2]
    generalize commitRun db (m, .acquire) cs = s at hend
    obtain ⟨m', pc⟩ := s
    cases pc <;> simp [Pc.ended] at hend <;> simp [fin]

/-- **C22** a commit (of a database that is not locked, when no other database has uncommitted options, for
which see C24) returns `None` and changes nothing if and only if nothing is uncommitted; otherwise it returns
the version, after which no data and no options are uncommitted and exactly the uncommitted records got that
version; the options are those there were, with the version, and the default options if there were none. -/
theorem C22_commit (db : PyStr) (clock : Int) (m : Mongo) (hl : isLocked db m = false) (ho : OthersClean m db) :
    (¬ PendingData m db ∧ ¬ PendingOptions m db → commit db clock m = (.ok none, m)) ∧
    (PendingData m db ∨ PendingOptions m db →
      let m' := (commit db clock m).2
      (commit db clock m).1 = .ok (some clock) ∧ ¬ PendingData m' db ∧ ¬ PendingOptions m' db ∧
      Committed [clock] (m.data db) (m'.data db) ∧ m'.locks = m.locks ∧
      ∃ extra, (extra = [] ∨ (m.options = [] ∧ extra = [⟨db, none, startOptions.toDoc⟩])) ∧
        List.Forall₂ (OptGetsVersion [clock]) (m.options ++ extra) m'.options) := by
  have hl : db ∉ m.locks := by simpa [isLocked] using hl
  have hpo : hasUncommittedOptions m = true ↔ PendingOptions m db := by
    rw [hasUncommittedOptions_iff]
    exact ⟨fun ⟨d, h1, h2⟩ => ⟨d, h1, ho d h1 h2, h2⟩, fun ⟨d, h1, _, h2⟩ => ⟨d, h1, h2⟩⟩
  rw [commit_eq hl]
  constructor
  · rintro ⟨h1, h2⟩
    rw [if_neg]
    rw [Bool.or_eq_true, hasUncommittedData_iff, hpo]
    rintro (h | h)
    · exact h1 h
    · exact h2 h
  · intro h
    rw [if_pos (by rw [Bool.or_eq_true, hasUncommittedData_iff, hpo]; exact h)]
    refine ⟨rfl, ?_, ?_, ?_, rfl, ?_⟩
    · rintro ⟨d, h1, h2⟩
      simp only [setData_data] at h1
      exact commitColl_clean _ _ d h1 h2
    · rintro ⟨d, h1, _, h2⟩
      exact commitOptions_clean _ _ d h1 h2
    · simp only [setData_data]; exact commitColl_gets _ _
    · by_cases hd : (hasOptions m || hasUncommittedOptions m) = true
      · refine ⟨[], .inl rfl, ?_⟩
        simp only [withDefaults, hd, if_true, List.append_nil]
        exact (OptPart.refl _ _).commit (by simp)
      · have h0 : m.options = [] := by
          simp only [Bool.or_eq_true, not_or, Bool.not_eq_true] at hd
          exact no_options hd.1 hd.2
        refine ⟨[⟨db, none, startOptions.toDoc⟩], .inr ⟨h0, rfl⟩, ?_⟩
        simp only [withDefaults, hd]
        exact (OptPart.refl _ _).commit (by simp)

/-- A client whose database `x` has one committed and one uncommitted record, no options. -/
def exMongo : Mongo :=
  (Mongo.empty).setData ['x'] [⟨['a'], some 1, [(['f'], .int 1)], []⟩, ⟨['b'], none, [(['f'], .int 2)], []⟩]

example : isLocked ['x'] exMongo = false ∧ OthersClean exMongo ['x'] ∧ PendingData exMongo ['x'] ∧
    (commit ['x'] 7 exMongo).1 = .ok (some 7) := by
  refine ⟨by decide, ?_, ?_, by decide⟩
  · intro d hd; cases hd
  · exact ⟨⟨['b'], none, [(['f'], .int 2)], []⟩, by simp [exMongo, Mongo.setData], rfl⟩

/-- **C23** a commit interrupted anywhere (`cs` are the commands done) and followed by a release of the lock
and a second commit: the second commit goes through, afterwards nothing is uncommitted, and every record that
was uncommitted has a version, either of the first or of the second commit, everything else about it and about
the other records being the same; the same holds for the options documents, of which one with the default
options is new if there were none. -/
theorem C23_recommit (db : PyStr) (m : Mongo) (hl : isLocked db m = false) (cs : List (Int × Nat)) (clock : Int) :
    let m1 := release db (commitRun db (m, .acquire) cs).1
    let m2 := (commit db clock m1).2
    (∃ r, (commit db clock m1).1 = .ok r) ∧
    Committed (clock :: cs.map Prod.fst) (m.data db) (m2.data db) ∧
    (∃ extra, (extra = [] ∨ (m.options = [] ∧ extra = [⟨db, none, startOptions.toDoc⟩])) ∧
      List.Forall₂ (OptGetsVersion (clock :: cs.map Prod.fst)) (m.options ++ extra) m2.options) ∧
    (∀ b, b ≠ db → m2.data b = m.data b) ∧ m2.locks = m.locks := by
  intro m1 m2
  have hl : db ∉ m.locks := by simpa [isLocked] using hl
  have hmid := Mid.run hl cs (Mid.start db (clock :: cs.map Prod.fst) m)
    (fun c hc => by simp only [List.mem_cons, List.mem_map]; exact .inr ⟨c, hc, rfl⟩)
  obtain ⟨h1, h2, h3, h4, _⟩ := hmid
  have hlocks : m1.locks = m.locks := by
    simp only [m1, release, h4]
    split
    · exact erase_append_self hl
    · exact List.erase_of_not_mem hl
  have hl1 : db ∉ m1.locks := by rw [hlocks]; exact hl
  have e := commit_eq (clock := clock) hl1
  have hv : clock ∈ clock :: cs.map Prod.fst := by simp
  have hd1 : m1.data = (commitRun db (m, .acquire) cs).1.data := rfl
  have ho1 : m1.options = (commitRun db (m, .acquire) cs).1.options := rfl
  have e2 : m2 = (commit db clock m1).2 := rfl
  by_cases hp : (hasUncommittedData (m1.data db) || hasUncommittedOptions m1) = true
  · rw [if_pos hp] at e
    rw [e] at e2
    rw [e, e2]
    refine ⟨⟨_, rfl⟩, ?_, ?_, ?_, hlocks⟩
    · simp only [setData_data, hd1]; exact h1.commit hv
    · dsimp only
      by_cases hd : (hasOptions m1 || hasUncommittedOptions m1) = true
      · simp only [withDefaults, hd, if_true, ho1]
        rcases h3 with h3 | ⟨h3, h3'⟩
        · exact ⟨[], .inl rfl, by rw [List.append_nil]; exact h3.commit hv⟩
        · exact ⟨_, .inr ⟨h3, rfl⟩, by rw [h3]; exact h3'.commit hv⟩
      · have h0 : m1.options = [] := by
          simp only [Bool.or_eq_true, not_or, Bool.not_eq_true] at hd
          exact no_options hd.1 hd.2
        rw [ho1] at h0
        have hm0 : m.options = [] := by
          rcases h3 with h3 | ⟨h3, _⟩
          · rw [h0] at h3; exact List.forall₂_nil_right_iff.1 h3
          · exact h3
        refine ⟨_, .inr ⟨hm0, rfl⟩, ?_⟩
        simp only [withDefaults, hd, ho1, h0, hm0]
        exact (OptPart.refl _ _).commit hv
    · intro b hb
      simp only [Mongo.setData, hb, if_false, hd1]; exact h2 b hb
  · rw [if_neg hp] at e
    rw [e] at e2
    rw [e, e2]
    simp only [Bool.or_eq_true, not_or, Bool.not_eq_true] at hp
    refine ⟨⟨_, rfl⟩, ?_, ?_, ?_, hlocks⟩
    · refine h1.clean ?_
      intro d hd hn
      have : hasUncommittedData (m1.data db) = true := by
        simp only [hasUncommittedData, List.any_eq_true]
        exact ⟨d, hd, by simp [hn]⟩
      rw [hp.1] at this; cases this
    · have hcl : ∀ d ∈ m1.options, d.version ≠ none := by
        intro d hd hn
        have := hasUncommittedOptions_iff.2 ⟨d, hd, hn⟩
        rw [hp.2] at this; cases this
      rcases h3 with h3 | ⟨h3, h3'⟩
      · exact ⟨[], .inl rfl, by rw [List.append_nil]; exact h3.clean hcl⟩
      · exact ⟨_, .inr ⟨h3, rfl⟩, by rw [h3]; exact h3'.clean hcl⟩
    · intro b hb; exact h2 b hb

/-- **C23** the history of every record is, apart from version numbers, what it would have been had the first
commit not been interrupted. -/
theorem C23_histories (db : PyStr) (m : Mongo) (hl : isLocked db m = false) (cs : List (Int × Nat))
    (clock clock' : Int) (id : PyStr) :
    let m2 := (commit db clock (release db (commitRun db (m, .acquire) cs).1)).2
    let whole := (commit db clock' m).2
    (history (m2.data db) id).map (·.map Prod.snd) = (history (whole.data db) id).map (·.map Prod.snd) := by
  intro m2 whole
  have h1 := (C23_recommit db m hl cs clock).2.1
  have hl' : db ∉ m.locks := by simpa [isLocked] using hl
  have h2 : Committed [clock'] (m.data db) (whole.data db) := by
    have e2 : whole = (commit db clock' m).2 := rfl
    rw [commit_eq hl'] at e2
    split at e2
    · rw [e2]; simp only [setData_data]; exact commitColl_gets _ _
    · rename_i hp
      rw [e2]
      refine (Part.refl _ _).clean ?_
      intro d hd hn
      apply hp
      rw [Bool.or_eq_true]
      left
      simp only [hasUncommittedData, List.any_eq_true]
      exact ⟨d, hd, by simp [hn]⟩
  rw [h1.history id, h2.history id]

/-- The commit of `exMongo` interrupted while it updates the data: the record has its version, the lock is
there and the default options are not committed. -/
example :
    let s := commitRun ['x'] (exMongo, .acquire) (List.replicate 9 (7, 0))
    isLocked ['x'] s.1 = true ∧ (s.1.data ['x']).map MongoRecord.version = [some 1, some 7] ∧
    s.1.options.map OptDoc.version = [none] := by
  decide

end Splitgill.Props
