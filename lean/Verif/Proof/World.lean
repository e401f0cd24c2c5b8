import Verif.Spec.World
/-! # Lemmas about locks and processes -/

namespace Splitgill

/-- The state is consistent: the lock collection has no duplicates, who is inside has the lock, alone. -/
structure LockInv (s : Sys) : Prop where
  nodup : s.mongo.locks.Nodup
  has : ∀ p db, s.Holds p db → db ∈ s.mongo.locks
  one : ∀ p q db, s.Holds p db → s.Holds q db → p = q

theorem commitStep_acquire_locked {db : PyStr} {clock : Int} {pick : Nat} {m : Mongo} (h : db ∈ m.locks) :
    commitStep db clock pick m .acquire = (m, .locked) := by
  simp [commitStep, acquire, h]

theorem commitStep_acquire_free {db : PyStr} {clock : Int} {pick : Nat} {m : Mongo} (h : db ∉ m.locks) :
    commitStep db clock pick m .acquire = ({ m with locks := m.locks ++ [db] }, .checkData) := by
  simp [commitStep, acquire, h]

theorem commitStep_body {db : PyStr} {clock : Int} {pick : Nat} {m : Mongo} {pc : Pc} (h : pc.inside = true)
    (hr : ∀ r, pc ≠ .release r) (hr' : pc ≠ .raising) :
    (commitStep db clock pick m pc).2.inside = true ∧ (commitStep db clock pick m pc).1.locks = m.locks := by
  cases pc with
  | acquire => cases h
  | done r => cases h
  | locked => cases h
  | failed => cases h
  | release r => exact absurd rfl (hr r)
  | raising => exact absurd rfl hr'
  | checkData => simp only [commitStep]; split <;> first | exact ⟨rfl, rfl⟩ | exact ⟨rfl, trivial⟩
  | checkOptions => simp only [commitStep]; split <;> first | exact ⟨rfl, rfl⟩ | exact ⟨rfl, trivial⟩
  | hasOptions => simp only [commitStep]; split <;> first | exact ⟨rfl, rfl⟩ | exact ⟨rfl, trivial⟩
  | pendingOptions => simp only [commitStep]; split <;> first | exact ⟨rfl, rfl⟩ | exact ⟨rfl, trivial⟩
  | getOptions => exact ⟨rfl, rfl⟩
  | upCheck l => simp only [commitStep]; split <;> first | exact ⟨rfl, rfl⟩ | exact ⟨rfl, trivial⟩
  | upRollback l => exact ⟨rfl, rfl⟩
  | upInsert l => simp only [commitStep]; split <;> first | exact ⟨rfl, rfl⟩ | exact ⟨rfl, trivial⟩
  | clock => exact ⟨rfl, rfl⟩
  | data v => simp only [commitStep]; split <;> first | exact ⟨rfl, rfl⟩ | exact ⟨rfl, trivial⟩
  | options v => simp only [commitStep]; split <;> first | exact ⟨rfl, rfl⟩ | exact ⟨rfl, trivial⟩

theorem commitStep_inside (db : PyStr) (clock : Int) (pick : Nat) (m : Mongo) (pc : Pc)
    (h : (commitStep db clock pick m pc).2.inside = true) :
    (pc.inside = true ∧ (commitStep db clock pick m pc).1.locks = m.locks) ∨
    (pc = .acquire ∧ db ∉ m.locks ∧ (commitStep db clock pick m pc).1.locks = m.locks ++ [db]) := by
  by_cases hi : pc.inside = true
  · refine .inl ⟨hi, (commitStep_body hi ?_ ?_).2⟩
    · rintro r rfl; cases h
    · rintro rfl; cases h
  · cases pc <;> simp [Pc.inside, Pc.ended] at hi
    · by_cases hd : db ∈ m.locks
      · rw [commitStep_acquire_locked hd] at h; cases h
      · rw [commitStep_acquire_free hd]; exact .inr ⟨rfl, hd, rfl⟩
    all_goals cases h

theorem commitStep_leave (db : PyStr) (clock : Int) (pick : Nat) (m : Mongo) (pc : Pc)
    (h : (commitStep db clock pick m pc).2.inside = false) :
    (pc.inside = true ∧ (commitStep db clock pick m pc).1.locks = m.locks.erase db) ∨
    (pc.inside = false ∧ (commitStep db clock pick m pc).1 = m) := by
  by_cases hi : pc.inside = true
  · refine .inl ⟨hi, ?_⟩
    cases pc with
    | release r => rfl
    | raising => rfl
    | _ => rw [(commitStep_body hi (by simp) (by simp)).1] at h; cases h
  · refine .inr ⟨by simpa using hi, ?_⟩
    cases pc <;> simp [Pc.inside, Pc.ended] at hi
    · by_cases hd : db ∈ m.locks
      · rw [commitStep_acquire_locked hd]
      · rw [commitStep_acquire_free hd] at h; cases h
    all_goals rfl

theorem Sys.act_others_procs {s : Sys} {p q : Nat} {o : Option Proc} (h : q ≠ p) :
    (if q = p then o else s.procs q) = s.procs q := if_neg h

theorem lockInv_act {s : Sys} (hs : LockInv s) (a : Act)
    (hc : match a with | .adminRelease id => ∀ p, ¬ s.Holds p id | _ => True) : LockInv (s.act a) := by
  cases a with
  | start p db =>
    simp only [Sys.act]
    split
    · rename_i hp
      have key : ∀ q db', Sys.Holds { s with procs := fun q => if q = p then some ⟨db, .acquire, true⟩ else s.procs q } q db' →
          s.Holds q db' := by
        rintro q db' ⟨P, h1, h2, h3, h4⟩
        by_cases e : q = p
        · simp only [e, if_true, Option.some.injEq] at h1
          subst h1; cases h3
        · simp only [e, if_false] at h1
          exact ⟨P, h1, h2, h3, h4⟩
      exact ⟨hs.nodup, fun q d h => hs.has q d (key q d h), fun p q d h h' => hs.one p q d (key p d h) (key q d h')⟩
    · exact hs
  | step p clock pick =>
    simp only [Sys.act]
    split
    · rename_i db pc hp
      cases hst : commitStep db clock pick s.mongo pc with
      | mk m' pc' =>
      have e1 : m' = (commitStep db clock pick s.mongo pc).1 := by rw [hst]
      have e2 : pc' = (commitStep db clock pick s.mongo pc).2 := by rw [hst]
      dsimp only
      -- the other processes keep what they hold
      have others : ∀ q d, q ≠ p →
          Sys.Holds { mongo := m', procs := fun q => if q = p then some ⟨db, pc', true⟩ else s.procs q } q d →
          s.Holds q d := by
        rintro q d hq ⟨P, h1, h2⟩
        simp only [hq, if_false] at h1
        exact ⟨P, h1, h2⟩
      have self : ∀ d,
          Sys.Holds { mongo := m', procs := fun q => if q = p then some ⟨db, pc', true⟩ else s.procs q } p d →
          pc'.inside = true ∧ d = db := by
        rintro d ⟨P, h1, h2, h3, h4⟩
        simp only [if_true, Option.some.injEq] at h1
        subst h1; exact ⟨h3, h4.symm⟩
      by_cases hin : pc'.inside = true
      · rw [e2] at hin
        rcases commitStep_inside _ _ _ _ _ hin with ⟨hi, hl⟩ | ⟨ha, hnot, hl⟩
        · rw [← e1] at hl
          have hp' : s.Holds p db := ⟨_, hp, rfl, hi, rfl⟩
          have back : ∀ q d, Sys.Holds { mongo := m', procs := fun q => if q = p then some ⟨db, pc', true⟩ else s.procs q } q d →
              s.Holds q d := by
            intro q d h
            by_cases e : q = p
            · subst e; obtain ⟨_, rfl⟩ := self d h; exact hp'
            · exact others q d e h
          refine ⟨?_, ?_, ?_⟩
          · simp only [hl]; exact hs.nodup
          · intro q d h; simp only [hl]; exact hs.has q d (back q d h)
          · intro q q' d h h'; exact hs.one q q' d (back q d h) (back q' d h')
        · rw [← e1] at hl
          refine ⟨?_, ?_, ?_⟩
          · simp only [hl]
            rw [List.nodup_append]
            refine ⟨hs.nodup, by simp, ?_⟩
            intro a ha b hb e; simp at hb; subst hb; subst e; exact hnot ha
          · intro q d h
            simp only [hl]
            by_cases e : q = p
            · subst e; obtain ⟨_, rfl⟩ := self d h; simp
            · exact List.mem_append_left _ (hs.has q d (others q d e h))
          · have no : ∀ q, q ≠ p → ∀ d, Sys.Holds { mongo := m', procs := fun q => if q = p then some ⟨db, pc', true⟩ else s.procs q } q d → d ≠ db := by
              intro q hq d h e
              subst e
              exact hnot (hs.has q _ (others q _ hq h))
            intro q q' d h h'
            by_cases e : q = p
            · by_cases e' : q' = p
              · rw [e, e']
              · exfalso; subst e; exact no q' e' d h' (self d h).2
            · by_cases e' : q' = p
              · exfalso; subst e'; exact no q e d h (self d h').2
              · exact hs.one q q' d (others q d e h) (others q' d e' h')
      · have hin' : (commitStep db clock pick s.mongo pc).2.inside = false := by rw [← e2]; simpa using hin
        have back : ∀ q d, Sys.Holds { mongo := m', procs := fun q => if q = p then some ⟨db, pc', true⟩ else s.procs q } q d →
              q ≠ p ∧ s.Holds q d := by
          intro q d h
          by_cases e : q = p
          · subst e; exact absurd (self d h).1 hin
          · exact ⟨e, others q d e h⟩
        rcases commitStep_leave _ _ _ _ _ hin' with ⟨hi, hl⟩ | ⟨_, hl⟩
        · rw [← e1] at hl
          have hp' : s.Holds p db := ⟨_, hp, rfl, hi, rfl⟩
          refine ⟨?_, ?_, ?_⟩
          · simp only [hl]; exact hs.nodup.erase _
          · intro q d h
            obtain ⟨hq, h1⟩ := back q d h
            simp only [hl]
            have hd : d ≠ db := by rintro rfl; exact hq (hs.one _ _ _ h1 hp')
            exact (List.mem_erase_of_ne hd).2 (hs.has q d h1)
          · intro q q' d h h'; exact hs.one q q' d (back q d h).2 (back q' d h').2
        · rw [← e1] at hl
          subst hl
          refine ⟨hs.nodup, ?_, ?_⟩
          · intro q d h; exact hs.has q d (back q d h).2
          · intro q q' d h h'; exact hs.one q q' d (back q d h).2 (back q' d h').2
    · exact hs
  | raise p =>
    simp only [Sys.act]
    split
    · rename_i db pc hp
      split
      · rename_i hi
        have hp' : s.Holds p db := ⟨_, hp, rfl, hi, rfl⟩
        have back : ∀ q d, Sys.Holds { s with procs := fun q => if q = p then some ⟨db, .raising, true⟩ else s.procs q } q d →
            s.Holds q d := by
          rintro q d ⟨P, h1, h2, h3, h4⟩
          by_cases e : q = p
          · simp only [e, if_true, Option.some.injEq] at h1
            subst h1; subst e; subst h4; exact hp'
          · simp only [e, if_false] at h1
            exact ⟨P, h1, h2, h3, h4⟩
        exact ⟨hs.nodup, fun q d h => hs.has q d (back q d h), fun p q d h h' => hs.one p q d (back p d h) (back q d h')⟩
      · exact hs
    · exact hs
  | crash p =>
    simp only [Sys.act]
    split
    · rename_i db pc al hp
      have back : ∀ q d, Sys.Holds { s with procs := fun q => if q = p then some ⟨db, pc, false⟩ else s.procs q } q d →
          s.Holds q d := by
        rintro q d ⟨P, h1, h2, h3, h4⟩
        by_cases e : q = p
        · simp only [e, if_true, Option.some.injEq] at h1
          subst h1; cases h2
        · simp only [e, if_false] at h1
          exact ⟨P, h1, h2, h3, h4⟩
      exact ⟨hs.nodup, fun q d h => hs.has q d (back q d h), fun p q d h h' => hs.one p q d (back p d h) (back q d h')⟩
    · exact hs
  | others data options => exact ⟨hs.nodup, hs.has, hs.one⟩
  | adminRelease id =>
    refine ⟨hs.nodup.erase _, ?_, hs.one⟩
    intro q d h
    have h : s.Holds q d := h
    have hd : d ≠ id := by rintro rfl; exact hc q h
    exact (List.mem_erase_of_ne hd).2 (hs.has q d h)

theorem lockInv_run : ∀ (acts : List Act) {s : Sys}, LockInv s → Careful s acts → LockInv (s.run acts)
  | [], _, hs, _ => hs
  | a :: acts, s, hs, hc => lockInv_run acts (s := s.act a) (lockInv_act hs a hc.1) hc.2

theorem lockInv_init {m : Mongo} (h : m.locks.Nodup) : LockInv (Sys.init m) :=
  ⟨h, (by rintro p d ⟨P, h, _⟩; cases h), (by rintro p q d ⟨P, h, _⟩; cases h)⟩

theorem Careful.append : ∀ {acts : List Act} {s : Sys} {more : List Act}, Careful s (acts ++ more) →
    Careful s acts ∧ Careful (s.run acts) more
  | [], _, _, h => ⟨trivial, h⟩
  | a :: acts, s, more, h => by
    have := Careful.append (acts := acts) (s := s.act a) (more := more) h.2
    exact ⟨⟨h.1, this.1⟩, this.2⟩

/-- Actions other than a release by hand keep a lock that nobody alive holds. -/
theorem stale_act {s : Sys} {db : PyStr} (hl : db ∈ s.mongo.locks) (hn : ∀ p, ¬ s.Holds p db) (a : Act)
    (ha : a ≠ .adminRelease db) : db ∈ (s.act a).mongo.locks ∧ ∀ p, ¬ (s.act a).Holds p db := by
  cases a with
  | start p d =>
    simp only [Sys.act]
    split
    · refine ⟨hl, ?_⟩
      rintro q ⟨P, h1, h2, h3, h4⟩
      by_cases e : q = p
      · simp only [e, if_true, Option.some.injEq] at h1
        subst h1; cases h3
      · simp only [e, if_false] at h1
        exact hn q ⟨P, h1, h2, h3, h4⟩
    · exact ⟨hl, hn⟩
  | step p clock pick =>
    simp only [Sys.act]
    split
    · rename_i d pc hp
      cases hst : commitStep d clock pick s.mongo pc with
      | mk m' pc' =>
      have e1 : m' = (commitStep d clock pick s.mongo pc).1 := by rw [hst]
      have e2 : pc' = (commitStep d clock pick s.mongo pc).2 := by rw [hst]
      dsimp only
      have hd : pc.inside = true → d ≠ db := by
        rintro hi rfl; exact hn p ⟨_, hp, rfl, hi, rfl⟩
      constructor
      · rw [e1]
        by_cases hin : (commitStep d clock pick s.mongo pc).2.inside = true
        · rcases commitStep_inside _ _ _ _ _ hin with ⟨_, h⟩ | ⟨_, _, h⟩
          · rw [h]; exact hl
          · rw [h]; exact List.mem_append_left _ hl
        · rcases commitStep_leave _ _ _ _ _ (by simpa using hin) with ⟨hi, h⟩ | ⟨_, h⟩
          · rw [h]; exact (List.mem_erase_of_ne (hd hi).symm).2 hl
          · rw [h]; exact hl
      · rintro q ⟨P, h1, h2, h3, h4⟩
        by_cases e : q = p
        · simp only [e, if_true, Option.some.injEq] at h1
          subst h1
          simp only at h3 h4
          subst h4
          rw [e2] at h3
          rcases commitStep_inside _ _ _ _ _ h3 with ⟨hi, _⟩ | ⟨_, h, _⟩
          · exact hd hi rfl
          · exact h hl
        · simp only [e, if_false] at h1
          exact hn q ⟨P, h1, h2, h3, h4⟩
    · exact ⟨hl, hn⟩
  | raise p =>
    simp only [Sys.act]
    split
    · rename_i d pc hp
      split
      · rename_i hi
        refine ⟨hl, ?_⟩
        rintro q ⟨P, h1, h2, h3, h4⟩
        by_cases e : q = p
        · simp only [e, if_true, Option.some.injEq] at h1
          subst h1
          exact hn p ⟨_, hp, rfl, hi, h4⟩
        · simp only [e, if_false] at h1
          exact hn q ⟨P, h1, h2, h3, h4⟩
      · exact ⟨hl, hn⟩
    · exact ⟨hl, hn⟩
  | crash p =>
    simp only [Sys.act]
    split
    · refine ⟨hl, ?_⟩
      rintro q ⟨P, h1, h2, h3, h4⟩
      by_cases e : q = p
      · simp only [e, if_true, Option.some.injEq] at h1
        subst h1; cases h2
      · simp only [e, if_false] at h1
        exact hn q ⟨P, h1, h2, h3, h4⟩
    · exact ⟨hl, hn⟩
  | others data options => exact ⟨hl, hn⟩
  | adminRelease id =>
    have hd : db ≠ id := by rintro rfl; exact ha rfl
    exact ⟨(List.mem_erase_of_ne hd).2 hl, hn⟩

theorem stale_run : ∀ (acts : List Act) {s : Sys} {db : PyStr}, db ∈ s.mongo.locks → (∀ p, ¬ s.Holds p db) →
    (∀ a ∈ acts, a ≠ .adminRelease db) → db ∈ (s.run acts).mongo.locks ∧ ∀ p, ¬ (s.run acts).Holds p db
  | [], _, _, hl, hn, _ => ⟨hl, hn⟩
  | a :: acts, s, db, hl, hn, ha => by
    obtain ⟨h1, h2⟩ := stale_act hl hn a (ha a (by simp))
    exact stale_run acts (s := s.act a) h1 h2 (fun a h => ha a (by simp [h]))

theorem act_crash {s : Sys} (hs : LockInv s) {p : Nat} {db : PyStr} (hp : s.Holds p db) :
    db ∈ (s.act (.crash p)).mongo.locks ∧ ∀ q, ¬ (s.act (.crash p)).Holds q db := by
  have hl := hs.has p db hp
  obtain ⟨P, h1, h2, h3, h4⟩ := hp
  simp only [Sys.act, h1]
  refine ⟨hl, ?_⟩
  rintro q ⟨Q, g1, g2, g3, g4⟩
  by_cases e : q = p
  · simp only [e, if_true, Option.some.injEq] at g1
    subst g1; cases g2
  · simp only [e, if_false] at g1
    exact e (hs.one q p db ⟨Q, g1, g2, g3, g4⟩ ⟨P, h1, h2, h3, h4⟩)

/-- A process only touches the lock of its database. -/
theorem step_other_lock {db d : PyStr} {clock : Int} {pick : Nat} {m : Mongo} {pc : Pc} (hd : d ≠ db) :
    d ∈ (commitStep db clock pick m pc).1.locks ↔ d ∈ m.locks := by
  by_cases hin : (commitStep db clock pick m pc).2.inside = true
  · rcases commitStep_inside _ _ _ _ _ hin with ⟨_, h⟩ | ⟨_, _, h⟩
    · rw [h]
    · rw [h]; simp [hd]
  · rcases commitStep_leave _ _ _ _ _ (by simpa using hin) with ⟨hi, h⟩ | ⟨_, h⟩
    · rw [h]; exact List.mem_erase_of_ne hd
    · rw [h]

end Splitgill
