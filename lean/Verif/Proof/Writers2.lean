import Verif.Proof.Writers
import Verif.Proof.World2
/-!
# Proofs about processes that ingest and commit: invariants
-/

namespace Splitgill

variable {U : Unicode} {size : Nat} {db : PyStr}

theorem WritersState.set_same (s : WritersState) (p : Nat) (w : Writer) : (s.set p w).procs p = w := by simp [WritersState.set]

theorem WritersState.set_other (s : WritersState) {p q : Nat} (h : q ≠ p) (w : Writer) : (s.set p w).procs q = s.procs q := by
  simp [WritersState.set, h]

/-! ## The lock -/

structure WritersLock (db : PyStr) (s : WritersState) : Prop where
  nodup : s.mongo.locks.Nodup
  held : ∀ q, s.Holds q → db ∈ s.mongo.locks
  unique : ∀ q q', s.Holds q → s.Holds q' → q = q'

theorem WritersLock.keep {s : WritersState} (h : WritersLock db s) {p : Nat} {m : Mongo} {w : Writer} (hl : m.locks = s.mongo.locks)
    (ha : w.alive = true → (s.procs p).alive = true) (hi : w.pc.inside = true → (s.procs p).pc.inside = true) :
    WritersLock db (WritersState.set { s with mongo := m } p w) := by
  have key : ∀ q, (WritersState.set { s with mongo := m } p w).Holds q → s.Holds q := by
    intro q hq
    by_cases e : q = p
    · subst e
      rw [WritersState.Holds, WritersState.set_same] at hq
      exact ⟨ha hq.1, hi hq.2⟩
    · rw [WritersState.Holds, WritersState.set_other _ e] at hq
      exact hq
  refine ⟨?_, fun q hq => ?_, fun q q' hq hq' => h.unique q q' (key q hq) (key q' hq')⟩
  · show m.locks.Nodup
    rw [hl]; exact h.nodup
  · show db ∈ m.locks
    rw [hl]; exact h.held q (key q hq)

theorem WritersLock.free {s : WritersState} (h : WritersLock db s) {p : Nat} {w : Writer} (hp : s.Holds p) (hi : w.pc.inside = false) :
    WritersLock db (WritersState.set { s with mongo := release db s.mongo } p w) := by
  have key : ∀ q, ¬ (WritersState.set { s with mongo := release db s.mongo } p w).Holds q := by
    intro q hq
    by_cases e : q = p
    · subst e
      rw [WritersState.Holds, WritersState.set_same, hi] at hq
      exact Bool.noConfusion hq.2
    · rw [WritersState.Holds, WritersState.set_other _ e] at hq
      exact e (h.unique q p hq hp)
  exact ⟨h.nodup.erase _, fun q hq => absurd hq (key q), fun q _ hq => absurd hq (key q)⟩

theorem WritersLock.act {s : WritersState} (h : WritersLock db s) (a : WriterAct) (hc : a = .adminRelease → ∀ p, ¬ s.Holds p) :
    WritersLock db (s.act U size db a) := by
  cases a with
  | raise p =>
    simp only [WritersState.act]
    split
    · next ha =>
      refine h.keep (m := s.mongo) rfl (fun h => h) (fun hi => ?_)
      simp only [Writer.raise] at hi
      split at hi
      · exact hi
      · split at hi
        · next h' => exact h'
        · exact Bool.noConfusion hi
    · exact h
  | crash p =>
    simp only [WritersState.act]
    exact h.keep (m := s.mongo) rfl (fun h => Bool.noConfusion h) (fun h => h)
  | options os => exact ⟨h.nodup, h.held, h.unique⟩
  | adminRelease =>
    have hc := hc rfl
    exact ⟨h.nodup.erase _, fun q hq => absurd hq (hc q), fun q _ hq => absurd hq (hc q)⟩
  | step p clock pick =>
    simp only [WritersState.act]
    split
    · next ha =>
      have hs := Writer.steps (U := U) (size := size) (db := db) (clock := clock) (pick := pick) (m := s.mongo) (w := s.procs p)
      generalize (s.procs p).step U size db clock pick s.mongo = r at hs
      obtain ⟨m, w⟩ := r
      dsimp only at hs ⊢
      cases hs with
      | acquire hf hc hpc hl =>
        have hno : ∀ q, ¬ s.Holds q := fun q hq => hl (h.held q hq)
        have key : ∀ q, (WritersState.set { s with mongo := { s.mongo with locks := s.mongo.locks ++ [db] } } p { s.procs p with pc := .checkData }).Holds q → q = p := by
          intro q hq
          apply Classical.byContradiction
          intro e
          rw [WritersState.Holds, WritersState.set_other _ e] at hq
          exact hno q hq
        refine ⟨?_, fun q _ => List.mem_append_right _ (List.mem_singleton.2 rfl), fun q q' hq hq' => (key q hq).trans (key q' hq').symm⟩
        show (s.mongo.locks ++ [db]).Nodup
        rw [List.nodup_append]
        exact ⟨h.nodup, List.pairwise_singleton _ _, fun a ha b hb => by rw [List.mem_singleton] at hb; subst hb; exact fun e => hl (e ▸ ha)⟩
      | release hf hc r hpc => exact h.free ⟨ha, by rw [hpc]; rfl⟩ rfl
      | raising hf hc hpc => exact h.free ⟨ha, by rw [hpc]; rfl⟩ rfl
      | same _ => exact h.keep rfl (fun h => h) (fun h => h)
      | failed _ _ => exact h.keep rfl (fun h => h) (fun h => Bool.noConfusion h)
      | returns _ _ _ => exact h.keep rfl (fun h => h) (fun h => Bool.noConfusion h)
      | ingest _ _ => exact h.keep rfl (fun h => h) (fun h => h)
      | locked _ _ _ _ => exact h.keep rfl (fun h => h) (fun h => Bool.noConfusion h)
      | noData _ _ hpc _ => exact h.keep rfl (fun h => h) (fun _ => by rw [hpc]; rfl)
      | nothing _ _ hpc => exact h.keep rfl (fun h => h) (fun _ => by rw [hpc]; rfl)
      | options _ _ os pc hi _ _ _ _ _ => exact h.keep rfl (fun h => h) (fun _ => hi)
      | clock _ _ hpc => exact h.keep rfl (fun h => h) (fun _ => by rw [hpc]; rfl)
      | begin _ _ v hpc => exact h.keep rfl (fun h => h) (fun h => h)
      | data _ _ v k hpc => exact h.keep rfl (fun h => h) (fun h => h)
      | wait _ _ v hpc => exact h.keep rfl (fun h => h) (fun h => h)
      | dataEnd _ _ v ids hpc _ _ => exact h.keep rfl (fun h => h) (fun _ => by rw [hpc]; rfl)
      | optionsData _ _ v os hpc => exact h.keep rfl (fun h => h) (fun h => h)
      | optionsEnd _ _ v hpc => exact h.keep rfl (fun h => h) (fun _ => by rw [hpc]; rfl)
    · exact h

/-! ## What the process has to do with -/

/-- What process `p` has to do with is in `own`, what the others have to do with is not. -/
def WritersState.Split (own : PyStr → Bool) (p : Nat) (s : WritersState) : Prop :=
  (s.procs p).ingest.Within (fun id => own id = true) ∧ ∀ q, q ≠ p → (s.procs q).ingest.Within (fun id => own id = false)

/-- The part of a process before its commit after an action. -/
theorem act_ingest (s : WritersState) (a : WriterAct) (q : Nat) :
    ((s.act U size db a).procs q).ingest = (s.procs q).ingest ∨
      ((s.act U size db a).procs q).ingest = ((s.procs q).ingest.step U size (s.mongo.data db)).2 := by
  cases a with
  | raise p =>
    simp only [WritersState.act]
    split
    · by_cases e : q = p
      · subst e; rw [WritersState.set_same]; exact .inl rfl
      · rw [WritersState.set_other _ e]; exact .inl rfl
    · exact .inl rfl
  | crash p =>
    simp only [WritersState.act]
    by_cases e : q = p
    · subst e; rw [WritersState.set_same]; exact .inl rfl
    · rw [WritersState.set_other _ e]; exact .inl rfl
  | options os => exact .inl rfl
  | adminRelease => exact .inl rfl
  | step p clock pick =>
    simp only [WritersState.act]
    split
    · have hs := Writer.steps (U := U) (size := size) (db := db) (clock := clock) (pick := pick) (m := s.mongo) (w := s.procs p)
      generalize (s.procs p).step U size db clock pick s.mongo = r at hs
      obtain ⟨m, w⟩ := r
      dsimp only at hs ⊢
      by_cases e : q = p
      · subst e
        rw [WritersState.set_same]
        cases hs with
        | ingest _ _ => exact .inr rfl
        | _ => exact .inl rfl
      · rw [WritersState.set_other _ e]; exact .inl rfl
    · exact .inl rfl

theorem WritersState.Split.act {own : PyStr → Bool} {p : Nat} {s : WritersState} (h : s.Split own p) (a : WriterAct) : (s.act U size db a).Split own p := by
  constructor
  · rcases act_ingest (U := U) (size := size) (db := db) s a p with e | e <;> rw [e]
    · exact h.1
    · exact h.1.step U size _
  · intro q hq
    rcases act_ingest (U := U) (size := size) (db := db) s a q with e | e <;> rw [e]
    · exact h.2 q hq
    · exact (h.2 q hq).step U size _

theorem mem_ownDocs {own : PyStr → Bool} {c : Coll} {d : MongoRecord} : d ∈ ownDocs own c ↔ d ∈ c ∧ own d.id = true := by
  unfold ownDocs; exact List.mem_filter

/-- What an action does to the records of process `p`. -/
inductive OwnChange (U : Unicode) (size : Nat) (db : PyStr) (own : PyStr → Bool) (p : Nat) (s : WritersState) (a : WriterAct) : Prop
  /-- nothing -/
  | none (h : ownDocs own ((s.act U size db a).mongo.data db) = ownDocs own (s.mongo.data db))
      (hi : ((s.act U size db a).procs p).ingest = (s.procs p).ingest)
  /-- a step of its ingest -/
  | ingest (clock : Int) (pick : Option Nat) (e : a = .step p clock pick) (ha : (s.procs p).alive = true) (hf : (s.procs p).ingest.finished = false) (he : (s.procs p).pc.ended = false)
      (h : ((s.act U size db a).mongo.data db) = ((s.procs p).ingest.step U size (s.mongo.data db)).1)
      (hi : ((s.act U size db a).procs p).ingest = ((s.procs p).ingest.step U size (s.mongo.data db)).2)
  /-- a version -/
  | version (q : Nat) (clock : Int) (pick : Option Nat) (v : Int) (k : Nat) (e : a = .step q clock pick) (hq : (s.procs q).pc = .data v) (ha : (s.procs q).alive = true)
      (h : ((s.act U size db a).mongo.data db) = commitNth v k (s.mongo.data db))
      (hi : ((s.act U size db a).procs p).ingest = (s.procs p).ingest)

theorem own_change {own : PyStr → Bool} {p : Nat} {s : WritersState} (h : s.Split own p) (a : WriterAct) : OwnChange U size db own p s a := by
  cases a with
  | raise q =>
    refine .none ?_ ?_
    · simp only [WritersState.act]
      split <;> rfl
    · simp only [WritersState.act]
      split
      · by_cases e : p = q
        · subst e; rw [WritersState.set_same]; try rfl
        · rw [WritersState.set_other _ e]
      · rfl
  | crash q =>
    refine .none rfl ?_
    simp only [WritersState.act]
    by_cases e : p = q
    · subst e; rw [WritersState.set_same]; try rfl
    · rw [WritersState.set_other _ e]
  | options os => exact .none rfl rfl
  | adminRelease => exact .none rfl rfl
  | step q clock pick =>
    by_cases ha : (s.procs q).alive = true
    · have hs := Writer.steps (U := U) (size := size) (db := db) (clock := clock) (pick := pick) (m := s.mongo) (w := s.procs q)
      have e : s.act U size db (.step q clock pick) =
          WritersState.set { s with mongo := ((s.procs q).step U size db clock pick s.mongo).1 } q ((s.procs q).step U size db clock pick s.mongo).2 := by
        simp only [WritersState.act, ha, if_true]
      have e1 : (s.act U size db (.step q clock pick)).mongo = ((s.procs q).step U size db clock pick s.mongo).1 := by rw [e]; rfl
      have e2 : ∀ w', ((s.procs q).step U size db clock pick s.mongo).2 = w' → w'.ingest = (s.procs q).ingest →
          ((s.act U size db (.step q clock pick)).procs p).ingest = (s.procs p).ingest := by
        intro w' hw hi
        rw [e]
        by_cases h : p = q
        · subst h; rw [WritersState.set_same, hw, hi]
        · rw [WritersState.set_other _ h]
      generalize hr : (s.procs q).step U size db clock pick s.mongo = r at *
      obtain ⟨m, w⟩ := r
      dsimp only at *
      cases hs with
      | ingest he hf =>
        by_cases hp : q = p
        · subst hp
          refine .ingest clock pick rfl ha hf he ?_ ?_
          · rw [e1, setData_data]
          · rw [e, WritersState.set_same]
        · refine .none ?_ ?_
          · rw [e1, setData_data]; exact IngestProc.step_other (h.2 q hp) U size _
          · rw [e, WritersState.set_other _ (Ne.symm hp)]
      | data hf hc v k hpc => exact .version q clock pick v k rfl hpc ha (by rw [e1, setData_data]) (e2 _ rfl rfl)
      | release _ _ _ _ => exact .none (by rw [e1]; rfl) (e2 _ rfl rfl)
      | raising _ _ _ => exact .none (by rw [e1]; rfl) (e2 _ rfl rfl)
      | _ => exact .none (by rw [e1]) (e2 _ rfl rfl)
    · refine .none ?_ ?_ <;> simp only [WritersState.act, ha, Bool.false_eq_true, if_false]

end Splitgill
