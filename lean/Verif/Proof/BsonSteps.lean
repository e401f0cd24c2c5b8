import Verif.Proof.BsonRecord
import Verif.Proof.BsonNumbers
import Verif.Proof.Crash
/-!
# What is stored after calls that were stopped can be stored
-/

namespace Splitgill

/-- All that BSON needs of the documents of a collection. -/
structure CollGood (q : Value → Prop) (p : Int → Prop) (c : Coll) : Prop where
  leaves : CollLeaves q c
  names : CollNames NoNul c
  has : CollHas p c

/-- All that BSON needs of the data that is given. -/
structure GivenGood (U : Unicode) (q : Value → Prop) (rs : List Record) : Prop where
  sane : U.Sane
  nul : U.isC '\x00' = true
  leaves : ∀ r ∈ rs, AllLeavesDict q (prepareRecordData U r)
  lists : ∀ r ∈ rs, ShortListsDict (prepareRecordData U r)

variable {q : Value → Prop} {p : Int → Prop} {U : Unicode} {db : PyStr}

theorem CollGood.bulkWrite {c : Coll} (h : CollGood q p c) {ops : List MongoOp} (h1 : ∀ o ∈ ops, o.Leaves q) (h2 : ∀ o ∈ ops, o.Names NoNul)
    (h3 : ∀ o ∈ ops, o.HasFit p) : CollGood q p (bulkWrite c ops) :=
  ⟨h.leaves.bulkWrite h1, h.names.bulkWrite h2, h.has.bulkWrite h3⟩

theorem CollGood.ingestCrash {c c' : Coll} (h : CollGood q p c) {mf : Option PyStr} {rs : List Record} (hr : GivenGood U q rs) {n : Nat}
    (e : ingestCrash U mf c rs n = .ok c') : CollGood q p c' := by
  unfold Splitgill.ingestCrash at e
  cases hs : ingestSized U mf 200 c rs with
  | error x => rw [hs] at e; cases e
  | ok s =>
    rw [hs] at e
    cases e
    exact h.bulkWrite (fun o ho => ingestSized_leaves h.leaves hr.leaves hs o (List.mem_of_mem_take ho))
      (fun o ho => ingestSized_names h.names (fun r _ => prepareRecordData_noNul hr.sane hr.nul r) hs o (List.mem_of_mem_take ho))
      (fun o ho => ingestSized_has h.has hr.lists hs o (List.mem_of_mem_take ho))

theorem CollGood.rollbackCrash {c c' : Coll} (h : CollGood q p c) {n : Nat} (e : rollbackCrash c n = .ok c') : CollGood q p c' := by
  unfold Splitgill.rollbackCrash at e
  split at e
  · split at e
    · cases e
    · rename_i ops ho
      cases e
      exact h.bulkWrite (fun o hm => rollbackOps_leaves h.leaves ho o (List.mem_of_mem_take hm))
        (fun o hm => rollbackOps_names h.names ho o (List.mem_of_mem_take hm))
        (fun o hm => rollbackOps_has h.has ho o (List.mem_of_mem_take hm))
  · cases e; exact h

theorem mem_commitNth_given {v : Int} {r : MongoRecord} :
    ∀ {c : Coll} {k : Nat}, r ∈ commitNth v k c → r ∈ c ∨ ∃ d ∈ c, r = { d with version := some v }
  | [], _, h => .inl h
  | d :: c, k, h => by
    have next : ∀ k, r ∈ d :: commitNth v k c → r ∈ d :: c ∨ ∃ e ∈ d :: c, r = { e with version := some v } := fun k h => by
      rcases List.mem_cons.1 h with h | h
      · exact .inl (h ▸ List.mem_cons_self)
      · rcases mem_commitNth_given h with h | ⟨e, he, h⟩
        · exact .inl (List.mem_cons_of_mem _ h)
        · exact .inr ⟨e, List.mem_cons_of_mem _ he, h⟩
    rw [commitNth.eq_def] at h
    dsimp only at h
    split at h
    · cases k with
      | zero =>
        rcases List.mem_cons.1 h with h | h
        · exact .inr ⟨d, List.mem_cons_self, h⟩
        · exact .inl (List.mem_cons_of_mem _ h)
      | succ k => exact next k h
    · exact next k h

theorem CollGood.commitNth {c : Coll} (h : CollGood q p c) {v : Int} (hv : p v) (k : Nat) : CollGood q p (commitNth v k c) := by
  refine ⟨fun r hr => ?_, fun r hr => ?_, fun r hr => ?_⟩
  · rcases mem_commitNth_given hr with hr | ⟨d, hd, rfl⟩
    · exact h.leaves r hr
    · exact ⟨(h.leaves d hd).data, (h.leaves d hd).diffs⟩
  · rcases mem_commitNth_given hr with hr | ⟨d, hd, rfl⟩
    · exact h.names r hr
    · exact ⟨(h.names d hd).data, (h.names d hd).diffs⟩
  · rcases mem_commitNth_given hr with hr | ⟨d, hd, rfl⟩
    · exact h.has r hr
    · exact ⟨fun w e => by injection e with e; rw [← e]; exact hv, (h.has d hd).diffs⟩

theorem commitStep_good {clock : Int} (hc : p clock) (pick : Nat) {s : Mongo × Pc} (h : CollGood q p (s.1.data db))
    (hp : ∀ v, s.2 = .data v → p v) :
    CollGood q p ((commitStep db clock pick s.1 s.2).1.data db) ∧ ∀ v, (commitStep db clock pick s.1 s.2).2 = .data v → p v := by
  obtain ⟨m, pc⟩ := s
  cases pc with
  | acquire =>
    simp only [commitStep, acquire]
    split
    · rename_i e
      split at e <;> cases e
      exact ⟨h, fun _ e => (nomatch e)⟩
    · rename_i e
      split at e <;> cases e
      exact ⟨h, fun _ e => (nomatch e)⟩
  | clock => exact ⟨h, fun v e => by injection e with e; rw [← e]; exact hc⟩
  | data v =>
    simp only [commitStep]
    split
    · refine ⟨?_, fun w e => by injection e with e; rw [← e]; exact hp v rfl⟩
      show CollGood q p ((m.setData db _).data db)
      rw [setData_data]
      exact h.commitNth (hp v rfl) pick
    · exact ⟨h, fun _ e => (nomatch e)⟩
  | upInsert l =>
    simp only [commitStep]
    split
    · exact ⟨h, fun _ e => (nomatch e)⟩
    · exact ⟨h, fun _ e => (nomatch e)⟩
  | options v =>
    simp only [commitStep]
    split
    · exact ⟨h, fun _ e => (nomatch e)⟩
    · exact ⟨h, fun _ e => (nomatch e)⟩
  | checkData => exact ⟨h, fun _ e => by simp only [commitStep] at e; split at e <;> cases e⟩
  | checkOptions => exact ⟨h, fun _ e => by simp only [commitStep] at e; split at e <;> cases e⟩
  | hasOptions => exact ⟨h, fun _ e => by simp only [commitStep] at e; split at e <;> cases e⟩
  | pendingOptions => exact ⟨h, fun _ e => by simp only [commitStep] at e; split at e <;> cases e⟩
  | upCheck l => exact ⟨h, fun _ e => by simp only [commitStep] at e; split at e <;> cases e⟩
  | _ => exact ⟨h, fun _ e => (nomatch e)⟩

theorem commitRun_good : ∀ {cs : List (Int × Nat)} {s : Mongo × Pc}, (∀ c ∈ cs, p c.1) → CollGood q p (s.1.data db) →
    (∀ v, s.2 = .data v → p v) → CollGood q p ((commitRun db s cs).1.data db)
  | [], _, _, h, _ => h
  | c :: cs, s, hc, h, hp => by
    rw [commitRun_cons]
    have := commitStep_good (db := db) (hc c List.mem_cons_self) c.2 h hp
    exact commitRun_good (fun x hx => hc x (List.mem_cons_of_mem _ hx)) this.1 this.2

theorem run_good {m : Mongo} (h : CollGood q p (m.data db)) (c : ApiCall) (hr : GivenGood U q c.stream) (ht : ∀ t, c.clock? = some t → p t) :
    CollGood q p ((c.run U db m).2.data db) := by
  have e : (runCalls U m ([c].map (fun c => (db, c)))) = (c.run U db m).2 := rfl
  have hs : [c].flatMap ApiCall.stream = c.stream := by simp
  have hk : ∀ t ∈ [c].filterMap ApiCall.clock?, p t := fun t h => by
    obtain ⟨x, hx, e⟩ := List.mem_filterMap.1 h
    rw [List.mem_singleton.1 hx] at e
    exact ht t e
  rw [← e]
  exact ⟨runCalls_leaves [c] m h.leaves (by rw [hs]; exact hr.leaves),
    runCalls_names [c] m h.names (fun r _ => prepareRecordData_noNul hr.sane hr.nul r),
    runCalls_has [c] m h.has (by rw [hs]; exact hr.lists) hk⟩

theorem step_good {m : Mongo} (h : CollGood q p (m.data db)) (st : Step) (hr : GivenGood U q st.stream) (ht : ∀ t, st.clock? = some t → p t) :
    CollGood q p ((st.run U db m).data db) := by
  cases st with
  | call c => exact run_good h c hr ht
  | ingestStops mf rs n =>
    simp only [Step.run]
    split
    · rename_i e
      rw [setData_data]
      exact h.ingestCrash hr e
    · exact h
  | rollbackStops n =>
    simp only [Step.run]
    split
    · rename_i e
      rw [setData_data]
      exact h.rollbackCrash e
    · exact h
  | optionsStop deleted => exact h
  | commitStops clock picks died =>
    have := commitRun_good (q := q) (p := p) (db := db) (cs := picks.map (fun k => (clock, k))) (s := (m, .acquire))
      (fun c hc => by obtain ⟨k, -, rfl⟩ := List.mem_map.1 hc; exact ht clock rfl) h (fun _ e => (nomatch e))
    simp only [Step.run]
    split
    · exact this
    · exact this
  | release => exact h

theorem runSteps_good : ∀ {steps : List Step} {m : Mongo}, CollGood q p (m.data db) → (∀ st ∈ steps, GivenGood U q st.stream) →
    (∀ t ∈ steps.filterMap Step.clock?, p t) → CollGood q p ((runSteps U db m steps).data db)
  | [], _, h, _, _ => h
  | st :: steps, m, h, hr, ht => by
    rw [runSteps, List.foldl_cons]
    exact runSteps_good (steps := steps) (step_good h st (hr st List.mem_cons_self) (fun t e => ht t (List.mem_filterMap.2 ⟨st, List.mem_cons_self, e⟩)))
      (fun x hx => hr x (List.mem_cons_of_mem _ hx)) (fun t ht' => by
        obtain ⟨x, hx, e⟩ := List.mem_filterMap.1 ht'
        exact ht t (List.mem_filterMap.2 ⟨x, List.mem_cons_of_mem _ hx, e⟩))

end Splitgill
