import Verif.Proof.Levels2
/-!
# Calls with shallow data
-/

namespace Splitgill

theorem mem_effective {chunks : List (List Record)} {r : Record} (h : r ∈ effective chunks) : r ∈ chunks.flatten := by
  rw [effective, List.mem_flatMap] at h
  obtain ⟨ch, h1, h2⟩ := h
  exact List.mem_flatten.2 ⟨ch, h1, recordsById_mem h2⟩

theorem ingestSized_nested {n : Nat} {U : Unicode} {mf : Option PyStr} {c : Coll} {s : Store} (hR : RColl (fun _ => nestedClass n) c s)
    {rs : List Record} (hq : Fits (fun _ => nestedClass n) U rs) (hspan : NoSpan 200 rs) {st : IngestState}
    (h : ingestSized U mf 200 c rs = .ok st) : ∀ o ∈ st.written.flatten, o.Nested n := by
  obtain ⟨st', h1, _, h2, _⟩ := ingestSized_spec (U := U) (mf := mf) hR (by decide) hq hspan
  rw [h] at h1
  cases h1
  intro o ho
  rw [h2, List.mem_filterMap] at ho
  obtain ⟨r, hr, ho⟩ := ho
  have hr' : r ∈ rs := by
    have := mem_effective hr
    rwa [partition_flatten (by decide)] at this
  unfold opOf at ho
  split at ho
  · rename_i op hop
    subst ho
    exact opFor_nested (hR.rep r.id) (hq r hr') hop
  · cases ho

theorem RColl.each {K : PyStr → DataClass} {c : Coll} {s : Store} (h : RColl K c s) : ∀ d ∈ c, ∃ hi, Rep (K d.id) (some d) hi := by
  intro d hd
  have := h.rep d.id
  rw [findRecord_of_mem h.nodup hd] at this
  exact ⟨_, this⟩

theorem nested_commitColl {n : Nat} {c : Coll} (h : ∀ r ∈ c, r.Nested n) (v : Int) : ∀ r ∈ commitColl v c, r.Nested n := by
  intro r hr
  simp only [Splitgill.commitColl, List.mem_map] at hr
  obtain ⟨d, hd, rfl⟩ := hr
  split
  · exact ⟨(h d hd).data, (h d hd).diffs⟩
  · exact h d hd

theorem nested_commit {n : Nat} {db : PyStr} {clock : Int} {m : Mongo} (h : ∀ r ∈ m.data db, r.Nested n) :
    ∀ r ∈ (commit db clock m).2.data db, r.Nested n := by
  by_cases hl : db ∈ m.locks
  · rw [commit_locked hl]; exact h
  · rw [commit_eq hl]
    split
    · show ∀ r ∈ (m.setData db _).data db, r.Nested n
      rw [setData_data]
      exact nested_commitColl h clock
    · exact h

/-- Calls that write only shallow data are not refused, and what they leave is shallow. -/
theorem call_nested {n limit : Nat} (hl : n + 5 ≤ limit) {U : Unicode} {db : PyStr} (sent : Nat) {m : Mongo} {s : Store}
    (hR : RColl (fun _ => nestedClass n) (m.data db) s) (hN : ∀ r ∈ m.data db, r.Nested n) {c : ApiCall}
    (hq : Fits (fun _ => nestedClass n) U c.stream) (hspan : NoSpan 200 c.stream) :
    (c.runLevels U db limit sent m).1 ≠ .error .refused ∧ ∀ r ∈ (c.run U db m).2.data db, r.Nested n := by
  have other : ∀ c : ApiCall,
      c.runLevels U db limit sent m = (match c.run U db m with | (.ok v, m) => (.ok v, m) | (.error e, m) => (.error (.api e), m)) →
      (c.runLevels U db limit sent m).1 ≠ .error .refused := by
    intro c e
    rw [e]
    rcases c.run U db m with ⟨_ | _, _⟩ <;> exact fun h => nomatch h
  cases c with
  | ingest mf rs dc clock =>
    cases hs : ingestSized U mf 200 (m.data db) rs with
    | error e =>
      refine ⟨?_, ?_⟩
      · simp only [ApiCall.runLevels, hs]; exact fun h => nomatch h
      · simp only [ApiCall.run, Splitgill.ingest, hs, bind, Except.bind]; exact hN
    | ok st =>
      have hops := ingestSized_nested hR hq hspan hs
      have hc : ∀ r ∈ st.coll, r.Nested n := by rw [ingestSized_coll hs]; exact nested_bulkWrite hN hops
      have hw := writeLevels_all (sent := sent) hl hN hops
      refine ⟨?_, ?_⟩
      · simp only [ApiCall.runLevels, hs]
        cases hx : writeLevels limit sent (m.data db) st.written with
        | mk c b =>
          rw [hx] at hw
          dsimp only at hw
          subst hw
          dsimp only
          split
          · split <;> exact fun h => nomatch h
          · exact fun h => nomatch h
      · have hc' : ∀ r ∈ (m.setData db st.coll).data db, r.Nested n := by rw [setData_data]; exact hc
        simp only [ApiCall.run, Splitgill.ingest, hs, bind, Except.bind]
        split
        · exact nested_commit hc'
        · exact hc'
  | rollbackRecords =>
    by_cases hu : hasUncommittedData (m.data db) = true
    · cases ho : rollbackOps (m.data db) with
      | error e =>
        refine ⟨?_, ?_⟩
        · simp only [ApiCall.runLevels, hu, if_true, ho]; exact fun h => nomatch h
        · simp only [ApiCall.run, Splitgill.rollbackRecords, hu, if_true, ho]; exact hN
      | ok ops =>
        have hfl : (partition ops 200).flatten = ops := partition_flatten (by decide) ops
        have hops := rollbackOps_nested hR.each ho
        have hw := writeLevels_all (sent := sent) (lists := partition ops 200) hl hN (by rw [hfl]; exact hops)
        refine ⟨?_, ?_⟩
        · simp only [ApiCall.runLevels, hu, if_true, ho]
          cases hx : writeLevels limit sent (m.data db) (partition ops 200) with
          | mk c b =>
            rw [hx] at hw
            dsimp only at hw
            subst hw
            exact fun h => nomatch h
        · simp only [ApiCall.run, Splitgill.rollbackRecords, hu, if_true, ho]
          rw [setData_data, foldl_bulkWrite, hfl]
          exact nested_bulkWrite hN hops
    · refine ⟨?_, ?_⟩
      · simp only [ApiCall.runLevels, hu, Bool.false_eq_true, if_false]; exact fun h => nomatch h
      · simp only [ApiCall.run, Splitgill.rollbackRecords, hu, Bool.false_eq_true, if_false]
        rw [setData_data]
        exact hN
  | commit clock => exact ⟨other _ rfl, nested_commit hN⟩
  | updateOptions o dc clock =>
    refine ⟨other _ rfl, ?_⟩
    have hu : ∀ r ∈ (updateOptionsNoCommit db o m).data db, r.Nested n := by rw [updateOptionsNoCommit_data]; exact hN
    simp only [ApiCall.run, updateOptions]
    split
    · exact hu
    · split
      · exact nested_commit hu
      · exact hu
  | rollbackOptions => exact ⟨other _ rfl, hN⟩

/-- After calls with shallow data all is shallow, and so are the histories. -/
theorem calls_nested {n : Nat} {U : Unicode} {db : PyStr} {calls : List ApiCall} (hq : ∀ c ∈ calls, Fits (fun _ => nestedClass n) U c.stream)
    (h : Orderly calls) : RColl (fun _ => nestedClass n) ((afterCalls U db calls).data db) (ingested U db calls) ∧
      ∀ r ∈ (afterCalls U db calls).data db, r.Nested n := by
  refine ⟨(life hq h).toLifeInv.rep, ?_⟩
  induction calls using List.reverseRecOn with
  | nil => exact fun _ hm => nomatch hm
  | append_singleton calls c ih =>
    have hq' : ∀ c ∈ calls, Fits (fun _ => nestedClass n) U c.stream := fun c hc => hq c (List.mem_append_left _ hc)
    have ih := ih hq' h.left
    have hc : c ∈ calls ++ [c] := List.mem_append_right _ (List.mem_singleton.2 rfl)
    have := (call_nested (limit := n + 5) (Nat.le_refl _) (db := db) 0 (life hq' h.left).toLifeInv.rep ih (hq c hc) (h.noSpan c hc)).2
    rw [afterCalls_append]
    exact this

/-! ## All that is stored is within the limit -/

theorem levels_version (r : MongoRecord) (v : Int) : bsonLevels ({ r with version := some v } : MongoRecord).toBson = bsonLevels r.toBson := by
  cases r with
  | mk id version data diffs => cases version <;> rfl

theorem mem_updateFirst {id : PyStr} {f : MongoRecord → MongoRecord} (hf : ∀ r, (f r).id = r.id) : ∀ {c : Coll} {d : MongoRecord}, d ∈ updateFirst id f c → d.id ≠ id → d ∈ c
  | [], _, h, _ => h
  | x :: c, d, h, hne => by
    rw [updateFirst] at h
    split at h
    · rename_i hx
      rcases List.mem_cons.1 h with rfl | h
      · exact absurd ((hf x).trans hx) hne
      · exact List.mem_cons_of_mem _ h
    · rcases List.mem_cons.1 h with rfl | h
      · exact List.mem_cons_self
      · exact List.mem_cons_of_mem _ (mem_updateFirst hf h hne)

theorem mem_applyOp {c : Coll} {o : MongoOp} {d : MongoRecord} (h : d ∈ applyOp c o) (hne : d.id ≠ o.id) : d ∈ c := by
  cases o with
  | insert id data =>
    rcases List.mem_append.1 h with h | h
    · exact h
    · rw [List.mem_singleton] at h
      exact absurd (by rw [h]; rfl) hne
  | setData id data => exact mem_updateFirst (f := fun d => { d with data := data }) (fun _ => rfl) h hne
  | setDiff id data v changes =>
    exact mem_updateFirst (f := fun d => { d with data := data, version := none, diffs := aset v changes d.diffs }) (fun _ => rfl) h hne
  | revert id data v all =>
    exact mem_updateFirst (f := fun d => { d with data := data, version := some v, diffs := if all then [] else aerase v d.diffs }) (fun _ => rfl) h hne
  | delete id => exact (deleteFirst_sublist id c).subset h

/-- All documents are within the limit. -/
def LevelsWithin (limit : Nat) (c : Coll) : Prop := ∀ r ∈ c, bsonLevels r.toBson ≤ limit

theorem LevelsWithin.applyOp {limit : Nat} {c : Coll} (h : LevelsWithin limit c) {o : MongoOp} (ho : levelsOk limit c o = true) :
    LevelsWithin limit (applyOp c o) := by
  intro d hd
  rw [levelsOk, List.all_eq_true] at ho
  have := ho d hd
  rw [Bool.or_eq_true, decide_eq_true_eq, decide_eq_true_eq] at this
  exact this.elim (fun hne => h d (mem_applyOp hd hne)) id

theorem LevelsWithin.accepted {limit : Nat} : ∀ {ops : List MongoOp} {c : Coll} (_ : LevelsWithin limit c) (k : Nat),
    LevelsWithin limit (bulkWrite c ((acceptedOps limit c ops).take k))
  | [], _, h, k => by rw [acceptedOps, List.take_nil]; exact h
  | o :: ops, c, h, 0 => h
  | o :: ops, c, h, k + 1 => by
    rw [acceptedOps]
    split
    · rename_i ho
      exact LevelsWithin.accepted (h.applyOp ho) k
    · exact h

theorem LevelsWithin.write {limit sent : Nat} : ∀ {lists : List (List MongoOp)} {c : Coll}, LevelsWithin limit c →
    LevelsWithin limit (writeLevels limit sent c lists).1
  | [], _, h => h
  | ops :: rest, c, h => by
    rw [writeLevels]
    split
    · rename_i hl
      have e : acceptedOps limit c ops = ops := (acceptedOps_prefix limit ops c).eq_of_length hl
      have := LevelsWithin.accepted (ops := ops) h ops.length
      rw [e, List.take_length] at this
      exact LevelsWithin.write this
    · exact LevelsWithin.accepted h sent

theorem LevelsWithin.commit {limit : Nat} {db : PyStr} {clock : Int} {m : Mongo} (h : LevelsWithin limit (m.data db)) :
    LevelsWithin limit ((Splitgill.commit db clock m).2.data db) := by
  by_cases hl : db ∈ m.locks
  · rw [commit_locked hl]; exact h
  · rw [commit_eq hl]
    split
    · show LevelsWithin limit ((m.setData db _).data db)
      rw [setData_data]
      intro r hr
      obtain ⟨d, hd, e⟩ := List.mem_map.1 hr
      split at e <;> subst e
      · rw [levels_version]; exact h d hd
      · exact h d hd
    · exact h

theorem LevelsWithin.run {limit sent : Nat} {U : Unicode} {db : PyStr} {m : Mongo} (h : LevelsWithin limit (m.data db)) (c : ApiCall) :
    LevelsWithin limit ((c.runLevels U db limit sent m).2.data db) := by
  cases c with
  | ingest mf rs dc clock =>
    simp only [ApiCall.runLevels]
    split
    · exact h
    · rename_i st _
      have hw := h.write (sent := sent) (lists := st.written)
      have hc : ∀ c, writeLevels limit sent (m.data db) st.written = c → LevelsWithin limit ((m.setData db c.1).data db) := by
        intro c e; rw [setData_data, ← e]; exact hw
      split
      · rename_i e; exact hc _ e
      · rename_i e
        have := hc _ e
        split
        · have h2 := this.commit (clock := clock)
          split <;> rename_i e2 <;> rw [e2] at h2 <;> exact h2
        · exact this
  | rollbackRecords =>
    simp only [ApiCall.runLevels]
    split
    · split
      · exact h
      · rename_i ops _
        have hw := h.write (sent := sent) (lists := partition ops 200)
        split <;> rename_i e <;> rw [e] at hw <;> (show LevelsWithin limit ((m.setData db _).data db)) <;> rw [setData_data] <;> exact hw
    · exact h
  | commit clock =>
    have h2 := h.commit (clock := clock)
    simp only [ApiCall.runLevels, ApiCall.run]
    split <;> rename_i e2 <;> rw [e2] at h2 <;> exact h2
  | updateOptions o dc clock =>
    have hu : LevelsWithin limit ((updateOptionsNoCommit db o m).data db) := by rw [updateOptionsNoCommit_data]; exact h
    have h2 : LevelsWithin limit ((ApiCall.run U db m (.updateOptions o dc clock)).2.data db) := by
      simp only [ApiCall.run, updateOptions]
      split
      · exact hu
      · split
        · exact hu.commit
        · exact hu
    simp only [ApiCall.runLevels]
    split <;> rename_i e2 <;> rw [e2] at h2 <;> exact h2
  | rollbackOptions => exact h

end Splitgill
