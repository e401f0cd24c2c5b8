import Verif.Model.Size
import Verif.Proof.Levels4
import Verif.Proof.Batches
/-!
# Writing documents of limited size
-/

namespace Splitgill

/-! ## Writing -/

theorem acceptedSized_prefix (limit : Nat) : ∀ (ops : List MongoOp) (c : Coll), acceptedSized limit c ops <+: ops
  | [], _ => List.prefix_refl _
  | o :: ops, c => by
    rw [acceptedSized]
    split
    · exact (List.prefix_cons_inj o).2 (acceptedSized_prefix limit ops _)
    · exact List.nil_prefix

theorem writeSized_spec (limit sent : Nat) : ∀ (lists : List (List MongoOp)) (c : Coll),
    ((writeSized limit sent c lists).2 = true → (writeSized limit sent c lists).1 = bulkWrite c lists.flatten) ∧
    ∃ n, (writeSized limit sent c lists).1 = bulkWrite c (lists.flatten.take n)
  | [], c => ⟨fun _ => rfl, 0, rfl⟩
  | ops :: rest, c => by
    rw [writeSized]
    split
    · obtain ⟨h1, n, h2⟩ := writeSized_spec limit sent rest (bulkWrite c ops)
      refine ⟨fun h => ?_, ops.length + n, ?_⟩
      · rw [h1 h, List.flatten_cons, bulkWrite_append]
      · rw [h2, List.flatten_cons, List.take_length_add_append, bulkWrite_append]
    · obtain ⟨t, ht⟩ := acceptedSized_prefix limit ops c
      refine ⟨fun h => (nomatch h), min sent (acceptedSized limit c ops).length, ?_⟩
      dsimp only
      congr 1
      rw [List.flatten_cons]
      exact take_prefix ht

/-- All documents are within the limit. -/
def SizeWithin (limit : Nat) (c : Coll) : Prop := ∀ r ∈ c, r.size ≤ limit

theorem SizeWithin.applyOp {limit : Nat} {c : Coll} (h : SizeWithin limit c) {o : MongoOp} (ho : sizeOk limit c o = true) :
    SizeWithin limit (applyOp c o) := by
  intro d hd
  rw [sizeOk, List.all_eq_true] at ho
  have := ho d hd
  rw [Bool.or_eq_true, decide_eq_true_eq, decide_eq_true_eq] at this
  exact this.elim (fun hne => h d (mem_applyOp hd hne)) id

theorem SizeWithin.accepted {limit : Nat} : ∀ {ops : List MongoOp} {c : Coll} (_ : SizeWithin limit c) (k : Nat),
    SizeWithin limit (bulkWrite c ((acceptedSized limit c ops).take k))
  | [], _, h, k => by rw [acceptedSized, List.take_nil]; exact h
  | o :: ops, c, h, 0 => h
  | o :: ops, c, h, k + 1 => by
    rw [acceptedSized]
    split
    · rename_i ho
      exact SizeWithin.accepted (h.applyOp ho) k
    · exact h

theorem SizeWithin.write {limit sent : Nat} : ∀ {lists : List (List MongoOp)} {c : Coll}, SizeWithin limit c →
    SizeWithin limit (writeSized limit sent c lists).1
  | [], _, h => h
  | ops :: rest, c, h => by
    rw [writeSized]
    split
    · rename_i hl
      have e : acceptedSized limit c ops = ops := (acceptedSized_prefix limit ops c).eq_of_length hl
      have := SizeWithin.accepted (ops := ops) h ops.length
      rw [e, List.take_length] at this
      exact SizeWithin.write this
    · exact SizeWithin.accepted h sent

/-! ## Committing -/

theorem commitSized_locked {db : PyStr} {limit : Nat} {before : MongoRecord → Bool} {clock : Int} {m : Mongo} (h : db ∈ m.locks) :
    commitSized db limit before clock m = (.error (.api .alreadyLocked), m) := by
  simp only [commitSized, acquire, h, if_true]

/-- What a commit that gets the lock does. -/
theorem commitSized_eq {db : PyStr} {limit : Nat} {before : MongoRecord → Bool} {clock : Int} {m : Mongo} (hl : db ∉ m.locks) :
    commitSized db limit before clock m =
      if hasUncommittedData (m.data db) || hasUncommittedOptions m then
        if (m.data db).all (fun d => d.version.isSome || fitsCommitted limit clock d) then
          (.ok (some clock), { data := (m.setData db (commitColl clock (m.data db))).data,
                               options := commitOptions clock (withDefaults db m), locks := m.locks })
        else
          (.error .refused, { data := (m.setData db (commitSome limit clock before (m.data db))).data,
                              options := withDefaults db m, locks := m.locks })
      else (.ok none, m) := by
  simp only [commitSized, acquire, hl, if_false]
  by_cases h : (hasUncommittedData (m.data db) || hasUncommittedOptions m) = true
  · rw [if_pos h, if_neg]
    · rw [defaults_eq]
      simp only [release, Mongo.setData, withDefaults, hasOptions, hasUncommittedOptions]
      rw [erase_append_self hl]
      split <;> rfl
    · rw [Bool.or_eq_true] at h
      simp only [hasUncommittedOptions] at h ⊢
      rcases h with h | h <;> simp [h]
  · rw [if_neg h, if_pos]
    · simp only [release]
      rw [erase_append_self hl]
    · simp only [hasUncommittedOptions] at h ⊢
      simpa using h

/-- A commit that is not refused does what it does without the limit. -/
theorem commitSized_done {db : PyStr} {limit : Nat} {before : MongoRecord → Bool} {clock : Int} {m : Mongo}
    (h : (commitSized db limit before clock m).1 ≠ .error .refused) :
    (commitSized db limit before clock m).2 = (commit db clock m).2 ∧
      ∀ ret, (commitSized db limit before clock m).1 = .ok ret ↔ (commit db clock m).1 = .ok ret := by
  by_cases hl : db ∈ m.locks
  · rw [commitSized_locked hl, commit_locked hl]
    exact ⟨rfl, fun ret => ⟨fun h => (nomatch h), fun h => (nomatch h)⟩⟩
  · rw [commitSized_eq hl] at h ⊢
    rw [commit_eq hl]
    split at h
    · rename_i hu
      rw [if_pos hu, if_pos hu]
      split at h
      · rename_i ha
        rw [if_pos ha]
        exact ⟨rfl, fun ret => ⟨fun h => by cases h; rfl, fun h => by cases h; rfl⟩⟩
      · exact absurd rfl h
    · rename_i hu
      rw [if_neg hu, if_neg hu]
      exact ⟨rfl, fun ret => ⟨fun h => by cases h; rfl, fun h => by cases h; rfl⟩⟩

/-- When a commit is refused. -/
theorem commitSized_refused {db : PyStr} {limit : Nat} {before : MongoRecord → Bool} {clock : Int} {m : Mongo} :
    (commitSized db limit before clock m).1 = .error .refused ↔
      db ∉ m.locks ∧ ∃ d ∈ m.data db, d.version = none ∧ limit < ({ d with version := some clock } : MongoRecord).size := by
  have key : ((m.data db).all (fun d => d.version.isSome || fitsCommitted limit clock d)) = false ↔
      ∃ d ∈ m.data db, d.version = none ∧ limit < ({ d with version := some clock } : MongoRecord).size := by
    rw [List.all_eq_false]
    constructor
    · rintro ⟨d, hd, h⟩
      simp only [Bool.or_eq_true, not_or, fitsCommitted, decide_eq_true_eq, Option.isSome_iff_ne_none, ne_eq, not_not] at h
      exact ⟨d, hd, h.1, by omega⟩
    · rintro ⟨d, hd, h1, h2⟩
      refine ⟨d, hd, ?_⟩
      simp only [Bool.or_eq_true, not_or, fitsCommitted, decide_eq_true_eq, Option.isSome_iff_ne_none, ne_eq, not_not]
      exact ⟨h1, by omega⟩
  by_cases hl : db ∈ m.locks
  · rw [commitSized_locked hl]
    exact ⟨fun h => (nomatch h), fun h => absurd hl h.1⟩
  · rw [commitSized_eq hl, ← key]
    split
    · split
      · rename_i h
        exact ⟨fun h => (nomatch h), fun h' => by rw [h] at h'; cases h'.2⟩
      · rename_i h
        exact ⟨fun _ => ⟨hl, by simpa using h⟩, fun _ => rfl⟩
    · rename_i hu
      refine ⟨fun h => (nomatch h), fun h' => ?_⟩
      obtain ⟨d, hd, h1, _⟩ := key.1 h'.2
      refine absurd ?_ hu
      rw [Bool.or_eq_true]
      exact .inl (List.any_eq_true.2 ⟨d, hd, by rw [h1]; rfl⟩)

theorem SizeWithin.commit {limit : Nat} {db : PyStr} {before : MongoRecord → Bool} {clock : Int} {m : Mongo} (h : SizeWithin limit (m.data db)) :
    SizeWithin limit ((commitSized db limit before clock m).2.data db) := by
  by_cases hl : db ∈ m.locks
  · rw [commitSized_locked hl]; exact h
  · rw [commitSized_eq hl]
    split
    · split
      · rename_i ha
        show SizeWithin limit ((m.setData db _).data db)
        rw [setData_data]
        intro r hr
        obtain ⟨d, hd, e⟩ := List.mem_map.1 hr
        rw [List.all_eq_true] at ha
        have := ha d hd
        split at e <;> subst e
        · rename_i hv
          rw [Option.isNone_iff_eq_none] at hv
          rw [hv, Option.isSome_none, Bool.false_or, fitsCommitted, decide_eq_true_eq] at this
          exact this
        · exact h d hd
      · show SizeWithin limit ((m.setData db _).data db)
        rw [setData_data]
        intro r hr
        obtain ⟨d, hd, e⟩ := List.mem_map.1 hr
        split at e <;> subst e
        · rename_i hv
          rw [Bool.and_eq_true] at hv
          exact of_decide_eq_true hv.2
        · exact h d hd
    · exact h

/-! ## Calls -/

theorem SizeWithin.run {limit : Nat} {stop : Reached} {U : Unicode} {db : PyStr} {m : Mongo} (h : SizeWithin limit (m.data db)) (c : ApiCall) :
    SizeWithin limit ((c.runSized U db limit stop m).2.data db) := by
  cases c with
  | ingest mf rs dc clock =>
    simp only [ApiCall.runSized]
    split
    · exact h
    · rename_i st _
      have hw := h.write (sent := stop.sent) (lists := st.written)
      have hc : ∀ c, writeSized limit stop.sent (m.data db) st.written = c → SizeWithin limit ((m.setData db c.1).data db) := by
        intro c e; rw [setData_data, ← e]; exact hw
      split
      · rename_i e; exact hc _ e
      · rename_i e
        have := hc _ e
        split
        · exact this.commit
        · exact this
  | rollbackRecords =>
    simp only [ApiCall.runSized]
    split
    · split
      · exact h
      · rename_i ops _
        have hw := h.write (sent := stop.sent) (lists := partition ops 200)
        split <;> rename_i e <;> rw [e] at hw <;> (show SizeWithin limit ((m.setData db _).data db)) <;> rw [setData_data] <;> exact hw
    · exact h
  | commit clock => exact h.commit
  | updateOptions o dc clock =>
    have hu : SizeWithin limit ((updateOptionsNoCommit db o m).data db) := by rw [updateOptionsNoCommit_data]; exact h
    simp only [ApiCall.runSized]
    split
    · exact hu
    · split
      · exact hu.commit
      · exact hu
  | rollbackOptions => exact h

/-- A call that is not refused does what it does without the limit. -/
theorem runSized_done {U : Unicode} {db : PyStr} {limit : Nat} {stop : Reached} {m : Mongo} {c : ApiCall}
    (h : (c.runSized U db limit stop m).1 ≠ .error .refused) :
    (c.runSized U db limit stop m).2 = (c.run U db m).2 ∧ ∀ ret, (c.runSized U db limit stop m).1 = .ok ret ↔ (c.run U db m).1 = .ok ret := by
  cases c with
  | ingest mf rs dc clock =>
    simp only [ApiCall.runSized, ApiCall.run, Splitgill.ingest] at h ⊢
    cases hs : ingestSized U mf 200 (m.data db) rs with
    | error e =>
      exact ⟨rfl, fun ret => ⟨fun h => (nomatch h), fun h => (nomatch h)⟩⟩
    | ok s =>
      obtain ⟨h1, _⟩ := writeSized_spec limit stop.sent s.written (m.data db)
      simp only [hs, bind, Except.bind] at h ⊢
      cases hw : writeSized limit stop.sent (m.data db) s.written with
      | mk c b =>
        rw [hw] at h1 h
        cases b with
        | false => exact absurd rfl h
        | true =>
          have hc : c = s.coll := by rw [ingestSized_coll hs]; exact h1 rfl
          subst hc
          dsimp only at h ⊢
          split at h
          · rename_i hd
            rw [if_pos hd, if_pos hd]
            exact commitSized_done h
          · rename_i hd
            rw [if_neg hd, if_neg hd]
            exact ⟨rfl, fun ret => ⟨fun h => by cases h; rfl, fun h => by cases h; rfl⟩⟩
  | commit clock => exact commitSized_done h
  | updateOptions o dc clock =>
    simp only [ApiCall.runSized, ApiCall.run, updateOptions] at h ⊢
    split at h
    · rename_i hs
      rw [if_pos hs, if_pos hs]
      exact ⟨rfl, fun ret => ⟨fun h => by cases h; rfl, fun h => by cases h; rfl⟩⟩
    · rename_i hs
      rw [if_neg hs, if_neg hs]
      split at h
      · rename_i hd
        rw [if_pos hd, if_pos hd]
        exact commitSized_done h
      · rename_i hd
        rw [if_neg hd, if_neg hd]
        exact ⟨rfl, fun ret => ⟨fun h => by cases h; rfl, fun h => by cases h; rfl⟩⟩
  | rollbackOptions => exact ⟨rfl, fun ret => ⟨fun h => by cases h; rfl, fun h => by cases h; rfl⟩⟩
  | rollbackRecords =>
    simp only [ApiCall.runSized, ApiCall.run, Splitgill.rollbackRecords] at h ⊢
    split at h
    · rename_i hu
      rw [if_pos hu, if_pos hu]
      cases ho : rollbackOps (m.data db) with
      | error e => exact ⟨rfl, fun ret => ⟨fun h => (nomatch h), fun h => (nomatch h)⟩⟩
      | ok ops =>
        obtain ⟨h1, _⟩ := writeSized_spec limit stop.sent (partition ops 200) (m.data db)
        simp only [ho] at h ⊢
        cases hw : writeSized limit stop.sent (m.data db) (partition ops 200) with
        | mk c b =>
          rw [hw] at h1 h
          cases b with
          | false => exact absurd rfl h
          | true =>
            rw [partition_flatten (by decide)] at h1
            rw [foldl_bulkWrite, partition_flatten (by decide), ← h1 rfl]
            exact ⟨rfl, fun ret => ⟨fun h => by cases h; rfl, fun h => by cases h; rfl⟩⟩
    · rename_i hu
      rw [if_neg hu, if_neg hu]
      exact ⟨(setData_self m db).symm, fun ret => ⟨fun h => by cases h; rfl, fun h => by cases h; rfl⟩⟩

end Splitgill
