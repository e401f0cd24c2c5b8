import Verif.Proof.Size
import Verif.Proof.Json
/-!
# Documents of limited size: how many versions they have, and which calls are refused
-/

namespace Splitgill

/-! ## Sizes -/

theorem utf8Bytes_ge : ∀ s : PyStr, s.length ≤ utf8Bytes s
  | [] => Nat.le_refl _
  | c :: s => by
    have h1 := utf8Bytes_ge s
    have h2 := Char.utf8Size_pos c
    rw [utf8Bytes] at h1 ⊢
    rw [List.map_cons, List.sum_cons, List.length_cons]
    omega

theorem bsonSizeDict_append : ∀ a b : Dict, bsonSizeDict (a ++ b) = bsonSizeDict a + bsonSizeDict b
  | [], b => by rw [List.nil_append, bsonSizeDict, Nat.zero_add]
  | (k, v) :: a, b => by
    rw [List.cons_append, bsonSizeDict, bsonSizeDict, bsonSizeDict_append a b]
    omega

theorem bsonSize_dict (d : Dict) : bsonSize (.dict d) = bsonSizeDict d + 5 := by rw [bsonSize]

/-- The bytes of the diffs of a document. -/
def diffsSize (diffs : List (Int × List DiffOp)) : Nat :=
  bsonSizeDict (diffs.map (fun vd => (intStr vd.1, .list (vd.2.map DiffOp.toBson))))

theorem size_eq (r : MongoRecord) : r.size = 51 + utf8Bytes r.id + bsonSizeDict r.data +
    (match r.version with | some v => bsonSize (.int v) | none => 0) + (if r.diffs.isEmpty then 0 else 12 + diffsSize r.diffs) := by
  have e1 : utf8Bytes "id".toList = 2 := by decide
  have e2 : utf8Bytes "data".toList = 4 := by decide
  have e3 : utf8Bytes "version".toList = 7 := by decide
  have e4 : utf8Bytes "diffs".toList = 5 := by decide
  have e5 : bsonSize .none = 0 := by rw [bsonSize]
  obtain ⟨id, version, data, diffs⟩ := r
  rw [MongoRecord.size, MongoRecord.toBson, bsonSize_dict, bsonSizeDict_append]
  cases version <;> simp only [bsonSizeDict, e1, e2, e3, bsonSize_dict, e5] <;> rw [show bsonSize (.str id) = utf8Bytes id + 5 by rw [bsonSize]] <;>
    by_cases hd : diffs.isEmpty = true <;>
    simp only [hd, if_true, if_false, Bool.false_eq_true, bsonSizeDict, bsonSize_dict, e4, diffsSize] <;> omega

theorem intStr_length (v : Int) : 1 ≤ (intStr v).length := by
  obtain ⟨_, c, s, e, _⟩ := intStr_chars v
  rw [e, List.length_cons]
  omega

theorem diffsSize_ge : ∀ diffs : List (Int × List DiffOp), 8 * diffs.length ≤ diffsSize diffs
  | [] => Nat.zero_le _
  | (v, ops) :: diffs => by
    have h1 := diffsSize_ge diffs
    have h2 := intStr_length v
    have h3 := utf8Bytes_ge (intStr v)
    rw [diffsSize] at h1 ⊢
    rw [List.map_cons, bsonSizeDict, bsonSize, List.length_cons]
    dsimp only
    omega

theorem size_diffs (r : MongoRecord) : 51 + 8 * r.diffs.length ≤ r.size := by
  rw [size_eq]
  cases hd : r.diffs with
  | nil => simp only [List.length_nil]; omega
  | cons x xs =>
    have := diffsSize_ge (x :: xs)
    simp only [List.isEmpty_cons, Bool.false_eq_true, if_false]
    omega

theorem iterLoop_length {diffs : List (Int × List DiffOp)} : ∀ {vs : List Int} {base : Dict} {items : List VersionedData},
    iterLoop diffs base vs = .ok items → items.length = vs.length
  | [], _, _, h => by cases h; rfl
  | v :: vs, base, items, h => by
    rw [iterLoop] at h
    split at h
    · cases h
    · split at h
      · cases h
      · split at h
        · cases h
        · rename_i h'
          cases h
          rw [List.length_cons, List.length_cons, iterLoop_length h']

theorem iter_length {r : MongoRecord} {items : List VersionedData} (h : r.iter = .ok items) : items.length = r.diffs.length + 1 := by
  rw [MongoRecord.iter] at h
  split at h
  · cases h
  · rename_i h'
    cases h
    rw [List.length_cons, iterLoop_length h', sortDesc, (sortBy_perm _ _).length_eq, akeys, List.length_map]

theorem history_size {c : Coll} {limit : Nat} (h : SizeWithin limit c) {id : PyStr} {items : List VersionedData} (hi : history c id = .ok items) :
    8 * items.length ≤ limit := by
  rw [history] at hi
  cases hf : findRecord id c with
  | none => rw [hf] at hi; cases hi; exact Nat.zero_le _
  | some d =>
    rw [hf] at hi
    have h1 := iter_length hi
    have h2 := size_diffs d
    have h3 := h d (findRecord_mem hf)
    omega

theorem size_version (d : MongoRecord) (h : d.version = none) (v : Int) : d.size ≤ ({ d with version := some v } : MongoRecord).size := by
  rw [size_eq, size_eq, h]
  simp only
  omega

/-! ## Calls that are not refused -/

theorem bulkWrite_filter {id : PyStr} : ∀ {ops : List MongoOp} {c : Coll}, (∀ o ∈ ops, o.id ≠ id) →
    (bulkWrite c ops).filter (fun d => d.id = id) = c.filter (fun d => d.id = id)
  | [], _, _ => rfl
  | o :: ops, c, h => by
    rw [bulkWrite, List.foldl_cons, ← bulkWrite, bulkWrite_filter (fun o ho => h o (List.mem_cons_of_mem _ ho)), filter_applyOp (h o List.mem_cons_self)]

theorem acceptedSized_all {limit : Nat} : ∀ {ops rest : List MongoOp} {c : Coll}, ((ops ++ rest).map MongoOp.id).Nodup →
    SizeWithin limit (bulkWrite c (ops ++ rest)) → acceptedSized limit c ops = ops
  | [], _, _, _, _ => rfl
  | o :: ops, rest, c, hn, h => by
    rw [List.cons_append, List.map_cons, List.nodup_cons] at hn
    rw [List.cons_append, bulkWrite, List.foldl_cons, ← bulkWrite] at h
    have ho : sizeOk limit c o = true := by
      rw [sizeOk, List.all_eq_true]
      intro d hd
      rw [Bool.or_eq_true, decide_eq_true_eq, decide_eq_true_eq]
      by_cases hid : d.id = o.id
      · right
        have hf := bulkWrite_filter (id := o.id) (c := applyOp c o) (ops := ops ++ rest) (fun x hx e => hn.1 (List.mem_map.2 ⟨x, hx, e⟩))
        have hm : d ∈ (bulkWrite (applyOp c o) (ops ++ rest)).filter (fun d => d.id = o.id) := by
          rw [hf, List.mem_filter]
          exact ⟨hd, by simpa using hid⟩
        exact h d (List.mem_filter.1 hm).1
      · exact .inl hid
    rw [acceptedSized, if_pos ho, acceptedSized_all hn.2 h]

theorem writeSized_all {limit sent : Nat} : ∀ {lists : List (List MongoOp)} {c : Coll}, (lists.flatten.map MongoOp.id).Nodup →
    SizeWithin limit (bulkWrite c lists.flatten) → (writeSized limit sent c lists).2 = true
  | [], _, _, _ => rfl
  | ops :: rest, c, hn, h => by
    rw [List.flatten_cons] at hn h
    rw [writeSized, acceptedSized_all hn h, if_pos rfl]
    refine writeSized_all ?_ (by rw [← bulkWrite_append]; exact h)
    rw [List.map_append] at hn
    exact (List.nodup_append.1 hn).2.1

theorem commit_accepted {db : PyStr} {limit : Nat} {before : MongoRecord → Bool} {clock : Int} {m : Mongo}
    (h : SizeWithin limit ((commit db clock m).2.data db)) : (commitSized db limit before clock m).1 ≠ .error .refused := by
  intro hr
  obtain ⟨hl, d, hd, h1, h2⟩ := commitSized_refused.1 hr
  rw [commit_eq hl, if_pos] at h
  · have := h { d with version := some clock } (by
      show _ ∈ (m.setData db _).data db
      rw [setData_data]
      exact List.mem_map.2 ⟨d, hd, by rw [h1]; rfl⟩)
    omega
  · rw [Bool.or_eq_true]
    exact .inl (List.any_eq_true.2 ⟨d, hd, by rw [h1]; rfl⟩)

theorem commit_before {db : PyStr} {limit : Nat} {clock : Int} {m : Mongo}
    (h : SizeWithin limit ((commit db clock m).2.data db)) : SizeWithin limit (m.data db) := by
  by_cases hl : db ∈ m.locks
  · rw [commit_locked hl] at h; exact h
  · rw [commit_eq hl] at h
    split at h
    · intro d hd
      cases hv : d.version with
      | some v =>
        refine h d ?_
        show _ ∈ (m.setData db _).data db
        rw [setData_data]
        exact List.mem_map.2 ⟨d, hd, by rw [hv]; rfl⟩
      | none =>
        refine Nat.le_trans (size_version d hv clock) (h _ ?_)
        show _ ∈ (m.setData db _).data db
        rw [setData_data]
        exact List.mem_map.2 ⟨d, hd, by rw [hv]; rfl⟩
    · exact h

/-- A call is not refused if all documents after it, without the limit, are within the limit. -/
theorem run_accepted {K : PyStr → DataClass} {U : Unicode} {db : PyStr} {limit : Nat} {stop : Reached} {m : Mongo} {s : Store} {c : ApiCall}
    (hR : RColl K (m.data db) s) (hq : Fits K U c.stream) (hspan : NoSpan 200 c.stream) (h : SizeWithin limit ((c.run U db m).2.data db)) :
    (c.runSized U db limit stop m).1 ≠ .error .refused := by
  cases c with
  | ingest mf rs dc clock =>
    obtain ⟨st, f1, f2, _, f4, _⟩ := ingestSized_spec (U := U) (mf := mf) hR (by decide : 1 ≤ 200) hq hspan
    replace f1 : ingestSized U mf 200 (m.data db) rs = .ok st := f1
    have e : Splitgill.ingest U mf (m.data db) rs = .ok st.coll := by rw [Splitgill.ingest, f1]; rfl
    simp only [ApiCall.run, e] at h
    have h' : SizeWithin limit ((m.setData db st.coll).data db) := by
      split at h
      · exact commit_before h
      · exact h
    rw [setData_data, f2] at h'
    have hw := writeSized_all (sent := stop.sent) f4 h'
    obtain ⟨h1, _⟩ := writeSized_spec limit stop.sent st.written (m.data db)
    simp only [ApiCall.runSized, f1]
    split
    · rename_i e2
      rw [e2] at hw
      cases hw
    · rename_i c e2
      rw [e2] at h1
      have hc : c = st.coll := by rw [f2]; exact h1 rfl
      subst hc
      split
      · rename_i hd
        rw [if_pos hd] at h
        exact commit_accepted h
      · exact fun h => (nomatch h)
  | commit clock => exact commit_accepted h
  | updateOptions o dc clock =>
    simp only [ApiCall.run, updateOptions] at h
    simp only [ApiCall.runSized]
    split
    · exact fun h => (nomatch h)
    · rename_i hs
      rw [if_neg hs] at h
      split
      · rename_i hd
        rw [if_pos hd] at h
        exact commit_accepted h
      · exact fun h => (nomatch h)
  | rollbackOptions => exact fun h => (nomatch h)
  | rollbackRecords =>
    obtain ⟨ops, o1, o2, _⟩ := rollbackOps_spec hR
    simp only [ApiCall.runSized, o1]
    split
    · rename_i hu
      simp only [ApiCall.run, Splitgill.rollbackRecords, hu, if_true, o1] at h
      rw [setData_data, foldl_bulkWrite] at h
      have hw := writeSized_all (sent := stop.sent) (c := m.data db) (lists := partition ops 200) (by rw [partition_flatten (by decide)]; exact o2) h
      split
      · rename_i e2
        rw [e2] at hw
        cases hw
      · exact fun h => (nomatch h)
    · exact fun h => (nomatch h)

/-! ## Documents that cannot be committed -/

theorem commitSized_locks {db : PyStr} {limit : Nat} {before : MongoRecord → Bool} {clock : Int} {m : Mongo} :
    (commitSized db limit before clock m).2.locks = m.locks := by
  by_cases hl : db ∈ m.locks
  · rw [commitSized_locked hl]
  · rw [commitSized_eq hl]
    split
    · split <;> rfl
    · rfl

theorem commitSized_keeps {db : PyStr} {limit : Nat} {before : MongoRecord → Bool} {clock : Int} {m : Mongo} (hl : db ∉ m.locks) {d : MongoRecord}
    (hd : d ∈ m.data db) (hv : d.version = none) (hs : limit < ({ d with version := some clock } : MongoRecord).size) :
    d ∈ (commitSized db limit before clock m).2.data db := by
  have hr := (commitSized_refused (before := before)).2 ⟨hl, d, hd, hv, hs⟩
  rw [commitSized_eq hl] at hr ⊢
  split at hr
  · rename_i hu
    rw [if_pos hu]
    split at hr
    · cases hr
    · rename_i ha
      rw [if_neg ha]
      show _ ∈ (m.setData db _).data db
      rw [setData_data]
      refine List.mem_map.2 ⟨d, hd, if_neg ?_⟩
      rw [Bool.and_eq_true, fitsCommitted, decide_eq_true_eq]
      omega
  · cases hr

theorem updateOptionsNoCommit_locks (db : PyStr) (o : ParsingOptions) (m : Mongo) : (updateOptionsNoCommit db o m).locks = m.locks := by
  unfold updateOptionsNoCommit
  dsimp only
  split <;> split <;> rfl

theorem size_clock {d : MongoRecord} {v v' : Int} (h : 2 ^ 31 ≤ v) (h' : 2 ^ 31 ≤ v') :
    ({ d with version := some v } : MongoRecord).size = ({ d with version := some v' } : MongoRecord).size := by
  have key : ∀ x : Int, 2 ^ 31 ≤ x → bsonSize (.int x) = 8 := by
    intro x hx
    rw [bsonSize, if_neg (by omega)]
  rw [size_eq, size_eq]
  simp only [key v h, key v' h']

theorem ingestSized_ids {U : Unicode} {mf : Option PyStr} {size : Nat} : ∀ {bs : List (List Record)} {s st : IngestState}, ingestLoop U mf size s bs = .ok st →
    ∀ o ∈ st.written.flatten, o ∈ s.written.flatten ∨ o ∈ s.buf ∨ ∃ b ∈ bs, ∃ r ∈ b, r.id = o.id
  | [], s, st, h => by
    rw [ingestLoop] at h
    cases h
    intro o ho
    split at ho
    · exact .inl ho
    · rw [IngestState.flush, List.flatten_append, List.mem_append] at ho
      rcases ho with ho | ho
      · exact .inl ho
      · exact .inr (.inl (by simpa using ho))
  | b :: bs, s, st, h => by
    rw [ingestLoop] at h
    split at h
    · cases h
    · rename_i ops hops
      have feed : ∀ (ops : List MongoOp) (s : IngestState), ∀ o, (o ∈ (ops.foldl (feedOp size) s).written.flatten ∨ o ∈ (ops.foldl (feedOp size) s).buf) →
          o ∈ s.written.flatten ∨ o ∈ s.buf ∨ o ∈ ops := by
        intro ops
        induction ops with
        | nil => intro s o h; exact h.elim .inl (fun h => .inr (.inl h))
        | cons x ops ih =>
          intro s o h
          rcases ih (feedOp size s x) o h with h | h | h
          · rw [feedOp] at h
            dsimp only at h
            split at h
            · exact .inl h
            · rw [IngestState.flush, List.flatten_append, List.mem_append] at h
              rcases h with h | h
              · exact .inl h
              · simp only [List.flatten_cons, List.flatten_nil, List.append_nil, List.mem_append, List.mem_singleton] at h
                rcases h with h | rfl
                · exact .inr (.inl h)
                · exact .inr (.inr List.mem_cons_self)
          · rw [feedOp] at h
            dsimp only at h
            split at h
            · rcases List.mem_append.1 h with h | h
              · exact .inr (.inl h)
              · rw [List.mem_singleton] at h
                subst h
                exact .inr (.inr List.mem_cons_self)
            · cases h
          · exact .inr (.inr (List.mem_cons_of_mem _ h))
      intro o ho
      rcases ingestSized_ids h o ho with h1 | h1 | ⟨b', hb', hr⟩
      · rcases feed ops s o (.inl h1) with h | h | h
        · exact .inl h
        · exact .inr (.inl h)
        · obtain ⟨r, hr, e⟩ := chunkOps_ids hops o h
          exact .inr (.inr ⟨b, List.mem_cons_self, r, hr, e⟩)
      · rcases feed ops s o (.inr h1) with h | h | h
        · exact .inl h
        · exact .inr (.inl h)
        · obtain ⟨r, hr, e⟩ := chunkOps_ids hops o h
          exact .inr (.inr ⟨b, List.mem_cons_self, r, hr, e⟩)
      · exact .inr (.inr ⟨b', List.mem_cons_of_mem _ hb', hr⟩)

/-- A call that does not change the record keeps it as it is if it cannot be committed. -/
theorem runSized_keeps {U : Unicode} {db : PyStr} {limit : Nat} {stop : Reached} {m : Mongo} {c : ApiCall} (hl : db ∉ m.locks) {d : MongoRecord}
    (hd : d ∈ m.data db) (hv : d.version = none) (hs : ∀ t, c.clock? = some t → limit < ({ d with version := some t } : MongoRecord).size)
    (hc : c ≠ .rollbackRecords) (hid : ∀ r ∈ c.stream, r.id ≠ d.id) :
    d ∈ (c.runSized U db limit stop m).2.data db ∧ db ∉ (c.runSized U db limit stop m).2.locks := by
  cases c with
  | ingest mf rs dc clock =>
    simp only [ApiCall.runSized]
    split
    · exact ⟨hd, hl⟩
    · rename_i st hst
      obtain ⟨_, n, h2⟩ := writeSized_spec limit stop.sent st.written (m.data db)
      have hw : d ∈ (writeSized limit stop.sent (m.data db) st.written).1 := by
        rw [h2]
        have hf := bulkWrite_filter (id := d.id) (c := m.data db) (ops := st.written.flatten.take n) (fun o ho e => by
          rcases ingestSized_ids (by rw [ingestSized] at hst; exact hst) o (List.mem_of_mem_take ho) with h | h | ⟨b, hb, r, hr, e2⟩
          · cases h
          · cases h
          · exact hid r (mem_partition (by decide) hb hr) (e2.trans e))
        have hm : d ∈ (bulkWrite (m.data db) (st.written.flatten.take n)).filter (fun x => x.id = d.id) := by
          rw [hf, List.mem_filter]
          exact ⟨hd, by simp⟩
        exact (List.mem_filter.1 hm).1
      split
      · rename_i e
        rw [e] at hw
        exact ⟨by show d ∈ (m.setData db _).data db; rw [setData_data]; exact hw, hl⟩
      · rename_i e
        rw [e] at hw
        split
        · rename_i hdc
          refine ⟨commitSized_keeps (m := m.setData db _) hl (by rw [setData_data]; exact hw) hv (hs clock ?_), by rw [commitSized_locks]; exact hl⟩
          simp only [ApiCall.clock?, hdc, if_true]
        · exact ⟨by show d ∈ (m.setData db _).data db; rw [setData_data]; exact hw, hl⟩
  | commit clock => exact ⟨commitSized_keeps hl hd hv (hs clock rfl), by rw [ApiCall.runSized, commitSized_locks]; exact hl⟩
  | updateOptions o dc clock =>
    have h1 : d ∈ (updateOptionsNoCommit db o m).data db := by rw [updateOptionsNoCommit_data]; exact hd
    have h2 : db ∉ (updateOptionsNoCommit db o m).locks := by rw [updateOptionsNoCommit_locks]; exact hl
    simp only [ApiCall.runSized]
    split
    · exact ⟨h1, h2⟩
    · split
      · rename_i hdc
        refine ⟨commitSized_keeps h2 h1 hv (hs clock ?_), by rw [commitSized_locks]; exact h2⟩
        simp only [ApiCall.clock?, hdc, if_true]
      · exact ⟨h1, h2⟩
  | rollbackOptions => exact ⟨hd, hl⟩
  | rollbackRecords => exact absurd rfl hc

end Splitgill
