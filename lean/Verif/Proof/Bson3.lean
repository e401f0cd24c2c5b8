import Verif.Proof.Bson2
/-!
# New records with ints that do not fit; documents of a sync
-/

namespace Splitgill

mutual
theorem AllLeaves.mono {p q : Value → Prop} (h : ∀ v, p v → q v) : ∀ {v : Value}, AllLeaves p v → AllLeaves q v
  | .none, hv => h _ hv
  | .bool _, hv => h _ hv
  | .int _, hv => h _ hv
  | .float _, hv => h _ hv
  | .str _, hv => h _ hv
  | .list l, hv => AllLeavesList.mono h (v := l) hv
  | .dict d, hv => AllLeavesDict.mono h (v := d) hv
theorem AllLeavesList.mono {p q : Value → Prop} (h : ∀ v, p v → q v) : ∀ {v : List Value}, AllLeavesList p v → AllLeavesList q v
  | [], _ => trivial
  | v :: r, hv => ⟨AllLeaves.mono h (v := v) hv.1, AllLeavesList.mono h (v := r) hv.2⟩
theorem AllLeavesDict.mono {p q : Value → Prop} (h : ∀ v, p v → q v) : ∀ {v : Dict}, AllLeavesDict p v → AllLeavesDict q v
  | [], _ => trivial
  | (_, v) :: r, hv => ⟨AllLeaves.mono h (v := v) hv.1, AllLeavesDict.mono h (v := r) hv.2⟩
end

/-! ## A new record -/

theorem ids_applyOp {c : Coll} {o : MongoOp} {id : PyStr} (ho : o.id ≠ id) (h : id ∉ ids c) : id ∉ ids (applyOp c o) := by
  have upd : ∀ (i : PyStr) (f : MongoRecord → MongoRecord) (hf : ∀ d, (f d).id = d.id) (c : Coll), id ∈ ids (updateFirst i f c) → id ∈ ids c := by
    intro i f hf c
    induction c with
    | nil => exact fun h => h
    | cons d c ih =>
      rw [updateFirst]
      split
      · intro h
        simp only [ids, List.map_cons, List.mem_cons, hf] at h ⊢
        exact h
      · intro h
        simp only [ids, List.map_cons, List.mem_cons] at h ih ⊢
        exact h.imp_right ih
  have del : ∀ (i : PyStr) (c : Coll), id ∈ ids (deleteFirst i c) → id ∈ ids c := by
    intro i c
    induction c with
    | nil => exact fun h => h
    | cons d c ih =>
      rw [deleteFirst]
      split
      · intro h
        simp only [ids, List.map_cons, List.mem_cons] at h ⊢
        exact .inr h
      · intro h
        simp only [ids, List.map_cons, List.mem_cons] at h ih ⊢
        exact h.imp_right ih
  intro hm
  cases o with
  | insert i data =>
    simp only [applyOp, ids, List.map_append, List.map_cons, List.map_nil, List.mem_append, List.mem_singleton] at hm
    rcases hm with hm | hm
    · exact h hm
    · exact ho hm.symm
  | setData i data =>
    simp only [applyOp] at hm
    exact h (upd _ _ (by intro d; rfl) _ hm)
  | setDiff i data v changes =>
    simp only [applyOp] at hm
    exact h (upd _ _ (by intro d; rfl) _ hm)
  | revert i data v all =>
    simp only [applyOp] at hm
    exact h (upd _ _ (by intro d; rfl) _ hm)
  | delete i => exact h (del i c hm)

theorem ids_bulkWrite {id : PyStr} : ∀ {ops : List MongoOp} {c : Coll}, (∀ o ∈ ops, o.id ≠ id) → id ∉ ids c → id ∉ ids (bulkWrite c ops)
  | [], _, _, h => h
  | o :: ops, c, ho, h => by
    rw [bulkWrite, List.foldl_cons]
    exact ids_bulkWrite (ops := ops) (fun x hx => ho x (List.mem_cons_of_mem _ hx)) (ids_applyOp (ho o List.mem_cons_self) h)

theorem feed_ids {size : Nat} {id : PyStr} : ∀ {ops : List MongoOp} {s : IngestState}, (∀ o ∈ ops, o.id ≠ id) → id ∉ ids s.coll →
    (∀ o ∈ s.buf, o.id ≠ id) → id ∉ ids (ops.foldl (feedOp size) s).coll ∧ ∀ o ∈ (ops.foldl (feedOp size) s).buf, o.id ≠ id
  | [], _, _, h1, h2 => ⟨h1, h2⟩
  | o :: ops, s, ho, h1, h2 => by
    rw [List.foldl_cons]
    have hb : ∀ x ∈ s.buf ++ [o], x.id ≠ id := fun x hx => (List.mem_append.1 hx).elim (h2 x) (fun e => by
      rw [List.mem_singleton] at e; subst e; exact ho x List.mem_cons_self)
    refine feed_ids (fun x hx => ho x (List.mem_cons_of_mem _ hx)) ?_ ?_
    · unfold feedOp
      dsimp only
      split
      · exact h1
      · exact ids_bulkWrite hb h1
    · unfold feedOp
      dsimp only
      split
      · exact hb
      · exact fun _ hm => nomatch hm

/-- All operations so far. -/
def IngestState.all (s : IngestState) : List MongoOp := s.written.flatten ++ s.buf

theorem feed_all {size : Nat} : ∀ (ops : List MongoOp) (s : IngestState), (ops.foldl (feedOp size) s).all = s.all ++ ops
  | [], s => by simp
  | o :: ops, s => by
    rw [List.foldl_cons, feed_all ops]
    have : (feedOp size s o).all = s.all ++ [o] := by
      unfold feedOp IngestState.all
      dsimp only
      split
      · simp
      · simp [IngestState.flush]
    rw [this]; simp

theorem ingestLoop_keeps {U : Unicode} {mf : Option PyStr} {size : Nat} : ∀ {chunks : List (List Record)} {s s' : IngestState},
    ingestLoop U mf size s chunks = .ok s' → ∀ o ∈ s.all, o ∈ s'.written.flatten
  | [], s, s', h, o, ho => by
    rw [ingestLoop] at h
    cases h
    unfold IngestState.all at ho
    split
    · rename_i hb
      rw [List.isEmpty_iff.1 hb, List.append_nil] at ho
      exact ho
    · simpa [IngestState.flush] using ho
  | ch :: rest, s, s', h, o, ho => by
    rw [ingestLoop] at h
    cases hc : chunkOps U mf s.coll ch with
    | error e => rw [hc] at h; cases h
    | ok ops =>
      rw [hc] at h
      exact ingestLoop_keeps h o (by rw [feed_all]; exact List.mem_append_left _ ho)

theorem collectOps_has {f : Record → Except PyErr (Option MongoOp)} {o : MongoOp} : ∀ {rs : List Record} {ops : List MongoOp},
    collectOps f rs = .ok ops → ∀ {r}, r ∈ rs → f r = .ok (some o) → o ∈ ops
  | [], _, _, _, hr, _ => by cases hr
  | x :: rs, ops, h, r, hr, e => by
    rw [collectOps] at h
    cases h1 : f x with
    | error e => rw [h1] at h; cases h
    | ok op =>
      cases h2 : collectOps f rs with
      | error e => rw [h1, h2] at h; cases h
      | ok os =>
        rw [h1, h2] at h
        cases h
        rcases List.mem_cons.1 hr with hr | hr
        · subst hr
          rw [h1] at e
          cases e
          exact List.mem_append_left _ (by simp)
        · exact List.mem_append_right _ (collectOps_has h2 hr e)

theorem ingestLoop_insert {U : Unicode} {mf : Option PyStr} {size : Nat} {r : Record} (hd : prepareRecordData U r ≠ []) :
    ∀ {chunks : List (List Record)} {s s' : IngestState}, ingestLoop U mf size s chunks = .ok s' →
    r ∈ chunks.flatten → (∀ x ∈ chunks.flatten, x.id = r.id → x = r) → r.id ∉ ids s.coll → (∀ o ∈ s.buf, o.id ≠ r.id) →
    .insert r.id (prepareRecordData U r) ∈ s'.written.flatten
  | [], s, s', h, hr, _, _, _ => by cases hr
  | ch :: rest, s, s', h, hr, hx, hi, hb => by
    rw [ingestLoop] at h
    cases hc : chunkOps U mf s.coll ch with
    | error e => rw [hc] at h; cases h
    | ok ops =>
      rw [hc] at h
      by_cases hm : ∃ x ∈ ch, x.id = r.id
      · have hlast : ∃ y, lastRec r.id ch = some y := by
          cases hl : lastRec r.id ch with
          | some y => exact ⟨y, rfl⟩
          | none =>
            have := recordsById_find r.id ch
            rw [hl] at this
            obtain ⟨x, hx1, hx2⟩ := hm
            exact absurd hx2 (lastRec_none.1 hl x hx1)
        obtain ⟨y, hy⟩ := hlast
        obtain ⟨y1, y2⟩ := lastRec_some hy
        have hyr : y = r := hx y (by rw [List.flatten_cons]; exact List.mem_append_left _ y1) y2
        subst hyr
        have hmem : y ∈ recordsById ch := by
          have := recordsById_find y.id ch
          rw [hy] at this
          exact List.mem_of_find?_eq_some this
        have hop : opFor U mf (lookupExisting s.coll y.id) y = .ok (some (.insert y.id (prepareRecordData U y))) := by
          have : lookupExisting s.coll y.id = none := by
            cases hl : lookupExisting s.coll y.id with
            | none => rfl
            | some d =>
              exact absurd (by rw [ids, List.mem_map]; exact ⟨d, lookupExisting_sub hl, lookupExisting_id hl⟩) hi
          rw [this]
          have hde : y.isDelete = false := by
            cases hdel : y.isDelete with
            | false => rfl
            | true => exact absurd (List.isEmpty_iff.1 ((prepareRecordData_isEmpty U y).trans hdel)) hd
          simp only [opFor, hde, Bool.false_eq_true, if_false]
        exact ingestLoop_keeps h _ (by rw [feed_all]; exact List.mem_append_right _ (collectOps_has hc hmem hop))
      · have hne : ∀ o ∈ ops, o.id ≠ r.id := fun o ho e => by
          obtain ⟨x, h1, h2⟩ := chunkOps_ids hc o ho
          exact hm ⟨x, h1, h2.trans e⟩
        have hr' : r ∈ rest.flatten := by
          rw [List.flatten_cons, List.mem_append] at hr
          exact hr.resolve_left fun h => hm ⟨r, h, rfl⟩
        obtain ⟨f1, f2⟩ := feed_ids (size := size) hne hi hb
        exact ingestLoop_insert hd h hr' (fun x h e => hx x (by rw [List.flatten_cons]; exact List.mem_append_right _ h) e) f1 f2

/-! ## Records that fit -/

theorem store_fits {U : Unicode} {db : PyStr} {m : Mongo} {sent : Nat} {c : ApiCall} (hm : CollLeaves Int64 (m.data db))
    (hc : ∀ r ∈ c.stream, AllLeavesDict Int64 (prepareRecordData U r)) : (c.store U db sent m).1 ≠ .error .overflow := by
  intro e
  have other : (match c.run U db m with | (.ok v, m) => (Except.ok v, m) | (.error e, m) => (.error (.api e), m) :
      Except StoreErr (Option Int) × Mongo).1 ≠ .error .overflow := by
    rcases c.run U db m with ⟨_ | _, _⟩ <;> exact fun h => nomatch h
  cases c with
  | ingest mf rs dc clock =>
    cases hs : ingestSized U mf 200 (m.data db) rs with
    | error e' => simp only [ApiCall.store, hs] at e; cases e
    | ok s =>
      have hall : ∀ o ∈ s.written.flatten, o.encodable = true := fun o ho =>
        (MongoOp.encodable_iff o).2 (ingestSized_leaves hm hc hs o ho)
      have hw := writeLists_ok (sent := sent) (c := m.data db) hall
      simp only [ApiCall.store, hs, hw] at e
      split at e
      · split at e <;> cases e
      · cases e
  | rollbackRecords =>
    simp only [ApiCall.store] at e
    split at e
    · cases ho : rollbackOps (m.data db) with
      | error e' => rw [ho] at e; cases e
      | ok ops =>
        have hall : ∀ o ∈ (partition ops 200).flatten, o.encodable = true := fun o h =>
          (MongoOp.encodable_iff o).2 (rollbackOps_leaves hm ho o (by rwa [partition_flatten (by decide)] at h))
        have hw := writeLists_ok (sent := sent) (c := m.data db) hall
        simp only [ho, hw] at e
        cases e
    · cases e
  | commit clock => exact other e
  | updateOptions o dc clock => exact other e
  | rollbackOptions => exact other e

end Splitgill
