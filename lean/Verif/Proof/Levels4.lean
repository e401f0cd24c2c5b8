import Verif.Proof.Levels3
import Verif.Proof.Crash
/-!
# Single records, and rollbacks, with a limit on levels
-/

namespace Splitgill

/-! ## One record -/

theorem ingestSized_single {U : Unicode} {mf : Option PyStr} {c : Coll} {r : Record} {o : MongoOp}
    (h : opFor U mf (lookupExisting c r.id) r = .ok (some o)) : ∃ st, ingestSized U mf 200 c [r] = .ok st ∧ st.written = [[o]] := by
  have h1 : chunkOps U mf c [r] = .ok [o] := by
    show collectOps _ [r] = _
    simp only [collectOps, h, bind, Except.bind, Option.toList, List.append_nil]
  refine ⟨({ coll := c, buf := [o] } : IngestState).flush, ?_, rfl⟩
  have h2 : partition [r] 200 = [[r]] := rfl
  rw [ingestSized, h2, ingestLoop]
  simp only [h1]
  rfl

/-- An ingest of one record is refused if and only if its operation is. -/
theorem refused_one {U : Unicode} {db : PyStr} {limit sent : Nat} {m : Mongo} {mf : Option PyStr} {dc : Bool} {clock : Int} {r : Record} {o : MongoOp}
    (h : opFor U mf (lookupExisting (m.data db) r.id) r = .ok (some o)) :
    ((ApiCall.ingest mf [r] dc clock).runLevels U db limit sent m).1 = .error .refused ↔ levelsOk limit (m.data db) o = false := by
  obtain ⟨st, h1, h2⟩ := ingestSized_single h
  simp only [ApiCall.runLevels, h1, h2]
  cases ho : levelsOk limit (m.data db) o with
  | false =>
    simp only [writeLevels, acceptedOps, ho, Bool.false_eq_true, if_false, List.length_nil, List.length_cons, Nat.zero_add, Nat.zero_ne_one]
  | true =>
    simp only [writeLevels, acceptedOps, ho, if_true, List.length_nil, List.length_cons, Nat.zero_add]
    constructor
    · intro hx
      split at hx
      · split at hx <;> cases hx
      · cases hx
    · intro hx; cases hx

/-! ### A new record -/

theorem insert_levels {id : PyStr} {data : Dict} {limit : Nat} :
    bsonLevels ({ id := id, version := none, data := data } : MongoRecord).toBson ≤ limit ↔ bsonLevels (.dict data) + 1 ≤ limit := by
  cases limit with
  | zero => exact ⟨fun h => absurd h (by rw [MongoRecord.toBson]; have := levels_dict_pos; exact Nat.not_le_of_lt (this _)), fun h => by omega⟩
  | succ n =>
    rw [MongoRecord.toBson, levels_dict_le, Nat.add_le_add_iff_right]
    constructor
    · intro h
      exact h ("data".toList, .dict data) (by simp)
    · intro h kv hkv
      simp only [List.isEmpty_nil, if_true, List.append_nil, List.mem_cons, List.not_mem_nil, or_false] at hkv
      rcases hkv with rfl | rfl | rfl
      · exact Nat.zero_le _
      · exact h
      · exact Nat.zero_le _

theorem levelsOk_insert {limit : Nat} {c : Coll} {id : PyStr} {data : Dict} (hnew : ∀ d ∈ c, d.id ≠ id) :
    levelsOk limit c (.insert id data) = true ↔ bsonLevels (.dict data) + 1 ≤ limit := by
  rw [levelsOk, List.all_eq_true, ← insert_levels (id := id)]
  constructor
  · intro h
    have := h { id := id, version := none, data := data } (List.mem_append_right _ (List.mem_singleton.2 rfl))
    rw [Bool.or_eq_true, decide_eq_true_eq, decide_eq_true_eq] at this
    exact this.resolve_left (fun h => h rfl)
  · intro h d hd
    rw [Bool.or_eq_true, decide_eq_true_eq, decide_eq_true_eq]
    rcases List.mem_append.1 hd with hd | hd
    · exact .inl (hnew d hd)
    · rw [List.mem_singleton] at hd
      subst hd
      exact .inr h

/-! ### Deleting a record -/

theorem diffDict_nil {d : Dict} (h : d ≠ []) : diffDict [] d = .ok [⟨[], { dn := some d }⟩] := by
  cases d with
  | nil => exact absurd rfl h
  | cons kv d =>
    have e : ((kv :: d).filter fun kv => !ahas kv.1 ([] : Dict)) = kv :: d := by
      rw [List.filter_eq_self]
      intro a _
      rfl
    have h1 : diffDict [] (kv :: d) = .ok (bfs 1 [.dict [] [] (kv :: d)]) := rfl
    rw [h1]
    simp only [bfs, Comparison.compare, dictCompare, e]
    rfl

theorem deleteOp_levels {d : Dict} : bsonLevels (DiffOp.toBson ⟨[], { dn := some d }⟩) = bsonLevels (.dict d) + 2 := by
  have := levels_dict_pos d
  simp only [DiffOp.toBson, Ops.toBson, bsonLevels, bsonLevelsList, bsonLevelsDict, List.map_nil, List.append_nil]
  omega

theorem opFor_delete {U : Unicode} {mf : Option PyStr} {d : MongoRecord} {v : Int} (hv : d.version = some v) (hd : d.data ≠ []) (id : PyStr) :
    opFor U mf (some d) ⟨id, []⟩ = .ok (some (.setDiff id [] v [⟨[], { dn := some d.data }⟩])) := by
  have h1 : prepareRecordData U ⟨id, []⟩ = [] := rfl
  have h2 : computeChanges mf [] d.data = .ok ([], [⟨[], { dn := some d.data }⟩]) := by
    cases mf <;> simp only [computeChanges, aget, diffDict_nil hd, bind, Except.bind]
  simp only [opFor, opForExisting, h1, hv, Option.isNone_some, Bool.false_and, Bool.false_eq_true, if_false, revertIfPending,
    revertRecord_committed hv, opForCommitted, h2, List.isEmpty_cons]

theorem levelsOk_delete {limit : Nat} {c : Coll} {d : MongoRecord} (hn : (ids c).Nodup) (hd : d ∈ c) (hl : bsonLevels d.toBson ≤ limit) (v : Int) :
    levelsOk limit c (.setDiff d.id [] v [⟨[], { dn := some d.data }⟩]) = true ↔ bsonLevels (.dict d.data) + 5 ≤ limit := by
  let e : MongoRecord := { d with data := [], version := none, diffs := aset v [⟨[], { dn := some d.data }⟩] d.diffs }
  have key : bsonLevels e.toBson ≤ limit ↔ bsonLevels (.dict d.data) + 5 ≤ limit := by
    constructor
    · intro h
      have h1 : bsonLevels e.toBson ≤ (limit - 3) + 3 := by omega
      have h2 := (record_levels_le.1 h1).2 (v, [⟨[], { dn := some d.data }⟩]) (aget_mem (by rw [aget_aset, if_pos rfl])) _ (List.mem_singleton.2 rfl)
      rw [deleteOp_levels] at h2
      omega
    · intro h
      obtain ⟨n, rfl⟩ : ∃ n, limit = n + 3 := ⟨limit - 3, by omega⟩
      refine record_levels_le.2 ⟨by show 1 ≤ _; omega, fun vd hvd o ho => ?_⟩
      rcases mem_aset hvd with e | hvd
      · subst e
        rw [List.mem_singleton] at ho
        subst ho
        rw [deleteOp_levels]
        omega
      · exact (record_levels_le.1 hl).2 vd hvd o ho
  rw [← key, levelsOk, List.all_eq_true]
  have hmem : ∀ {c : Coll}, (ids c).Nodup → d ∈ c → ∀ x, x.id = d.id → (x ∈ applyOp c (.setDiff d.id [] v [⟨[], { dn := some d.data }⟩]) ↔ x = e) := by
    intro c
    induction c with
    | nil => intro _ h; cases h
    | cons y c ih =>
      intro hn hd x hx
      rw [ids, List.map_cons, List.nodup_cons] at hn
      simp only [applyOp, updateFirst]
      rcases List.mem_cons.1 hd with rfl | hd
      · rw [if_pos rfl, List.mem_cons]
        exact ⟨fun h => h.elim id (fun h => absurd (List.mem_map.2 ⟨x, h, hx⟩) hn.1), .inl⟩
      · have hne : y.id ≠ d.id := fun h => hn.1 (h ▸ List.mem_map.2 ⟨d, hd, rfl⟩)
        rw [if_neg hne, List.mem_cons]
        have := ih hn.2 hd x hx
        simp only [applyOp] at this
        rw [this]
        exact ⟨fun h => h.resolve_left (fun h => hne (h ▸ hx)), .inr⟩
  constructor
  · intro h
    have := h e ((hmem hn hd e rfl).2 rfl)
    rw [Bool.or_eq_true, decide_eq_true_eq, decide_eq_true_eq] at this
    exact this.resolve_left (fun h => h rfl)
  · intro h x hx
    rw [Bool.or_eq_true, decide_eq_true_eq, decide_eq_true_eq]
    by_cases hid : x.id = d.id
    · exact .inr ((hmem hn hd x hid).1 hx ▸ h)
    · exact .inl hid

/-! ## Rollbacks -/

theorem mem_updateFirst_or {id : PyStr} {f : MongoRecord → MongoRecord} : ∀ {c : Coll} {d : MongoRecord}, d ∈ updateFirst id f c →
    d ∈ c ∨ ∃ x ∈ c, d = f x
  | [], _, h => .inl h
  | x :: c, d, h => by
    rw [updateFirst] at h
    split at h
    · rcases List.mem_cons.1 h with rfl | h
      · exact .inr ⟨x, List.mem_cons_self, rfl⟩
      · exact .inl (List.mem_cons_of_mem _ h)
    · rcases List.mem_cons.1 h with rfl | h
      · exact .inl List.mem_cons_self
      · rcases mem_updateFirst_or h with h | ⟨y, hy, e⟩
        · exact .inl (List.mem_cons_of_mem _ h)
        · exact .inr ⟨y, List.mem_cons_of_mem _ hy, e⟩

/-- Other data, and fewer diffs. -/
theorem levels_fewer {x y : MongoRecord} {limit : Nat} (hx : bsonLevels x.toBson ≤ limit + 1) (hd : bsonLevels (.dict y.data) ≤ limit)
    (hs : ∀ vd ∈ y.diffs, vd ∈ x.diffs) : bsonLevels y.toBson ≤ limit + 1 := by
  rw [MongoRecord.toBson, levels_dict_le] at hx ⊢
  intro kv hkv
  rcases List.mem_append.1 hkv with hkv | hkv
  · simp only [List.mem_cons, List.not_mem_nil, or_false] at hkv
    rcases hkv with rfl | rfl | rfl
    · exact Nat.zero_le _
    · exact hd
    · dsimp only
      cases y.version <;> exact Nat.zero_le _
  · split at hkv
    · cases hkv
    · rename_i hne
      rw [List.mem_singleton] at hkv
      subst hkv
      have hne' : ¬ x.diffs.isEmpty = true := by
        intro h
        rw [List.isEmpty_iff] at h
        rw [List.isEmpty_iff] at hne
        obtain ⟨vd, hvd⟩ := List.exists_mem_of_ne_nil _ hne
        have := hs vd hvd
        rw [h] at this
        cases this
      have h1 := hx _ (List.mem_append_right _ (by rw [if_neg hne']; exact List.mem_singleton.2 rfl))
      have := levels_dict_pos (x.diffs.map fun vd => (intStr vd.1, Value.list (vd.2.map DiffOp.toBson)))
      obtain ⟨n, rfl⟩ : ∃ n, limit = n + 1 := ⟨limit - 1, by dsimp only at h1; omega⟩
      rw [levels_dict_le] at h1 ⊢
      intro kv hkv
      obtain ⟨vd, hvd, rfl⟩ := List.mem_map.1 hkv
      exact h1 _ (List.mem_map.2 ⟨vd, hs vd hvd, rfl⟩)

/-- An operation of a rollback, with data that MongoDB would take. -/
def MongoOp.Undoes (limit : Nat) : MongoOp → Prop
  | .revert _ data _ _ => bsonLevels (.dict data) ≤ limit
  | .delete _ => True
  | _ => False

theorem levelsOk_undoes {limit : Nat} {c : Coll} (h : LevelsWithin (limit + 1) c) {o : MongoOp} (ho : o.Undoes limit) : levelsOk (limit + 1) c o = true := by
  rw [levelsOk, List.all_eq_true]
  intro d hd
  rw [Bool.or_eq_true, decide_eq_true_eq, decide_eq_true_eq]
  right
  cases o with
  | insert id data => exact ho.elim
  | setData id data => exact ho.elim
  | setDiff id data v changes => exact ho.elim
  | revert id data v all =>
    rcases mem_updateFirst_or hd with hd | ⟨x, hx, rfl⟩
    · exact h d hd
    · refine levels_fewer (h x hx) ho fun vd hvd => ?_
      dsimp only at hvd
      split at hvd
      · cases hvd
      · exact mem_of_mem_aerase hvd
  | delete id => exact h d ((deleteFirst_sublist id c).subset hd)

theorem acceptedOps_undoes {limit : Nat} : ∀ {ops : List MongoOp} {c : Coll}, LevelsWithin (limit + 1) c → (∀ o ∈ ops, o.Undoes limit) →
    acceptedOps (limit + 1) c ops = ops
  | [], _, _, _ => rfl
  | o :: ops, c, h, ho => by
    have h1 := levelsOk_undoes h (ho o List.mem_cons_self)
    rw [acceptedOps, if_pos h1, acceptedOps_undoes (h.applyOp h1) (fun o hm => ho o (List.mem_cons_of_mem _ hm))]

theorem writeLevels_undoes {limit sent : Nat} : ∀ {lists : List (List MongoOp)} {c : Coll}, LevelsWithin (limit + 1) c →
    (∀ o ∈ lists.flatten, o.Undoes limit) → (writeLevels (limit + 1) sent c lists).2 = true
  | [], _, _, _ => rfl
  | ops :: rest, c, h, ho => by
    have h1 : ∀ o ∈ ops, o.Undoes limit := fun o hm => ho o (by rw [List.flatten_cons, List.mem_append]; exact .inl hm)
    have h2 := acceptedOps_undoes h h1
    have h3 := LevelsWithin.accepted (ops := ops) h ops.length
    rw [h2, List.take_length] at h3
    rw [writeLevels, if_pos (by rw [h2])]
    exact writeLevels_undoes h3 (fun o hm => ho o (by rw [List.flatten_cons, List.mem_append]; exact .inr hm))

theorem rollbackOps_undoes {n : Nat} : ∀ {c : Coll} {ops : List MongoOp}, (∀ d ∈ c, ∃ h, Rep (nestedClass n) (some d) h) →
    rollbackOps c = .ok ops → ∀ o ∈ ops, o.Undoes n
  | [], ops, _, h => by cases h; exact fun _ hm => nomatch hm
  | d :: c, ops, hc, h => by
    rw [rollbackOps] at h
    cases h1 : rollbackOp d with
    | error e => rw [h1] at h; cases h
    | ok op =>
      cases h2 : rollbackOps c with
      | error e => rw [h1, h2] at h; cases h
      | ok os =>
        rw [h1, h2] at h
        cases h
        intro o ho
        rcases List.mem_append.1 ho with ho | ho
        · rw [Option.mem_toList] at ho
          subst ho
          unfold rollbackOp at h1
          split at h1
          · cases h1
          · split at h1
            · cases h1; trivial
            · cases hx : revertRecord d with
              | error e => rw [hx] at h1; cases h1
              | ok y =>
                rw [hx] at h1
                cases y with
                | none => cases h1
                | some z =>
                  obtain ⟨z, op⟩ := z
                  cases h1
                  obtain ⟨hh, hr⟩ := hc d List.mem_cons_self
                  obtain ⟨k1, v, all, k2⟩ := Rep.revert_Q hr hx
                  show MongoOp.Undoes n op
                  rw [k2]
                  exact (nestedClass_Q.1 k1).2
        · exact rollbackOps_undoes (fun x hx => hc x (List.mem_cons_of_mem _ hx)) h2 o ho

end Splitgill
