import Verif.Proof.Depth
import Verif.Proof.Mapping2
/-!
# Data at the limit of depth, and the ids of documents
-/

namespace Splitgill

theorem fieldsOf_nested {v : Value} (hv : v.isIndexed = true) : ∀ (ks : List PyStr), ∀ q ∈ fieldsOf (nestedIn v ks), q.length ≤ ks.length
  | [], q, hq => by
    have : fieldsOf (nestedIn v []) = [] := by cases v <;> first | rfl | cases hv
    rw [this] at hq
    cases hq
  | k :: ks, q, hq => by
    rw [nestedIn, fieldsOf, fieldsOfDict, fieldsOfDict, List.append_nil] at hq
    rcases List.mem_cons.1 hq with rfl | hq
    · simp
    · obtain ⟨q', hq', rfl⟩ := List.mem_map.1 hq
      have := fieldsOf_nested hv ks q' hq'
      simpa using this

theorem getAt_nested (v : Value) : ∀ (ks : List PyStr), getAt (ks.map PathEl.key) (nestedIn v ks) = some v
  | [] => rfl
  | k :: ks => by
    rw [nestedIn, List.map_cons, getAt]
    show (if k = k then some _ else _ : Option Value).bind _ = _
    rw [if_pos rfl]
    exact getAt_nested v ks

theorem nameCount_keys (ks : List PyStr) : nameCount (ks.map PathEl.key) = ks.length := by
  unfold nameCount
  rw [List.filterMap_map, show PathEl.name? ∘ PathEl.key = some from rfl, List.filterMap_some]

theorem nested_wf {v : Value} (hv : v.isIndexed = true) : ∀ (ks : List PyStr), (nestedIn v ks).wf = true
  | [] => by cases v <;> first | rfl | cases hv
  | k :: ks => by
    rw [nestedIn, wf_dict_iff]
    refine ⟨by simp [akeys], fun k' v' hm => ?_⟩
    rw [List.mem_singleton] at hm
    cases hm
    exact nested_wf hv ks

theorem nested_names {v : Value} (hv : v.isIndexed = true) : ∀ (ks : List PyStr), (∀ k ∈ ks, FieldName k) → FieldNames (nestedIn v ks)
  | [], _ => by
    intro p d hg
    cases p with
    | nil => cases hg; cases hv
    | cons a p =>
      have : getAt (a :: p) v = none := getAt_scalar_cons (Value.isScalar_of_isIndexed hv)
      rw [nestedIn, this] at hg
      cases hg
  | k :: ks, hk => by
    intro p d hg k' hk'
    cases p with
    | nil =>
      cases hg
      have : k' = k := by simpa [akeys] using hk'
      rw [this]
      exact hk k List.mem_cons_self
    | cons a p =>
      cases a with
      | idx i => cases hg
      | key a =>
        rw [nestedIn, getAt, aget_cons] at hg
        split at hg
        · exact nested_names hv ks (fun k hk' => hk k (List.mem_cons_of_mem _ hk')) p d hg k' hk'
        · cases hg

/-! ## Ids -/

variable {P : Type} {X : Parser P}

/-- Operations have the id of the record, on the index of the latest data, or none. -/
theorem rvOps_ids {maxDocs : Nat} {after : Option Int} {id : PyStr} : ∀ {rvs : List (RecordVersion P)} {arc : Nat × Nat} {op},
    op ∈ (rvOps maxDocs after id arc rvs).1 → (op.latestDocId = some id ∧ op.idOk = decide (utf8Len id ≤ docIdLimit)) ∨ (op.latestDocId = none ∧ op.idOk = true)
  | [], arc, op, h => by cases h
  | rv :: rest, arc, op, h => by
    have ih : ∀ arc, op ∈ (rvOps maxDocs after id arc rest).1 → _ := fun arc h => rvOps_ids h
    have harch : ∀ pre : List (BulkOp P), (∀ op ∈ pre, op = .delete .latest id) →
        op ∈ pre ++ .index (.arc (nextArc maxDocs arc).1) none (rv.createDoc rest.head?) ::
          (rvOps maxDocs after id (nextArc maxDocs arc) rest).1 →
        (op.latestDocId = some id ∧ op.idOk = decide (utf8Len id ≤ docIdLimit)) ∨ (op.latestDocId = none ∧ op.idOk = true) := by
      intro pre hpre h
      rcases List.mem_append.1 h with h | h
      · rw [hpre _ h]
        exact .inl ⟨rfl, rfl⟩
      · rcases List.mem_cons.1 h with rfl | h
        · exact .inr ⟨rfl, rfl⟩
        · exact ih _ h
    rw [rvOps] at h
    dsimp only at h
    split at h
    · rcases List.mem_cons.1 h with rfl | h
      · exact .inl ⟨rfl, rfl⟩
      · exact ih _ h
    · split at h
      · exact harch [] (fun _ hm => (nomatch hm)) h
      · split at h
        · split at h
          · split at h
            · exact harch [.delete .latest id] (fun op hm => List.mem_singleton.1 hm) h
            · exact harch [] (fun _ hm => (nomatch hm)) h
          · exact ih _ h
        · exact ih _ h

theorem generateOps_ids {maxDocs : Nat} {allOptions : List (Int × ParsingOptions)} {after : Option Int} :
    ∀ {records : List MongoRecord} {arc : Nat × Nat} {ops arc' op}, generateOps X maxDocs allOptions after arc records = .ok (ops, arc') →
    op ∈ ops → (∃ r ∈ records, op.latestDocId = some r.id ∧ op.idOk = decide (utf8Len r.id ≤ docIdLimit)) ∨ (op.latestDocId = none ∧ op.idOk = true)
  | [], arc, ops, arc', op, h, hm => by cases h; cases hm
  | r :: rest, arc, ops, arc', op, h, hm => by
    rw [generateOps] at h
    cases hb : build X r allOptions with
    | error e => rw [hb] at h; cases h
    | ok rvs =>
      rw [hb] at h
      cases rvs with
      | nil => cases h
      | cons rv rvs =>
        dsimp only at h
        cases hg : generateOps X maxDocs allOptions after (rvOps maxDocs after r.id arc (rv :: rvs)).2 rest with
        | error e => rw [hg] at h; cases h
        | ok x =>
          rw [hg] at h
          cases h
          rcases List.mem_append.1 hm with hm | hm
          · exact (rvOps_ids hm).imp (fun h => ⟨r, List.mem_cons_self, h⟩) id
          · exact (generateOps_ids hg hm).imp (fun ⟨r', h1, h2⟩ => ⟨r', List.mem_cons_of_mem _ h1, h2⟩) id

end Splitgill
