import Verif.Proof.History
import Verif.Proof.Utils
/-!
# The stored documents represent the abstract histories: the collection
-/

namespace Splitgill

/-- The ids of a collection. -/
def ids (c : Coll) : List PyStr := c.map MongoRecord.id

/-- A collection represents a store. -/
structure RColl (K : PyStr → DataClass) (c : Coll) (s : Store) : Prop where
  nodup : (ids c).Nodup
  rep : ∀ id, Rep (K id) (findRecord id c) (s id)

/-- The prepared data of the records satisfies the condition. -/
def Fits (K : PyStr → DataClass) (U : Unicode) (rs : List Record) : Prop := ∀ r ∈ rs, (K r.id).Q (prepareRecordData U r)

theorem fits_plain (U : Unicode) (rs : List Record) : Fits (fun _ => plainClass) U rs := fun r _ => prepareRecordData_wf U r

variable {K : PyStr → DataClass}

theorem findRecord_cons (id : PyStr) (d : MongoRecord) (c : Coll) :
    findRecord id (d :: c) = if d.id = id then some d else findRecord id c := by
  simp only [findRecord, List.find?_cons]
  by_cases h : d.id = id <;> simp [h]

theorem findRecord_id {id : PyStr} {c : Coll} {d} (h : findRecord id c = some d) : d.id = id := by
  have := List.find?_some h; simpa using this

theorem findRecord_mem {id : PyStr} {c : Coll} {d} (h : findRecord id c = some d) : d ∈ c :=
  List.mem_of_find?_eq_some h

theorem findRecord_none {id : PyStr} {c : Coll} : findRecord id c = none ↔ id ∉ ids c := by
  simp only [findRecord, List.find?_eq_none, ids, List.mem_map]
  constructor
  · rintro h ⟨d, h1, h2⟩; exact h d h1 (by simpa using h2)
  · intro h d hd e; exact h ⟨d, hd, by simpa using e⟩

theorem findRecord_of_mem {c : Coll} (hn : (ids c).Nodup) {d} (h : d ∈ c) : findRecord d.id c = some d := by
  induction c with
  | nil => cases h
  | cons x c ih =>
    rw [ids, List.map_cons, List.nodup_cons] at hn
    rw [findRecord_cons]
    rcases List.mem_cons.1 h with e | h
    · rw [e, if_pos rfl]
    · rw [if_neg, ih hn.2 h]
      intro e; exact hn.1 (List.mem_map.2 ⟨d, h, e.symm⟩)

theorem lookupExisting_eq {c : Coll} (hn : (ids c).Nodup) (id : PyStr) :
    lookupExisting c id = findRecord id c := by
  unfold lookupExisting
  have : ∀ (c : Coll) (acc : Option MongoRecord), (ids c).Nodup → (acc = none ∨ id ∉ ids c) →
      c.foldl (fun acc d => if d.id = id then some d else acc) acc = (findRecord id c).or acc := by
    intro c
    induction c with
    | nil => intro acc _ _; simp [findRecord]
    | cons x c ih =>
      intro acc hn h
      rw [ids, List.map_cons, List.nodup_cons] at hn
      rw [List.foldl_cons, findRecord_cons]
      by_cases hx : x.id = id
      · have hid : id ∉ ids c := fun h' => hn.1 (hx ▸ h')
        rw [if_pos hx, if_pos hx, ih _ hn.2 (.inr hid), findRecord_none.2 hid]; rfl
      · rw [if_neg hx, if_neg hx, ih acc hn.2]
        rcases h with h | h
        · exact .inl h
        · refine .inr (fun h' => h ?_)
          rw [ids, List.map_cons]; exact List.mem_cons_of_mem _ h'
  rw [this c none hn (.inl rfl)]; simp

/-! ## Ops -/

theorem updateFirst_ids {id : PyStr} {f : MongoRecord → MongoRecord} (hf : ∀ d, (f d).id = d.id) :
    ∀ c : Coll, ids (updateFirst id f c) = ids c
  | [] => rfl
  | d :: c => by
    have ih := updateFirst_ids hf (id := id) c
    rw [updateFirst]; split
    · simp [ids, hf]
    · simp only [ids, List.map_cons] at *; rw [ih]

theorem findRecord_updateFirst {id i : PyStr} {f : MongoRecord → MongoRecord} (hf : ∀ d, (f d).id = d.id) :
    ∀ c : Coll, findRecord i (updateFirst id f c) =
      if id = i then (findRecord i c).map f else findRecord i c
  | [] => by simp [updateFirst, findRecord]
  | d :: c => by
    have ih := findRecord_updateFirst hf (id := id) (i := i) c
    rw [updateFirst]
    by_cases hd : d.id = id
    · rw [if_pos hd, findRecord_cons, findRecord_cons, hf]
      by_cases hi : id = i
      · have : d.id = i := hd.trans hi
        simp [hi, this]
      · have : ¬ d.id = i := fun e => hi (hd ▸ e)
        simp [this, hi]
    · rw [if_neg hd, findRecord_cons, findRecord_cons, ih]
      by_cases hi : id = i
      · have : ¬ d.id = i := fun e => hd (e.trans hi.symm)
        simp [hi, this]
      · simp [hi]

theorem deleteFirst_sublist (id : PyStr) : ∀ c : Coll, (deleteFirst id c).Sublist c
  | [] => .slnil
  | d :: c => by
    rw [deleteFirst]; split
    · exact List.sublist_cons_self d c
    · exact (deleteFirst_sublist id c).cons_cons d

theorem findRecord_deleteFirst {id i : PyStr} : ∀ {c : Coll}, (ids c).Nodup →
    findRecord i (deleteFirst id c) = if id = i then none else findRecord i c
  | [], _ => by simp [deleteFirst, findRecord]
  | d :: c, hn => by
    rw [ids, List.map_cons, List.nodup_cons] at hn
    have ih := findRecord_deleteFirst (id := id) (i := i) hn.2
    rw [deleteFirst]
    by_cases hd : d.id = id
    · rw [if_pos hd, findRecord_cons]
      by_cases hi : id = i
      · rw [if_pos hi, findRecord_none]; rw [← hi, ← hd]; exact hn.1
      · have : ¬ d.id = i := fun e => hi (hd ▸ e)
        simp [this, hi]
    · rw [if_neg hd, findRecord_cons, findRecord_cons, ih]
      by_cases hi : id = i
      · have : ¬ d.id = i := fun e => hd (e.trans hi.symm)
        simp [hi, this]
      · simp [hi]

theorem findRecord_append {i : PyStr} (c c' : Coll) :
    findRecord i (c ++ c') = (findRecord i c).or (findRecord i c') := by
  simp [findRecord, List.find?_append]

theorem applyOp_spec {c : Coll} {op : MongoOp} (hn : (ids c).Nodup)
    (hins : op.isInsert = true → findRecord op.id c = none) :
    (ids (applyOp c op)).Nodup ∧ ∀ i, findRecord i (applyOp c op) =
      if op.id = i then docOp (findRecord i c) op else findRecord i c := by
  cases op with
  | insert id data =>
    have hid := findRecord_none.1 (hins rfl)
    refine ⟨?_, fun i => ?_⟩
    · simp only [applyOp, ids, List.map_append, List.map_cons, List.map_nil]
      rw [List.nodup_append]
      refine ⟨hn, by simp, fun a ha b hb => ?_⟩
      simp at hb; subst hb
      intro e; subst e; exact hid ha
    · simp only [applyOp, findRecord_append, MongoOp.id, docOp, findRecord_cons]
      by_cases h : id = i
      · subst h
        have := findRecord_none.2 hid
        rw [MongoOp.id] at this
        simp [this]
      · simp [h, findRecord]
  | setData id data =>
    refine ⟨?_, fun i => ?_⟩
    · rw [applyOp, updateFirst_ids]
      · exact hn
      · intro d; rfl
    · rw [applyOp, findRecord_updateFirst (by intro d; rfl)]; rfl
  | setDiff id data v ch =>
    refine ⟨?_, fun i => ?_⟩
    · rw [applyOp, updateFirst_ids]
      · exact hn
      · intro d; rfl
    · rw [applyOp, findRecord_updateFirst (by intro d; rfl)]; rfl
  | revert id data v all =>
    refine ⟨?_, fun i => ?_⟩
    · rw [applyOp, updateFirst_ids]
      · exact hn
      · intro d; rfl
    · rw [applyOp, findRecord_updateFirst (by intro d; rfl)]; rfl
  | delete id =>
    refine ⟨?_, fun i => ?_⟩
    · rw [applyOp]; exact hn.sublist ((deleteFirst_sublist id c).map _)
    · rw [applyOp, findRecord_deleteFirst hn]; rfl

/-- The op for an id in a list of ops. -/
def opAt (i : PyStr) (ops : List MongoOp) : Option MongoOp := ops.find? (fun o => o.id = i)

/-- Ops for distinct ids act independently. -/
theorem bulkWrite_spec : ∀ {ops : List MongoOp} {c : Coll}, (ids c).Nodup → (ops.map MongoOp.id).Nodup →
    (∀ o ∈ ops, o.isInsert = true → findRecord o.id c = none) →
    (ids (bulkWrite c ops)).Nodup ∧ ∀ i, findRecord i (bulkWrite c ops) = docOp? (findRecord i c) (opAt i ops)
  | [], c, hn, _, _ => ⟨hn, fun i => rfl⟩
  | o :: ops, c, hn, hi, hins => by
    rw [List.map_cons, List.nodup_cons] at hi
    obtain ⟨h1, h2⟩ := applyOp_spec hn (hins o (by simp))
    have hne : ∀ o' ∈ ops, o.id ≠ o'.id := fun o' ho' e => hi.1 (e ▸ List.mem_map_of_mem ho')
    obtain ⟨h3, h4⟩ := bulkWrite_spec (ops := ops) h1 hi.2 (by
      intro o' ho' h'
      rw [h2, if_neg (hne o' ho')]
      exact hins o' (List.mem_cons_of_mem _ ho') h')
    refine ⟨h3, fun i => ?_⟩
    have e : bulkWrite c (o :: ops) = bulkWrite (applyOp c o) ops := rfl
    rw [e, h4, h2]
    by_cases h : o.id = i
    · have : opAt i ops = none := by
        rw [opAt, List.find?_eq_none]
        intro o' ho' e; exact hne o' ho' (h.trans (by simpa using e : o'.id = i).symm)
      rw [this]
      simp [opAt, h, docOp?]
    · simp [opAt, h]

theorem opAt_take (i : PyStr) (ops : List MongoOp) (n : Nat) :
    opAt i (ops.take n) = none ∨ opAt i (ops.take n) = opAt i ops := by
  cases h : opAt i (ops.take n) with
  | none => exact .inl rfl
  | some o =>
    refine .inr ?_
    unfold opAt at *
    conv => rhs; rw [← List.take_append_drop n ops]
    rw [List.find?_append, h]; rfl

theorem bulkWrite_append (c : Coll) (a b : List MongoOp) : bulkWrite c (a ++ b) = bulkWrite (bulkWrite c a) b := by
  simp [bulkWrite]

theorem bulkWrite_batches (c : Coll) : ∀ (l : List (List MongoOp)), l.foldl bulkWrite c = bulkWrite c l.flatten := by
  intro l
  induction l generalizing c with
  | nil => rfl
  | cons a l ih => rw [List.foldl_cons, ih, List.flatten_cons, bulkWrite_append]

/-! ## Last occurrences -/

/-- The last record of a stream with an id. -/
def lastRec (id : PyStr) (records : List Record) : Option Record :=
  records.foldl (fun acc r => if r.id = id then some r else acc) none

theorem lastRec_foldl (id : PyStr) : ∀ (records : List Record) (acc : Option Record),
    records.foldl (fun acc r => if r.id = id then some r else acc) acc = (lastRec id records).or acc
  | [], acc => by simp [lastRec]
  | r :: rs, acc => by
    rw [lastRec, List.foldl_cons, List.foldl_cons, lastRec_foldl id rs, lastRec_foldl id rs, Option.or_assoc]
    congr 1
    split <;> simp

theorem lastRec_cons (id : PyStr) (r : Record) (rs : List Record) :
    lastRec id (r :: rs) = (lastRec id rs).or (if r.id = id then some r else none) := by
  rw [lastRec, List.foldl_cons, lastRec_foldl]

theorem lastRec_append (id : PyStr) (a b : List Record) :
    lastRec id (a ++ b) = (lastRec id b).or (lastRec id a) := by
  rw [lastRec, List.foldl_append, lastRec_foldl]; rfl

theorem lastRec_some {id : PyStr} {rs : List Record} {r} (h : lastRec id rs = some r) : r ∈ rs ∧ r.id = id := by
  induction rs with
  | nil => simp [lastRec] at h
  | cons x rs ih =>
    rw [lastRec_cons] at h
    cases hl : lastRec id rs with
    | some y =>
      rw [hl] at h; simp at h; subst h
      obtain ⟨h1, h2⟩ := ih hl
      exact ⟨List.mem_cons_of_mem _ h1, h2⟩
    | none =>
      rw [hl] at h; simp at h; obtain ⟨h1, h2⟩ := h; subst h2; exact ⟨by simp, h1⟩

theorem lastRec_none {id : PyStr} {rs : List Record} : lastRec id rs = none ↔ ∀ r ∈ rs, r.id ≠ id := by
  induction rs with
  | nil => simp [lastRec]
  | cons x rs ih =>
    rw [lastRec_cons]
    simp only [Option.or_eq_none_iff, ih, List.forall_mem_cons]
    constructor
    · rintro ⟨h1, h2⟩; exact ⟨by intro e; simp [e] at h2, h1⟩
    · rintro ⟨h1, h2⟩; exact ⟨h2, by simp [h1]⟩

theorem Hist.ingest_ingest (mf : Option PyStr) (a b : Dict) (h : Hist) :
    (h.ingest mf a).ingest mf b = h.ingest mf b := by
  obtain ⟨cs, p⟩ := h
  cases cs with
  | nil => rfl
  | cons vd cs => rfl

theorem Store.ingest_eq (U : Unicode) (mf : Option PyStr) (id : PyStr) : ∀ (rs : List Record) (s : Store),
    s.ingest U mf rs id = match lastRec id rs with
      | some r => (s id).ingest mf (prepareRecordData U r)
      | none => s id
  | [], s => rfl
  | r :: rs, s => by
    have e : s.ingest U mf (r :: rs) = Store.ingest U mf rs (fun i =>
      if i = r.id then (s i).ingest mf (prepareRecordData U r) else s i) := rfl
    rw [e, Store.ingest_eq U mf id rs, lastRec_cons]
    cases hl : lastRec id rs with
    | some x =>
      simp only [Option.some_or]
      split
      · rw [Hist.ingest_ingest]
      · rfl
    | none =>
      by_cases h : r.id = id
      · simp [h]
      · have : ¬ id = r.id := fun e => h e.symm
        simp [h, this]

/-! ## Chunks -/

theorem aget_aupdate_last {κ α : Type} [DecidableEq κ] (k : κ) : ∀ (e d : List (κ × α)),
    aget k (aupdate d e) = e.foldl (fun acc kv => if kv.1 = k then some kv.2 else acc) (aget k d)
  | [], d => rfl
  | (k', v) :: e, d => by
    have : aupdate d ((k', v) :: e) = aupdate (aset k' v d) e := rfl
    rw [this, aget_aupdate_last k e, List.foldl_cons, aget_aset]
    by_cases h : k = k'
    · subst h; simp
    · have : ¬ k' = k := fun e => h e.symm
      simp [h, this]

theorem recordsById_keys (chunk : List Record) :
    (recordsById chunk).map Record.id = akeys (aofList (chunk.map (fun r => (r.id, r)))) := by
  rw [recordsById, List.map_map, akeys]
  apply List.map_congr_left
  intro kv hkv
  have := mem_aofList hkv
  rw [List.mem_map] at this
  obtain ⟨r, _, e⟩ := this
  rw [← e]; rfl

theorem recordsById_nodup (chunk : List Record) : ((recordsById chunk).map Record.id).Nodup := by
  rw [recordsById_keys]; exact nodup_aofList _

theorem recordsById_find (id : PyStr) (chunk : List Record) :
    (recordsById chunk).find? (fun r => r.id = id) = lastRec id chunk := by
  have h1 : lastRec id chunk = aget id (aofList (chunk.map (fun r => (r.id, r)))) := by
    rw [aofList, aget_aupdate_last, List.foldl_map]; rfl
  rw [h1, recordsById]
  have : ∀ kv ∈ aofList (chunk.map (fun r => (r.id, r))), kv.2.id = kv.1 := by
    intro kv hkv
    have := mem_aofList hkv
    rw [List.mem_map] at this
    obtain ⟨r, _, e⟩ := this
    rw [← e]
  generalize aofList (chunk.map (fun r => (r.id, r))) = l at this
  induction l with
  | nil => rfl
  | cons kv l ih =>
    obtain ⟨k, r⟩ := kv
    have hr : r.id = k := this (k, r) (by simp)
    have ih := ih (fun kv h => this kv (List.mem_cons_of_mem _ h))
    rw [List.map_cons, List.find?_cons, aget_cons]
    by_cases h : id = k
    · have : r.id = id := hr.trans h.symm
      simp [this, h]
    · have : ¬ r.id = id := fun e => h (e.symm.trans hr)
      simp [this, h, ih]

theorem recordsById_sub {chunk : List Record} {r} (h : r ∈ recordsById chunk) : r ∈ chunk := by
  rw [recordsById, List.mem_map] at h
  obtain ⟨⟨k, r'⟩, h1, h2⟩ := h
  cases h2
  have := mem_aofList h1
  rw [List.mem_map] at this
  obtain ⟨x, hx, e⟩ := this
  cases e; exact hx

/-- The op generated for a record given the collection before the ingest. -/
def opOf (U : Unicode) (mf : Option PyStr) (c : Coll) (r : Record) : Option MongoOp :=
  match opFor U mf (findRecord r.id c) r with
  | .ok op => op
  | .error _ => none

theorem opOf_spec {U : Unicode} {mf : Option PyStr} {c : Coll} {s : Store} (h : RColl K c s) (r : Record) :
    opFor U mf (findRecord r.id c) r = .ok (opOf U mf c r) ∧
    (∀ o, opOf U mf c r = some o → o.id = r.id ∧ (o.isInsert = true → findRecord r.id c = none)) := by
  obtain ⟨op, h1, h2, h3, _⟩ := opFor_spec (U := U) (mf := mf) (r := r) (prepareRecordData_wf U r) (h.rep r.id).plain
    (fun d hd => findRecord_id hd)
  have : opOf U mf c r = op := by rw [opOf, h1]
  rw [this]; exact ⟨h1, h2⟩

theorem opOf_rep {U : Unicode} {mf : Option PyStr} {c : Coll} {s : Store} (h : RColl K c s) (r : Record)
    (hq : (K r.id).Q (prepareRecordData U r)) :
    Rep (K r.id) (docOp? (findRecord r.id c) (opOf U mf c r)) ((s r.id).ingest mf (prepareRecordData U r)) := by
  obtain ⟨op, h1, h2, h3, _⟩ := opFor_spec (U := U) (mf := mf) (r := r) hq (h.rep r.id) (fun d hd => findRecord_id hd)
  have : opOf U mf c r = op := by rw [opOf, h1]
  rw [this]; exact h3

theorem collectOps_eq {f : Record → Except PyErr (Option MongoOp)} {g : Record → Option MongoOp} :
    ∀ {rs : List Record}, (∀ r ∈ rs, f r = .ok (g r)) → collectOps f rs = .ok (rs.filterMap g)
  | [], _ => rfl
  | r :: rs, h => by
    rw [collectOps, h r (by simp), collectOps_eq (fun x hx => h x (List.mem_cons_of_mem _ hx))]
    simp only [bind, Except.bind, List.filterMap_cons]
    cases g r <;> rfl

/-! ## The pipeline -/

theorem feedOps_spec (size : Nat) (c : Coll) : ∀ (ops : List MongoOp) (s : IngestState),
    s.coll = bulkWrite c s.written.flatten →
    (ops.foldl (feedOp size) s).coll = bulkWrite c (ops.foldl (feedOp size) s).written.flatten ∧
    (ops.foldl (feedOp size) s).written.flatten ++ (ops.foldl (feedOp size) s).buf =
      s.written.flatten ++ s.buf ++ ops
  | [], s, h => ⟨h, by simp⟩
  | o :: ops, s, h => by
    have key : (feedOp size s o).coll = bulkWrite c (feedOp size s o).written.flatten ∧
        (feedOp size s o).written.flatten ++ (feedOp size s o).buf = s.written.flatten ++ s.buf ++ [o] := by
      unfold feedOp
      dsimp only
      split
      · exact ⟨h, by simp⟩
      · simp only [IngestState.flush, List.flatten_append, List.flatten_cons, List.flatten_nil,
          List.append_nil, bulkWrite_append, h, List.append_assoc, and_self]
    obtain ⟨h1, h2⟩ := feedOps_spec size c ops (feedOp size s o) key.1
    rw [List.foldl_cons]
    refine ⟨h1, ?_⟩
    rw [h2, key.2]; simp

/-- The records whose ops are generated. -/
def effective (chunks : List (List Record)) : List Record := chunks.flatMap recordsById

theorem opsOf_ids {U : Unicode} {mf : Option PyStr} {c : Coll} {s : Store} (h : RColl K c s) (rs : List Record) :
    ((rs.filterMap (opOf U mf c)).map MongoOp.id).Sublist (rs.map Record.id) := by
  induction rs with
  | nil => exact .slnil
  | cons r rs ih =>
    rw [List.filterMap_cons]
    cases ho : opOf U mf c r with
    | none => exact ih.cons _
    | some o =>
      simp only [List.map_cons]
      rw [((opOf_spec h r).2 o ho).1]
      exact ih.cons_cons _

theorem ingestLoop_spec {U : Unicode} {mf : Option PyStr} {c : Coll} {s : Store} (hR : RColl K c s) (size : Nat) :
    ∀ (chunks : List (List Record)) (done : List Record) (st : IngestState),
      st.coll = bulkWrite c st.written.flatten →
      st.written.flatten ++ st.buf = done.filterMap (opOf U mf c) →
      ((done ++ effective chunks).map Record.id).Nodup →
      ∃ st', ingestLoop U mf size st chunks = .ok st' ∧
        st'.written.flatten = (done ++ effective chunks).filterMap (opOf U mf c) ∧
        st'.coll = bulkWrite c st'.written.flatten
  | [], done, st, h1, h2, _ => by
    refine ⟨_, rfl, ?_⟩
    split
    · rename_i hb
      rw [List.isEmpty_iff] at hb
      rw [hb, List.append_nil] at h2
      exact ⟨by simpa [effective] using h2, h1⟩
    · simp only [IngestState.flush, List.flatten_append, List.flatten_cons, List.flatten_nil,
        List.append_nil, h1, h2, effective, List.flatMap_nil]
      exact ⟨trivial, by rw [← bulkWrite_append, h2]⟩
  | chunk :: rest, done, st, h1, h2, h3 => by
    -- the collection at the lookup
    have hd : (done.map Record.id).Nodup := by
      rw [List.map_append] at h3; exact (List.nodup_append.1 h3).1
    have hops : (st.written.flatten.map MongoOp.id).Sublist (done.map Record.id) := by
      refine List.Sublist.trans ?_ (opsOf_ids (U := U) (mf := mf) hR done)
      rw [← h2]; exact (List.sublist_append_left _ _).map _
    obtain ⟨b1, b2⟩ := bulkWrite_spec (ops := st.written.flatten) hR.nodup (hd.sublist hops) (by
      intro o ho hi
      have : o ∈ done.filterMap (opOf U mf c) := by rw [← h2]; exact List.mem_append_left _ ho
      rw [List.mem_filterMap] at this
      obtain ⟨r, _, hr⟩ := this
      obtain ⟨e1, e2⟩ := (opOf_spec hR r).2 o hr
      rw [e1]; exact e2 hi)
    have hlook : ∀ r ∈ recordsById chunk, lookupExisting st.coll r.id = findRecord r.id c := by
      intro r hr
      rw [h1, lookupExisting_eq b1, b2]
      have : opAt r.id st.written.flatten = none := by
        rw [opAt, List.find?_eq_none]
        intro o ho e
        have hm : r.id ∈ done.map Record.id := by
          have : o.id ∈ st.written.flatten.map MongoOp.id := List.mem_map_of_mem ho
          have := hops.subset this
          rwa [show o.id = r.id by simpa using e] at this
        rw [List.map_append, List.nodup_append] at h3
        refine h3.2.2 _ hm r.id ?_ rfl
        rw [effective, List.flatMap_cons, List.map_append]
        exact List.mem_append_left _ (List.mem_map_of_mem hr)
      rw [this]; rfl
    have hchunk : chunkOps U mf st.coll chunk = .ok ((recordsById chunk).filterMap (opOf U mf c)) := by
      rw [chunkOps]
      apply collectOps_eq
      intro r hr
      rw [hlook r hr]
      exact (opOf_spec hR r).1
    rw [ingestLoop, hchunk]
    obtain ⟨f1, f2⟩ := feedOps_spec size c ((recordsById chunk).filterMap (opOf U mf c)) st h1
    have e : done ++ effective (chunk :: rest) = (done ++ recordsById chunk) ++ effective rest := by
      simp [effective]
    rw [e] at h3 ⊢
    exact ingestLoop_spec hR size rest (done ++ recordsById chunk) _ f1 (by
      rw [f2, h2, List.filterMap_append]) h3

theorem effective_nodup : ∀ {chunks : List (List Record)},
    chunks.Pairwise (fun a b => ∀ r ∈ a, ∀ r' ∈ b, r.id ≠ r'.id) → ((effective chunks).map Record.id).Nodup
  | [], _ => by simp [effective]
  | chunk :: rest, h => by
    rw [List.pairwise_cons] at h
    rw [effective, List.flatMap_cons, List.map_append, List.nodup_append]
    refine ⟨recordsById_nodup chunk, effective_nodup h.2, ?_⟩
    intro a ha b hb e
    rw [List.mem_map] at ha hb
    obtain ⟨r, hr, rfl⟩ := ha
    obtain ⟨r', hr', rfl⟩ := hb
    rw [List.mem_flatMap] at hr'
    obtain ⟨ch, hch, hr'⟩ := hr'
    exact h.1 ch hch r (recordsById_sub hr) r' (recordsById_sub hr') e

theorem effective_find (id : PyStr) : ∀ {chunks : List (List Record)},
    chunks.Pairwise (fun a b => ∀ r ∈ a, ∀ r' ∈ b, r.id ≠ r'.id) →
    (effective chunks).find? (fun r => r.id = id) = lastRec id chunks.flatten
  | [], _ => rfl
  | chunk :: rest, h => by
    rw [List.pairwise_cons] at h
    rw [effective, List.flatMap_cons, List.find?_append, recordsById_find, List.flatten_cons, lastRec_append]
    have ih := effective_find id h.2
    rw [effective] at ih
    rw [ih]
    cases h1 : lastRec id chunk with
    | none => simp
    | some r =>
      cases h2 : lastRec id rest.flatten with
      | none => simp
      | some r' =>
        obtain ⟨m1, e1⟩ := lastRec_some h1
        obtain ⟨m2, e2⟩ := lastRec_some h2
        rw [List.mem_flatten] at m2
        obtain ⟨ch, hch, m2⟩ := m2
        exact absurd (e1.trans e2.symm) (h.1 ch hch r m1 r' m2)

theorem opAt_filterMap {U : Unicode} {mf : Option PyStr} {c : Coll} {s : Store} (hR : RColl K c s) (id : PyStr) :
    ∀ {rs : List Record}, (rs.map Record.id).Nodup →
    opAt id (rs.filterMap (opOf U mf c)) = (rs.find? (fun r => r.id = id)).bind (opOf U mf c)
  | [], _ => rfl
  | r :: rs, h => by
    rw [List.map_cons, List.nodup_cons] at h
    have ih := opAt_filterMap (U := U) (mf := mf) hR id h.2
    rw [List.filterMap_cons, List.find?_cons]
    by_cases hid : r.id = id
    · simp only [hid, decide_true, Option.bind_some]
      have hnone : rs.find? (fun r => decide (r.id = id)) = none := by
        rw [List.find?_eq_none]
        intro x hx e
        exact h.1 (List.mem_map.2 ⟨x, hx, (by simpa using e : x.id = id).trans hid.symm⟩)
      cases ho : opOf U mf c r with
      | none => rw [hnone] at ih; simpa [hid] using ih
      | some o =>
        have := ((opOf_spec hR r).2 o ho).1
        simp [opAt, this, hid]
    · simp only [hid, decide_false]
      cases ho : opOf U mf c r with
      | none => exact ih
      | some o =>
        have := ((opOf_spec hR r).2 o ho).1
        rw [← ih]
        simp [opAt, this, hid]

/-- An ingest, whole or stopped, with any batch size. -/
theorem ingestSized_spec {U : Unicode} {mf : Option PyStr} {c : Coll} {s : Store} (hR : RColl K c s) {size : Nat}
    (hs : 1 ≤ size) {rs : List Record} (hq : Fits K U rs) (hspan : NoSpan size rs) :
    ∃ st, ingestSized U mf size c rs = .ok st ∧ st.coll = bulkWrite c st.written.flatten ∧
      st.written.flatten = (effective (partition rs size)).filterMap (opOf U mf c) ∧
      (st.written.flatten.map MongoOp.id).Nodup ∧
      (∀ o ∈ st.written.flatten, o.isInsert = true → findRecord o.id c = none) ∧
      (∀ id, Rep (K id) (docOp? (findRecord id c) (opAt id st.written.flatten)) (s.ingest U mf rs id)) := by
  have hnd := effective_nodup hspan
  obtain ⟨st, h1, h2, h3⟩ := ingestLoop_spec (U := U) (mf := mf) hR size (partition rs size) []
    { coll := c } rfl rfl (by simpa using hnd)
  rw [List.nil_append] at h2
  refine ⟨st, h1, h3, h2, ?_, ?_, ?_⟩
  · rw [h2]; exact hnd.sublist (opsOf_ids hR _)
  · intro o ho hi
    rw [h2, List.mem_filterMap] at ho
    obtain ⟨r, _, hr⟩ := ho
    obtain ⟨e1, e2⟩ := (opOf_spec hR r).2 o hr
    rw [e1]; exact e2 hi
  · intro id
    rw [h2, opAt_filterMap hR id hnd, effective_find id hspan, partition_flatten hs, Store.ingest_eq]
    cases hl : lastRec id rs with
    | none => exact hR.rep id
    | some r =>
      have hid := (lastRec_some hl).2
      have := opOf_rep (U := U) (mf := mf) hR r (hq r (lastRec_some hl).1)
      rw [hid] at this
      exact this

/-! ## commit and rollback -/

theorem Rep.commit {K : DataClass} {doc : Option MongoRecord} {h : Hist} (hr : Rep K doc h) {v : Int}
    (hv : ∀ vd ∈ h.committed, vd.1 < v) :
    Rep K (doc.map (fun d => if d.version.isNone then { d with version := some v } else d)) (h.commit v) := by
  obtain ⟨cs, p⟩ := h
  cases doc with
  | none => obtain ⟨h1, h2⟩ := Rep.none_iff.1 hr; simp only at h1 h2; subst h1; subst h2; simp [Rep, Hist.commit]
  | some d =>
    cases p with
    | some p =>
      have hr : DocRep K d none p cs := hr
      simp only [Option.map, hr.version, Option.isNone_none, if_true, Hist.commit, Rep]
      refine ⟨⟨rfl, hr.data, hr.chain, hr.nodup, hr.keys, hr.desc⟩, ?_⟩
      intro v' hv'; rw [List.mem_map] at hv'; obtain ⟨x, hx, rfl⟩ := hv'; exact hv x hx
    | none =>
      cases cs with
      | nil => exact hr.elim
      | cons vd cs =>
        have hr' : DocRep K d (some vd.1) vd.2 cs ∧ _ := hr
        have : d.version.isNone = false := by simp [hr'.1.version]
        simp only [Option.map, this]
        exact hr

theorem findRecord_map {f : MongoRecord → MongoRecord} (hf : ∀ d, (f d).id = d.id) (id : PyStr) (c : Coll) :
    findRecord id (c.map f) = (findRecord id c).map f := by
  induction c with
  | nil => rfl
  | cons d c ih =>
    rw [List.map_cons, findRecord_cons, findRecord_cons, hf, ih]
    split <;> rfl

theorem ids_map {f : MongoRecord → MongoRecord} (hf : ∀ d, (f d).id = d.id) (c : Coll) : ids (c.map f) = ids c := by
  simp [ids, hf]

theorem commitCollCrash_spec {c : Coll} {s : Store} (hR : RColl K c s) {v : Int} (done : PyStr → Bool)
    (hv : ∀ id, ∀ vd ∈ (s id).committed, vd.1 < v) :
    RColl K (commitCollCrash v done c) (fun id => if done id then (s id).commit v else s id) := by
  have hf : ∀ d : MongoRecord, (if d.version.isNone && done d.id then { d with version := some v } else d).id = d.id := by
    intro d; split <;> rfl
  refine ⟨by rw [commitCollCrash, ids_map hf]; exact hR.nodup, fun id => ?_⟩
  rw [commitCollCrash, findRecord_map hf]
  have hrep := hR.rep id
  cases hd : findRecord id c with
  | none =>
    rw [hd] at hrep
    obtain ⟨h1, h2⟩ := Rep.none_iff.1 hrep
    simp only [Option.map]
    split
    · rw [Hist.commit, h2]; exact hrep
    · exact hrep
  | some d =>
    have hid := findRecord_id hd
    rw [hd] at hrep
    subst hid
    simp only [Option.map]
    cases hdone : done d.id with
    | true =>
      have := Rep.commit hrep (hv d.id)
      simpa [Option.map] using this
    | false => simpa using hrep

theorem commitColl_eq (v : Int) (c : Coll) : commitColl v c = commitCollCrash v (fun _ => true) c := by
  simp [commitColl, commitCollCrash]

theorem commitColl_spec {c : Coll} {s : Store} (hR : RColl K c s) {v : Int}
    (hv : ∀ id, ∀ vd ∈ (s id).committed, vd.1 < v) :
    RColl K (commitColl v c) (fun id => (s id).commit v) := by
  rw [commitColl_eq]; exact commitCollCrash_spec hR _ hv

/-- The rollback op of a document. -/
def rbOp (d : MongoRecord) : Option MongoOp :=
  match rollbackOp d with
  | .ok op => op
  | .error _ => none

theorem rollbackOp_spec {K : DataClass} {d : MongoRecord} {h : Hist} (hr : Rep K (some d) h) :
    rollbackOp d = .ok (rbOp d) ∧ (∀ o, rbOp d = some o → o.id = d.id ∧ o.isInsert = false) ∧
    Rep K (docOp? (some d) (rbOp d)) h.rollback ∧ (d.version.isSome = true → rbOp d = none) := by
  suffices h : ∃ op, rollbackOp d = .ok op ∧ (∀ o, op = some o → o.id = d.id ∧ o.isInsert = false) ∧
      Rep K (docOp? (some d) op) h.rollback ∧ (d.version.isSome = true → op = none) by
    obtain ⟨op, h1, h2⟩ := h
    have : rbOp d = op := by rw [rbOp, h1]
    rw [this]; exact ⟨h1, h2⟩
  obtain ⟨cs, p⟩ := h
  cases p with
  | none =>
    cases cs with
    | nil => exact hr.elim
    | cons vd cs =>
      have hr' : DocRep K d (some vd.1) vd.2 cs ∧ _ := hr
      refine ⟨none, ?_, by simp, hr, fun _ => rfl⟩
      simp [rollbackOp, hr'.1.version]
  | some p =>
    have hr : DocRep K d none p cs := hr
    cases cs with
    | nil =>
      have hd : d.diffs = [] := by
        cases hd : d.diffs with
        | nil => rfl
        | cons kv _ => have := (hr.keys kv.1).1 (by simp [hd]); simp at this
      refine ⟨some (.delete d.id), ?_, ?_, ?_, ?_⟩
      · simp [rollbackOp, hr.version, hd]
      · intro o ho; cases ho; exact ⟨rfl, rfl⟩
      · simp [docOp?, docOp, Rep, Hist.rollback]
      · simp [hr.version]
    | cons vd cs =>
      obtain ⟨v, dd⟩ := vd
      obtain ⟨doc1, h1, h2, h3, h4, h5⟩ := hr.revert
      have hne : d.diffs.isEmpty = false := by
        cases hd : d.diffs with
        | nil => have := (hr.keys v).2 (by simp); rw [hd] at this; simp at this
        | cons _ _ => rfl
      refine ⟨some (.revert d.id doc1.data v doc1.diffs.isEmpty), ?_, ?_, ?_, ?_⟩
      · simp [rollbackOp, hr.version, hne, h1, bind, Except.bind]
      · intro o ho; cases ho; exact ⟨rfl, rfl⟩
      · have e : docOp? (some d) (some (.revert d.id doc1.data v doc1.diffs.isEmpty)) = some doc1 := by
          simp only [docOp?, docOp, Option.map]
          conv => rhs; rw [h5]
          have e : doc1.diffs = aerase v d.diffs := by rw [h5]
          congr 2
          split
          · rename_i hemp'
            rw [e] at hemp'
            exact (List.isEmpty_iff.1 hemp').symm
          · rfl
        rw [e]; exact ⟨h2, h4⟩
      · simp [hr.version]

theorem rollbackOps_eq : ∀ {c : Coll}, (∀ d ∈ c, rollbackOp d = .ok (rbOp d)) → rollbackOps c = .ok (c.filterMap rbOp)
  | [], _ => rfl
  | d :: c, h => by
    rw [rollbackOps, h d (by simp), rollbackOps_eq (fun x hx => h x (List.mem_cons_of_mem _ hx))]
    simp only [bind, Except.bind, List.filterMap_cons]
    cases rbOp d <;> rfl

theorem RColl.rep_mem {c : Coll} {s : Store} (hR : RColl K c s) {d} (hd : d ∈ c) : Rep (K d.id) (some d) (s d.id) := by
  have := hR.rep d.id
  rwa [findRecord_of_mem hR.nodup hd] at this

theorem rbOps_ids {c : Coll} (h : ∀ d ∈ c, ∀ o, rbOp d = some o → o.id = d.id) :
    ((c.filterMap rbOp).map MongoOp.id).Sublist (ids c) := by
  induction c with
  | nil => exact .slnil
  | cons d c ih =>
    have ih := ih (fun x hx => h x (List.mem_cons_of_mem _ hx))
    rw [List.filterMap_cons]
    cases ho : rbOp d with
    | none => exact ih.cons _
    | some o =>
      simp only [List.map_cons, ids]
      rw [h d (by simp) o ho]
      exact ih.cons_cons _

theorem opAt_rb {id : PyStr} : ∀ {c : Coll}, (ids c).Nodup → (∀ d ∈ c, ∀ o, rbOp d = some o → o.id = d.id) →
    opAt id (c.filterMap rbOp) = (findRecord id c).bind rbOp
  | [], _, _ => rfl
  | d :: c, h, hid => by
    rw [ids, List.map_cons, List.nodup_cons] at h
    have ih := opAt_rb (id := id) h.2 (fun x hx => hid x (List.mem_cons_of_mem _ hx))
    rw [List.filterMap_cons, findRecord_cons]
    by_cases hd : d.id = id
    · have hnone : findRecord id c = none := findRecord_none.2 (hd ▸ h.1)
      rw [hnone] at ih
      cases ho : rbOp d with
      | none => simpa [hd, ho] using ih
      | some o =>
        have := hid d (by simp) o ho
        simp [opAt, this, hd, ho]
    · cases ho : rbOp d with
      | none => simpa [hd, ho] using ih
      | some o =>
        have := hid d (by simp) o ho
        rw [if_neg hd, ← ih]
        simp [opAt, this, hd]

theorem rollbackOps_spec {c : Coll} {s : Store} (hR : RColl K c s) :
    ∃ ops, rollbackOps c = .ok ops ∧ (ops.map MongoOp.id).Nodup ∧ (∀ o ∈ ops, o.isInsert = false) ∧
      (∀ id, Rep (K id) (docOp? (findRecord id c) (opAt id ops)) (s id).rollback) ∧
      (hasUncommittedData c = false → ops = []) := by
  have hid : ∀ d ∈ c, ∀ o, rbOp d = some o → o.id = d.id := fun d hd o ho =>
    ((rollbackOp_spec (hR.rep_mem hd)).2.1 o ho).1
  refine ⟨c.filterMap rbOp, rollbackOps_eq (fun d hd => (rollbackOp_spec (hR.rep_mem hd)).1),
    hR.nodup.sublist (rbOps_ids hid), ?_, ?_, ?_⟩
  · intro o ho
    rw [List.mem_filterMap] at ho
    obtain ⟨d, hd, ho⟩ := ho
    exact ((rollbackOp_spec (hR.rep_mem hd)).2.1 o ho).2
  · intro id
    rw [opAt_rb hR.nodup hid]
    have := hR.rep id
    cases hd : findRecord id c with
    | none =>
      rw [hd] at this
      obtain ⟨h1, h2⟩ := Rep.none_iff.1 this
      simp [docOp?, Rep, Hist.rollback, h1]
    | some d =>
      rw [hd] at this
      exact (rollbackOp_spec this).2.2.1
  · intro h
    rw [List.filterMap_eq_nil_iff]
    intro d hd
    have : d.version.isSome = true := by
      rw [hasUncommittedData, List.any_eq_false] at h
      have := h d hd
      cases hv : d.version <;> simp_all
    exact (rollbackOp_spec (hR.rep_mem hd)).2.2.2 this

theorem rollbackCrash_spec {c : Coll} {s : Store} (hR : RColl K c s) (n : Nat) :
    ∃ c' s', rollbackCrash c n = .ok c' ∧ (∀ id, s' id = s id ∨ s' id = (s id).rollback) ∧ RColl K c' s' := by
  obtain ⟨ops, h1, h2, h3, h4, h5⟩ := rollbackOps_spec hR
  unfold rollbackCrash
  cases hu : hasUncommittedData c with
  | false =>
    exact ⟨c, s, by simp, fun _ => .inl rfl, hR⟩
  | true =>
    simp only [if_true, h1]
    obtain ⟨b1, b2⟩ := bulkWrite_spec (ops := ops.take n) hR.nodup (h2.sublist ((List.take_sublist n ops).map _)) (by
      intro o ho hi; have := h3 o (List.mem_of_mem_take ho); simp [this] at hi)
    refine ⟨_, fun id => match opAt id (ops.take n) with | none => s id | some _ => (s id).rollback, rfl, ?_, b1, ?_⟩
    · intro id
      dsimp only
      split
      · exact .inl rfl
      · exact .inr rfl
    · intro id
      rw [b2]
      rcases opAt_take id ops n with e | e
      · rw [e]; exact hR.rep id
      · have := h4 id
        rw [← e] at this
        cases hq : opAt id (ops.take n) with
        | none => exact hR.rep id
        | some o => rw [hq] at this; exact this

theorem rollback_spec {c : Coll} {s : Store} (hR : RColl K c s) :
    ∃ c', rollbackRecords c = .ok c' ∧ RColl K c' (fun id => (s id).rollback) := by
  obtain ⟨ops, h1, h2, h3, h4, h5⟩ := rollbackOps_spec hR
  obtain ⟨b1, b2⟩ := bulkWrite_spec (ops := ops) hR.nodup h2 (by
    intro o ho hi; have := h3 o ho; simp [this] at hi)
  have hfin : RColl K (bulkWrite c ops) (fun id => (s id).rollback) := ⟨b1, fun id => by rw [b2]; exact h4 id⟩
  unfold rollbackRecords
  cases hu : hasUncommittedData c with
  | false =>
    refine ⟨c, by simp, ?_⟩
    rw [h5 hu] at hfin; exact hfin
  | true =>
    simp only [if_true, h1]
    refine ⟨_, rfl, ?_⟩
    rw [bulkWrite_batches, partition_flatten (by omega)]; exact hfin

/-! ## Sequences of events -/

theorem ingest_event {U : Unicode} {mf : Option PyStr} {c : Coll} {s : Store} (hR : RColl K c s) {rs : List Record}
    (hq : Fits K U rs) (hspan : NoSpan 200 rs) : ∃ c', ingest U mf c rs = .ok c' ∧ RColl K c' (s.ingest U mf rs) := by
  obtain ⟨st, h1, h2, h3, h4, h5, h6⟩ := ingestSized_spec (U := U) (mf := mf) hR (by omega) hq hspan
  obtain ⟨b1, b2⟩ := bulkWrite_spec hR.nodup h4 h5
  refine ⟨st.coll, by rw [ingest, h1]; rfl, by rw [h2]; exact b1, fun id => ?_⟩
  rw [h2, b2]; exact h6 id

theorem ingestCrash_event {U : Unicode} {mf : Option PyStr} {c : Coll} {s : Store} (hR : RColl K c s)
    {rs : List Record} (hq : Fits K U rs) (hspan : NoSpan 200 rs) (n : Nat) :
    ∃ c' s', ingestCrash U mf c rs n = .ok c' ∧ (∀ id, s' id = s id ∨ s' id = s.ingest U mf rs id) ∧ RColl K c' s' := by
  obtain ⟨st, h1, h2, h3, h4, h5, h6⟩ := ingestSized_spec (U := U) (mf := mf) hR (by omega) hq hspan
  obtain ⟨b1, b2⟩ := bulkWrite_spec (ops := st.written.flatten.take n) hR.nodup
    (h4.sublist ((List.take_sublist n _).map _)) (fun o ho => h5 o (List.mem_of_mem_take ho))
  refine ⟨_, fun id => match opAt id (st.written.flatten.take n) with
    | none => s id | some _ => s.ingest U mf rs id, by rw [ingestCrash, h1]; rfl, ?_, b1, ?_⟩
  · intro id
    dsimp only
    split
    · exact .inl rfl
    · exact .inr rfl
  · intro id
    rw [b2]
    have := h6 id
    rcases opAt_take id st.written.flatten n with e | e
    · rw [e]; exact hR.rep id
    · rw [← e] at this
      cases hq : opAt id (st.written.flatten.take n) with
      | none => exact hR.rep id
      | some o => rw [hq] at this; exact this

theorem Store.ingest_committed (U : Unicode) (mf : Option PyStr) (rs : List Record) (s : Store) (id : PyStr) :
    (s.ingest U mf rs id).committed = (s id).committed := by
  rw [Store.ingest_eq]
  split
  · unfold Hist.ingest; split <;> rfl
  · rfl

theorem Hist.commit_committed (v : Int) (h : Hist) :
    (h.commit v).committed = h.committed ∨ ∃ d, (h.commit v).committed = (v, d) :: h.committed := by
  unfold Hist.commit
  cases h.pending with
  | none => exact .inl rfl
  | some d => exact .inr ⟨d, rfl⟩

/-- Every event keeps the committed versions and adds at most one. -/
theorem Event.Spec.committed {U : Unicode} {s s' : Store} {e : Event} (h : e.Spec U s s') (id : PyStr) :
    (s' id).committed = (s id).committed ∨
      ∃ v d, e.version = some v ∧ (s' id).committed = (v, d) :: (s id).committed := by
  cases e with
  | ingest mf rs => rw [h id, Store.ingest_committed]; exact .inl rfl
  | ingestCrash mf rs n =>
    rcases h id with e | e
    · rw [e]; exact .inl rfl
    · rw [e, Store.ingest_committed]; exact .inl rfl
  | rollback => rw [h id]; exact .inl rfl
  | rollbackCrash n =>
    rcases h id with e | e
    · rw [e]; exact .inl rfl
    · rw [e]; exact .inl rfl
  | commit v =>
    rw [h id]
    rcases Hist.commit_committed v (s id) with e | ⟨d, e⟩
    · exact .inl e
    · exact .inr ⟨v, d, rfl, e⟩
  | commitCrash v done =>
    have h := h id
    split at h
    · rw [h]
      rcases Hist.commit_committed v (s id) with e | ⟨d, e⟩
      · exact .inl e
      · exact .inr ⟨v, d, rfl, e⟩
    · rw [h]; exact .inl rfl

theorem run_event {U : Unicode} {c : Coll} {s : Store} (hR : RColl K c s) (e : Event)
    (hv : ∀ v, e.version = some v → ∀ id, ∀ vd ∈ (s id).committed, vd.1 < v) (hq : Fits K U e.stream) (hspan : NoSpan 200 e.stream) :
    ∃ c' s', e.run U c = .ok c' ∧ e.Spec U s s' ∧ RColl K c' s' := by
  cases e with
  | ingest mf rs =>
    obtain ⟨c', h1, h2⟩ := ingest_event (U := U) (mf := mf) hR hq hspan
    exact ⟨c', _, h1, fun _ => rfl, h2⟩
  | ingestCrash mf rs n =>
    obtain ⟨c', s', h1, h2, h3⟩ := ingestCrash_event (U := U) (mf := mf) hR hq hspan n
    exact ⟨c', s', h1, h2, h3⟩
  | rollback =>
    obtain ⟨c', h1, h2⟩ := rollback_spec hR
    exact ⟨c', _, h1, fun _ => rfl, h2⟩
  | rollbackCrash n =>
    obtain ⟨c', s', h1, h2, h3⟩ := rollbackCrash_spec hR n
    exact ⟨c', s', h1, h2, h3⟩
  | commit v => exact ⟨_, _, rfl, fun _ => rfl, commitColl_spec hR (hv v rfl)⟩
  | commitCrash v done => exact ⟨_, _, rfl, fun _ => rfl, commitCollCrash_spec hR done (hv v rfl)⟩

theorem run_events {U : Unicode} : ∀ (es : List Event) {c : Coll} {s : Store}, RColl K c s →
    (∀ v ∈ es.filterMap Event.version, ∀ id, ∀ vd ∈ (s id).committed, vd.1 < v) → (∀ e ∈ es, Fits K U e.stream) → Regular es →
    ∃ c' s', runEvents U c es = .ok c' ∧ SpecRun U s es s' ∧ RColl K c' s'
  | [], c, s, hR, _, _, _ => ⟨c, s, rfl, .nil, hR⟩
  | e :: es, c, s, hR, hv, hq, hreg => by
    obtain ⟨c1, s1, h1, h2, h3⟩ := run_event (U := U) hR e (by
      intro v he; exact hv v (by simp [List.filterMap_cons, he])) (hq e (by simp)) (hreg.noSpan e (by simp))
    have hreg' : Regular es := by
      refine ⟨?_, fun e' he' => hreg.noSpan e' (List.mem_cons_of_mem _ he')⟩
      have := hreg.clock
      rw [List.filterMap_cons] at this
      cases hev : e.version with
      | none => rwa [hev] at this
      | some v => rw [hev] at this; exact (List.pairwise_cons.1 this).2
    obtain ⟨c2, s2, h4, h5, h6⟩ := run_events es h3 (by
      intro v hv' id vd hvd
      have hold := hv v (by
        rw [List.filterMap_cons]
        cases e.version with
        | none => exact hv'
        | some w => exact List.mem_cons_of_mem _ hv') id
      rcases h2.committed id with e1 | ⟨w, d, e1, e2⟩
      · rw [e1] at hvd; exact hold vd hvd
      · rw [e2] at hvd
        rcases List.mem_cons.1 hvd with e3 | hvd
        · rw [e3]
          have := hreg.clock
          rw [List.filterMap_cons, e1] at this
          exact (List.pairwise_cons.1 this).1 v hv'
        · exact hold vd hvd) (fun e' he' => hq e' (List.mem_cons_of_mem _ he')) hreg'
    refine ⟨c2, s2, ?_, .cons h2 h5, h6⟩
    rw [runEvents, List.foldlM_cons, h1]
    exact h4

theorem RColl.empty : RColl K [] Store.empty :=
  ⟨by simp [ids], fun id => by simp [findRecord, Rep, Store.empty]⟩

end Splitgill
