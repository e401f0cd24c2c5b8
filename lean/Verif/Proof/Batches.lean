import Verif.Proof.Reach
import Verif.Proof.Bson2
import Verif.Spec.Batches
/-!
# Batches of an ingest that do not wait for each other
-/

namespace Splitgill

/-! ## Lookups -/

theorem lookupExisting_filter (c : Coll) (id : PyStr) : lookupExisting c id = (c.filter (fun d => d.id = id)).getLast? := by
  have : ∀ (c : Coll) (acc : Option MongoRecord), c.foldl (fun acc d => if d.id = id then some d else acc) acc =
      ((c.filter (fun d => d.id = id)).getLast?).or acc := by
    intro c
    induction c with
    | nil => intro acc; rfl
    | cons d c ih =>
      intro acc
      rw [List.foldl_cons, ih, List.filter_cons]
      by_cases h : d.id = id
      · rw [if_pos h, if_pos (by simpa using h), List.getLast?_cons]
        cases (c.filter (fun d => d.id = id)).getLast? <;> rfl
      · rw [if_neg h, if_neg (by simpa using h)]
  rw [lookupExisting, this, Option.or_none]

theorem filter_updateFirst {id id' : PyStr} (h : id ≠ id') {f : MongoRecord → MongoRecord} (hf : ∀ d, (f d).id = d.id) : ∀ c : Coll,
    (updateFirst id f c).filter (fun d => d.id = id') = c.filter (fun d => d.id = id')
  | [] => rfl
  | d :: c => by
    rw [updateFirst]
    split
    · rename_i hd
      have h1 : ¬ d.id = id' := fun e => h (hd.symm.trans e)
      rw [List.filter_cons_of_neg (by simpa [hf] using h1), List.filter_cons_of_neg (by simpa using h1)]
    · rw [List.filter_cons, List.filter_cons, filter_updateFirst h hf c]

theorem filter_deleteFirst {id id' : PyStr} (h : id ≠ id') : ∀ c : Coll,
    (deleteFirst id c).filter (fun d => d.id = id') = c.filter (fun d => d.id = id')
  | [] => rfl
  | d :: c => by
    rw [deleteFirst]
    split
    · rename_i hd
      have h1 : ¬ d.id = id' := fun e => h (hd.symm.trans e)
      rw [List.filter_cons_of_neg (by simpa using h1)]
    · rw [List.filter_cons, List.filter_cons, filter_deleteFirst h c]

theorem filter_applyOp {o : MongoOp} {id : PyStr} (h : o.id ≠ id) (c : Coll) :
    (applyOp c o).filter (fun d => d.id = id) = c.filter (fun d => d.id = id) := by
  cases o with
  | insert i data =>
    rw [applyOp, List.filter_append, List.filter_cons_of_neg (by simpa using (show i ≠ id from h)), List.filter_nil, List.append_nil]
  | setData i data => exact filter_updateFirst (f := fun d => { d with data := data }) h (fun _ => rfl) c
  | setDiff i data v changes =>
    exact filter_updateFirst (f := fun d => { d with data := data, version := none, diffs := aset v changes d.diffs }) h (fun _ => rfl) c
  | revert i data v all =>
    exact filter_updateFirst (f := fun d => { d with data := data, version := some v, diffs := if all then [] else aerase v d.diffs }) h (fun _ => rfl) c
  | delete i => exact filter_deleteFirst h c

theorem lookupExisting_bulkWrite {id : PyStr} : ∀ {ops : List MongoOp} (c : Coll), (∀ o ∈ ops, o.id ≠ id) →
    lookupExisting (bulkWrite c ops) id = lookupExisting c id
  | [], _, _ => rfl
  | o :: ops, c, h => by
    have := lookupExisting_bulkWrite (applyOp c o) (fun o ho => h o (List.mem_cons_of_mem _ ho))
    rw [bulkWrite, List.foldl_cons, ← bulkWrite, this, lookupExisting_filter, filter_applyOp (h o List.mem_cons_self), ← lookupExisting_filter]

theorem chunkOps_bulkWrite {U : Unicode} {mf : Option PyStr} {ops : List MongoOp} {b : List Record} (c : Coll)
    (h : ∀ r ∈ b, ∀ o ∈ ops, o.id ≠ r.id) : chunkOps U mf (bulkWrite c ops) b = chunkOps U mf c b := by
  have : ∀ rs : List Record, (∀ r ∈ rs, r ∈ b) →
      collectOps (fun r => opFor U mf (lookupExisting (bulkWrite c ops) r.id) r) rs = collectOps (fun r => opFor U mf (lookupExisting c r.id) r) rs := by
    intro rs
    induction rs with
    | nil => intro _; rfl
    | cons r rs ih =>
      intro hr
      rw [collectOps, collectOps, ih (fun x hx => hr x (List.mem_cons_of_mem _ hx)), lookupExisting_bulkWrite c (h r (hr r List.mem_cons_self))]
  exact this _ (fun r hr => recordsById_mem hr)

/-! ## The operations that wait -/

theorem leftOver_short {α : Type} {size : Nat} {l : List α} (h : l.length < size) : leftOver size l = l := by
  rw [leftOver, Nat.div_eq_of_lt h, Nat.mul_zero, List.drop_zero]

theorem leftOver_full {α : Type} {size : Nat} (hs : 1 ≤ size) {a : List α} (h : a.length = size) (l : List α) : leftOver size (a ++ l) = leftOver size l := by
  rw [leftOver, leftOver, List.length_append, h, Nat.add_div_left _ hs, Nat.mul_add, Nat.mul_one, Nat.add_comm, ← h, List.drop_length_add_append]

theorem leftOver_length {α : Type} {size : Nat} (hs : 1 ≤ size) (l : List α) : (leftOver size l).length < size := by
  rw [leftOver, List.length_drop]
  have := Nat.div_add_mod l.length size
  have := Nat.mod_lt l.length hs
  omega

theorem feed_leftOver {size : Nat} (hs : 1 ≤ size) : ∀ (ops : List MongoOp) (s : IngestState), s.buf.length < size →
    (ops.foldl (feedOp size) s).buf = leftOver size (s.buf ++ ops) ∧
    bulkWrite (ops.foldl (feedOp size) s).coll (ops.foldl (feedOp size) s).buf = bulkWrite (bulkWrite s.coll s.buf) ops
  | [], s, h => ⟨by rw [List.append_nil, leftOver_short h]; rfl, rfl⟩
  | o :: ops, s, h => by
    rw [List.foldl_cons]
    by_cases hl : (s.buf ++ [o]).length < size
    · have e : feedOp size s o = { s with buf := s.buf ++ [o] } := by rw [feedOp, if_pos hl]
      rw [e]
      obtain ⟨h1, h2⟩ := feed_leftOver hs ops { s with buf := s.buf ++ [o] } hl
      refine ⟨by rw [h1]; simp, ?_⟩
      rw [h2]
      show bulkWrite (bulkWrite s.coll (s.buf ++ [o])) ops = _
      rw [bulkWrite_append]
      rfl
    · have e : feedOp size s o = { s with buf := s.buf ++ [o] }.flush := by rw [feedOp, if_neg hl]
      rw [e]
      have hlen : (s.buf ++ [o]).length = size := by rw [List.length_append, List.length_singleton] at hl ⊢; omega
      obtain ⟨h1, h2⟩ := feed_leftOver hs ops { s with buf := s.buf ++ [o] }.flush (by show 0 < size; omega)
      refine ⟨?_, ?_⟩
      · rw [h1]
        show leftOver size ([] ++ ops) = _
        rw [List.nil_append, ← List.singleton_append (l := ops), ← List.append_assoc, leftOver_full hs hlen]
      · rw [h2]
        show bulkWrite (bulkWrite (bulkWrite s.coll (s.buf ++ [o])) []) ops = _
        rw [bulkWrite_append]
        rfl

/-! ## The loop -/

/-- All operations are made as if those before had been written. -/
def runBatches (U : Unicode) (mf : Option PyStr) : Coll → List (List Record) → Except PyErr Coll
  | c, [] => .ok c
  | c, b :: bs =>
    match chunkOps U mf c b with
    | .error e => .error e
    | .ok ops => runBatches U mf (bulkWrite c ops) bs

theorem ingestLoop_settled {U : Unicode} {mf : Option PyStr} {size : Nat} (hs : 1 ≤ size) : ∀ (bs : List (List Record)) (s : IngestState),
    s.buf.length < size → Settled U mf size (bulkWrite s.coll s.buf) s.buf bs →
    (ingestLoop U mf size s bs).map IngestState.coll = runBatches U mf (bulkWrite s.coll s.buf) bs
  | [], s, _, _ => by
    rw [ingestLoop, runBatches]
    show Except.ok _ = _
    congr 1
    split
    · rename_i h
      rw [List.isEmpty_iff] at h
      rw [h]
      rfl
    · rfl
  | b :: bs, s, hl, h => by
    have hc := chunkOps_bulkWrite (U := U) (mf := mf) s.coll h.1
    rw [ingestLoop, runBatches]
    have h2 := h.2
    rw [hc] at h2 ⊢
    cases ho : chunkOps U mf s.coll b with
    | error e => rfl
    | ok ops =>
      rw [ho] at h2
      dsimp only at h2 ⊢
      obtain ⟨f1, f2⟩ := feed_leftOver hs ops s hl
      rw [ingestLoop_settled hs bs _ (by rw [f1]; exact leftOver_length hs _) (by rw [f2, f1]; exact h2), f2]

theorem partition_short {b : List Record} (hne : b ≠ []) (hl : b.length ≤ 200) : partition b 200 = [b] := by
  have h1 : b.take 200 = b := List.take_of_length_le hl
  have h2 : b.drop 200 = [] := List.drop_of_length_le hl
  obtain ⟨k, hk⟩ : ∃ k, b.length = k + 1 := ⟨b.length - 1, by have := List.length_pos_iff.2 hne; omega⟩
  rw [partition, hk, partitionLoop, h1, h2, partitionLoop]
  rw [if_neg (by rw [List.isEmpty_iff]; exact hne)]
  rfl

theorem ingest_batch {U : Unicode} {mf : Option PyStr} {c : Coll} {b : List Record} (hne : b ≠ []) (hl : b.length ≤ 200) :
    ingest U mf c b = (match chunkOps U mf c b with | .error e => .error e | .ok ops => .ok (bulkWrite c ops)) := by
  have hp := partition_short hne hl
  have := ingestLoop_settled (U := U) (mf := mf) (size := 200) (by decide) [b] { coll := c } (by simp)
    ⟨fun _ _ _ ho => (nomatch ho), by split <;> trivial⟩
  have e : ingest U mf c b = (ingestLoop U mf 200 { coll := c } [b]).map IngestState.coll := by
    rw [ingest, ingestSized, hp]
    cases ingestLoop U mf 200 { coll := c } [b] <;> rfl
  rw [e, this]
  show (match chunkOps U mf c b with | .error e => _ | .ok ops => _) = _
  rfl

theorem ingestEach_eq {U : Unicode} {mf : Option PyStr} : ∀ {bs : List (List Record)} {c : Coll}, (∀ b ∈ bs, b ≠ [] ∧ b.length ≤ 200) →
    ingestEach U mf c bs = runBatches U mf c bs
  | [], _, _ => rfl
  | b :: bs, c, h => by
    rw [ingestEach, runBatches, ingest_batch (h b List.mem_cons_self).1 (h b List.mem_cons_self).2]
    cases chunkOps U mf c b with
    | error e => rfl
    | ok ops => exact ingestEach_eq (fun x hx => h x (List.mem_cons_of_mem _ hx))

theorem ingest_settled {U : Unicode} {mf : Option PyStr} {c : Coll} {rs : List Record} (h : Settled U mf 200 c [] (partition rs 200)) :
    ingest U mf c rs = ingestEach U mf c (partition rs 200) := by
  have h1 := ingestLoop_settled (by decide) (partition rs 200) { coll := c } (by simp) h
  have e : ingest U mf c rs = (ingestLoop U mf 200 { coll := c } (partition rs 200)).map IngestState.coll := by
    rw [ingest, ingestSized]
    cases ingestLoop U mf 200 { coll := c } (partition rs 200) <;> rfl
  rw [e, h1, ingestEach_eq]
  · rfl
  · exact fun b hb => partitionLoop_chunks _ _ b hb

/-- Batches that each make a full list of operations. -/
theorem settled_full {U : Unicode} {mf : Option PyStr} : ∀ {bs : List (List Record)} {c : Coll},
    (∀ ops ∈ (batchOps U mf c bs).dropLast, ops.length = 200) → Settled U mf 200 c [] bs
  | [], _, _ => trivial
  | b :: bs, c, h => by
    refine ⟨fun _ _ _ ho => (nomatch ho), ?_⟩
    rw [batchOps] at h
    cases hc : chunkOps U mf c b with
    | error e => trivial
    | ok ops =>
      rw [hc] at h
      dsimp only at h ⊢
      cases hb : batchOps U mf (bulkWrite c ops) bs with
      | nil =>
        cases bs with
        | nil => trivial
        | cons b2 bs =>
          rw [batchOps] at hb
          split at hb <;> cases hb
      | cons o os =>
        rw [hb, List.dropLast_cons_of_ne_nil (List.cons_ne_nil _ _)] at h
        have hl : leftOver 200 ([] ++ ops) = [] := by
          have := leftOver_full (size := 200) (by decide) (h ops List.mem_cons_self) ([] : List MongoOp)
          rw [List.append_nil] at this
          rw [List.nil_append, this]
          rfl
        rw [hl]
        exact settled_full (by rw [hb]; exact fun x hx => h x (List.mem_cons_of_mem _ hx))

/-- The ids stay unique. -/
theorem ingestEach_rcoll {U : Unicode} {mf : Option PyStr} : ∀ {bs : List (List Record)} {c : Coll} {s : Store},
    RColl (fun _ => plainClass) c s → (∀ b ∈ bs, b ≠ [] ∧ b.length ≤ 200) →
    ∃ c', ingestEach U mf c bs = .ok c' ∧ RColl (fun _ => plainClass) c' (bs.foldl (fun s b => s.ingest U mf b) s) ∧
      ∀ id, (∀ b ∈ bs, ∀ r ∈ b, r.id ≠ id) → findRecord id c' = findRecord id c
  | [], c, s, h, _ => ⟨c, rfl, h, fun _ _ => rfl⟩
  | b :: bs, c, s, h, hb => by
    have hspan : NoSpan 200 b := by
      rw [NoSpan, partition_short (hb b List.mem_cons_self).1 (hb b List.mem_cons_self).2]
      exact List.pairwise_singleton _ _
    obtain ⟨c', h1, h2⟩ := ingest_event (U := U) (mf := mf) h (fits_plain U b) hspan
    obtain ⟨c'', h3, h4, h5⟩ := ingestEach_rcoll h2 (fun x hx => hb x (List.mem_cons_of_mem _ hx))
    obtain ⟨_, f1, _, f2⟩ := ingest_find (U := U) (mf := mf) h (fits_plain U b) hspan
    rw [h1] at f1
    cases f1
    refine ⟨c'', ?_, h4, fun id hid => ?_⟩
    · rw [ingestEach, h1]
      exact h3
    · rw [h5 id (fun b' hb' => hid b' (List.mem_cons_of_mem _ hb')), f2, lastRec_none.2 (hid b List.mem_cons_self)]
      rfl

theorem foldl_ingest {U : Unicode} {mf : Option PyStr} : ∀ (bs : List (List Record)) (s : Store),
    bs.foldl (fun s b => s.ingest U mf b) s = s.ingest U mf bs.flatten
  | [], _ => rfl
  | b :: bs, s => by
    rw [List.foldl_cons, foldl_ingest bs, List.flatten_cons]
    simp only [Store.ingest, List.foldl_append]

theorem mem_leftOver {α : Type} {size : Nat} {l : List α} {x : α} (h : x ∈ leftOver size l) : x ∈ l := List.mem_of_mem_drop h

/-- Batches without common ids. -/
theorem settled_apart {U : Unicode} {mf : Option PyStr} {size : Nat} : ∀ {bs : List (List Record)} {c : Coll} {waiting : List MongoOp},
    bs.Pairwise (fun a b => ∀ r ∈ a, ∀ r' ∈ b, r.id ≠ r'.id) → (∀ o ∈ waiting, ∀ b ∈ bs, ∀ r ∈ b, o.id ≠ r.id) → Settled U mf size c waiting bs
  | [], _, _, _, _ => trivial
  | b :: bs, c, waiting, hp, hw => by
    rw [List.pairwise_cons] at hp
    refine ⟨fun r hr o ho => hw o ho b List.mem_cons_self r hr, ?_⟩
    cases hc : chunkOps U mf c b with
    | error e => trivial
    | ok ops =>
      refine settled_apart hp.2 fun o ho b' hb' r hr => ?_
      rcases List.mem_append.1 (mem_leftOver ho) with ho | ho
      · exact hw o ho b' (List.mem_cons_of_mem _ hb') r hr
      · obtain ⟨x, hx, e⟩ := chunkOps_ids hc o ho
        rw [← e]
        exact hp.1 b' hb' x hx r hr

/-! ## Ids that are inserted twice -/

theorem filter_inserts {id : PyStr} : ∀ {ops : List MongoOp} (c : Coll), (∀ o ∈ ops, o.id = id → o.isInsert = true) →
    ((bulkWrite c ops).filter (fun d => d.id = id)).length = (c.filter (fun d => d.id = id)).length + (ops.filter (fun o => o.id = id)).length
  | [], _, _ => rfl
  | o :: ops, c, h => by
    rw [bulkWrite, List.foldl_cons, ← bulkWrite, filter_inserts (applyOp c o) (fun o ho => h o (List.mem_cons_of_mem _ ho))]
    by_cases ho : o.id = id
    · have hi := h o List.mem_cons_self ho
      cases o with
      | insert i data =>
        have e : i = id := ho
        subst e
        rw [applyOp, List.filter_append, List.filter_cons_of_pos (by simp), List.filter_cons_of_pos (by simp [MongoOp.id])]
        simp only [List.filter_nil, List.length_append, List.length_cons, List.length_nil]
        omega
      | _ => cases hi
    · rw [filter_applyOp ho, List.filter_cons_of_neg (by simpa using ho)]

theorem chunkOps_rcoll {K : PyStr → DataClass} {U : Unicode} {mf : Option PyStr} {c : Coll} {s : Store} (h : RColl K c s) (b : List Record) :
    chunkOps U mf c b = .ok ((recordsById b).filterMap (opOf U mf c)) := by
  rw [chunkOps]
  apply collectOps_eq
  intro r _
  rw [lookupExisting_eq h.nodup]
  exact (opOf_spec h r).1

theorem recordsById_short {b : List Record} (h : ¬ (b.map Record.id).Nodup) : (recordsById b).length < b.length := by
  by_contra hl
  apply h
  have h1 := recordsById_nodup b
  have hsub : (recordsById b).map Record.id ⊆ b.map Record.id := by
    intro i hi
    obtain ⟨r, hr, rfl⟩ := List.mem_map.1 hi
    exact List.mem_map.2 ⟨r, recordsById_mem hr, rfl⟩
  have hp := (h1.subperm hsub).perm_of_length_le (by rw [List.length_map, List.length_map]; omega)
  exact hp.nodup_iff.1 h1

/-- The operation for a new record in a batch. -/
theorem batch_insert {K : PyStr → DataClass} {U : Unicode} {mf : Option PyStr} {c : Coll} {s : Store} (h : RColl K c s) {b : List Record} {id : PyStr}
    (hnew : ∀ d ∈ c, d.id ≠ id) (hdel : ∀ r ∈ b, r.id = id → r.data ≠ []) :
    (∀ o ∈ (recordsById b).filterMap (opOf U mf c), o.id = id → o.isInsert = true) ∧
    ((∃ r ∈ b, r.id = id) → 1 ≤ (((recordsById b).filterMap (opOf U mf c)).filter (fun o => o.id = id)).length) := by
  have hf : findRecord id c = none := by
    cases hx : findRecord id c with
    | none => rfl
    | some d => exact absurd (findRecord_id hx) (hnew d (findRecord_mem hx))
  have hop : ∀ r ∈ b, r.id = id → opOf U mf c r = some (.insert r.id (prepareRecordData U r)) := by
    intro r hr e
    have hd : r.isDelete = false := by rw [Record.isDelete, Bool.eq_false_iff, ne_eq, List.isEmpty_iff]; exact hdel r hr e
    rw [opOf, e, hf]
    simp only [opFor, hd, Bool.false_eq_true, if_false, e]
  refine ⟨fun o ho e => ?_, fun ⟨r, hr, e⟩ => ?_⟩
  · obtain ⟨r, hr, h1⟩ := List.mem_filterMap.1 ho
    have h2 := ((opOf_spec h r).2 o h1).1
    rw [hop r (recordsById_mem hr) (h2.symm.trans e)] at h1
    cases h1
    rfl
  · have hl : lastRec id b ≠ none := fun hn => lastRec_none.1 hn r hr e
    obtain ⟨x, hx⟩ := Option.ne_none_iff_exists'.1 hl
    rw [← recordsById_find] at hx
    have hm := List.mem_of_find?_eq_some hx
    have hid : x.id = id := by simpa using List.find?_some hx
    have : .insert x.id (prepareRecordData U x) ∈ ((recordsById b).filterMap (opOf U mf c)).filter (fun o => o.id = id) := by
      rw [List.mem_filter]
      exact ⟨List.mem_filterMap.2 ⟨x, hm, hop x (recordsById_mem hm) hid⟩, by simp [MongoOp.id, hid]⟩
    exact List.length_pos_of_mem this

theorem partition_two {a b : List Record} (ha : a.length = 200) (hb : b ≠ []) (hl : b.length ≤ 200) : partition (a ++ b) 200 = [a, b] := by
  have h1 : (a ++ b).take 200 = a := by rw [← ha, List.take_left]
  have h2 : (a ++ b).drop 200 = b := by rw [← ha, List.drop_left]
  have h3 : b.take 200 = b := List.take_of_length_le hl
  have h4 : b.drop 200 = [] := List.drop_of_length_le hl
  have hane : a.isEmpty = false := by cases a with
    | nil => cases ha
    | cons _ _ => rfl
  have hbne : b.isEmpty = false := by cases b with
    | nil => exact absurd rfl hb
    | cons _ _ => rfl
  have hlen : (a ++ b).length + 1 = (199 + b.length) + 2 := by rw [List.length_append, ha]; omega
  rw [partition, hlen, partitionLoop, h1, h2]
  simp only [hane, Bool.false_eq_true, if_false]
  rw [partitionLoop, h3, h4]
  simp only [hbne, Bool.false_eq_true, if_false]
  rw [show 199 + b.length = (198 + b.length) + 1 by omega, partitionLoop]
  rfl

theorem twice {K : PyStr → DataClass} {U : Unicode} {mf : Option PyStr} {c : Coll} {s : Store} (h : RColl K c s) {a b : List Record} {id : PyStr}
    (ha : a.length = 200) (hb : b ≠ []) (hl : b.length ≤ 200) (hrep : ¬ (a.map Record.id).Nodup) (hnew : ∀ d ∈ c, d.id ≠ id)
    (hdel : ∀ r ∈ a ++ b, r.id = id → r.data ≠ []) (h1 : ∃ r ∈ a, r.id = id) (h2 : ∃ r ∈ b, r.id = id) :
    ∃ c', ingest U mf c (a ++ b) = .ok c' ∧ 2 ≤ (c'.filter (fun d => d.id = id)).length := by
  obtain ⟨i1, i2⟩ := batch_insert (U := U) (mf := mf) h hnew (fun r hr => hdel r (List.mem_append_left b hr))
  obtain ⟨j1, j2⟩ := batch_insert (U := U) (mf := mf) h hnew (fun r hr => hdel r (List.mem_append_right a hr))
  have i2 := i2 h1
  have j2 := j2 h2
  have hops : ((recordsById a).filterMap (opOf U mf c)).length < 200 :=
    Nat.lt_of_le_of_lt (List.length_filterMap_le _ _) (by rw [← ha]; exact recordsById_short hrep)
  have hloop : ∃ st, ingestSized U mf 200 c (a ++ b) = .ok st ∧ st.coll = bulkWrite c ((recordsById a).filterMap (opOf U mf c) ++ (recordsById b).filterMap (opOf U mf c)) := by
    rw [ingestSized, partition_two ha hb hl, ingestLoop]
    simp only [chunkOps_rcoll h a]
    have e : ((recordsById a).filterMap (opOf U mf c)).foldl (feedOp 200) { coll := c } =
        { coll := c, buf := (recordsById a).filterMap (opOf U mf c) } := by
      have : ∀ (ops pre : List MongoOp), pre.length + ops.length < 200 → ops.foldl (feedOp 200) ({ coll := c, buf := pre } : IngestState) = { coll := c, buf := pre ++ ops } := by
        intro ops
        induction ops with
        | nil => intro pre _; rw [List.append_nil]; rfl
        | cons o ops ih =>
          intro pre hl
          rw [List.length_cons] at hl
          rw [List.foldl_cons, feedOp, if_pos (by show (pre ++ [o]).length < 200; rw [List.length_append, List.length_singleton]; omega)]
          rw [ih (pre ++ [o]) (by rw [List.length_append, List.length_singleton]; omega), List.append_assoc]
          rfl
      exact this _ [] (by rw [List.length_nil]; omega)
    rw [e, ingestLoop]
    simp only [chunkOps_rcoll h b, ingestLoop]
    refine ⟨_, rfl, ?_⟩
    obtain ⟨_, f2⟩ := feed_leftOver (size := 200) (by decide) ((recordsById b).filterMap (opOf U mf c))
      { coll := c, buf := (recordsById a).filterMap (opOf U mf c) } hops
    rw [bulkWrite_append]
    refine Eq.trans ?_ f2
    split
    · rename_i hx
      rw [List.isEmpty_iff] at hx
      rw [hx]
      rfl
    · rfl
  obtain ⟨st, hs, he⟩ := hloop
  refine ⟨st.coll, by rw [ingest, hs]; rfl, ?_⟩
  rw [he, filter_inserts c (fun o ho => (List.mem_append.1 ho).elim (i1 o) (j1 o)), List.filter_append, List.length_append]
  omega

theorem StatesEq.via {K : DataClass} {a b s : List VersionedData} (h : StatesEq K a s) (h' : StatesEq K b s) : SameStates a b := by
  induction h generalizing b with
  | nil => cases h'; exact .nil
  | cons h _ ih =>
    cases h' with
    | cons h1 h2 => exact .cons ⟨h.1.trans h1.1.symm, (h.2.trans h1.2.symm).sim⟩ (ih h2)

end Splitgill
