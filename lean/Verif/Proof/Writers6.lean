import Verif.Proof.Writers5
import Verif.Proof.Reach
import Verif.Proof.Batches
/-!
# Proofs about processes that ingest and commit: the data of the records
-/

namespace Splitgill

variable {U : Unicode} {mf : Option PyStr} {r : Record}

/-- A document whose data, and whose data after a revert, have no repeated keys. -/
def DocOk (d : MongoRecord) : Prop :=
  (Value.dict d.data).wf = true ∧ ∀ d' o, revertRecord d = .ok (some (d', o)) → (Value.dict d'.data).wf = true

/-- The data of an operation or document is that of the record. -/
def DataFits (U : Unicode) (mf : Option PyStr) (r : Record) (data : Dict) : Prop :=
  simEq (.dict (prepareRecordData U r)) (.dict data) = true ∨ sameData mf (prepareRecordData U r) data = true

/-- What an operation for the record is, given its documents. -/
def OpOk (U : Unicode) (mf : Option PyStr) (r : Record) (D : List MongoRecord) : MongoOp → Prop
  | .insert _ data => D = [] ∧ DataFits U mf r data
  | .setData _ data => (∃ d, D = [d]) ∧ DataFits U mf r data
  | .setDiff _ data _ _ => (∃ d, D = [d]) ∧ DataFits U mf r data
  | .revert _ data _ _ => (∃ d, D = [d]) ∧ DataFits U mf r data
  | .delete _ => (∃ d, D = [d]) ∧ r.isDelete = true

/-- What the operation for a record is, if there is one. -/
def OpResult (U : Unicode) (mf : Option PyStr) (r : Record) (D : List MongoRecord) : Option MongoOp → Prop
  | none => ShowsRecord U mf r D
  | some o => OpOk U mf r D o

def OneDoc (D : List MongoRecord) : Prop := D = [] ∨ ∃ d, D = [d] ∧ DocOk d

theorem dataFits_refl (d : Dict) (h : DEq plainClass d (prepareRecordData U r)) : DataFits U mf r d := .inl h.symm.sim

theorem opForCommitted_ok {d d1 : MongoRecord} {o : Option MongoOp} {rop : Option MongoOp} (hw : (Value.dict d1.data).wf = true)
    (hrop : (rop = none ∧ d1 = d) ∨ ∃ id x v all, rop = some (.revert id x v all))
    (h : opForCommitted mf r.id (prepareRecordData U r) d1 rop = .ok o) :
    OpResult U mf r [d] o := by
  obtain ⟨new', ch, rr, c1, c2, c3, c4, c5⟩ := computeChanges_spec (K := plainClass) (mf := mf) (prepareRecordData_wf U r) (DEq.refl hw)
  unfold opForCommitted at h
  rw [c1] at h
  dsimp only at h
  split at h
  · next he =>
    have hch : ch = [] := List.isEmpty_iff.1 he
    rcases hrop with ⟨rfl, rfl⟩ | ⟨id, x, v, all, rfl⟩
    · cases h
      exact .inr ⟨_, rfl, .inr (c3.1 hch)⟩
    · cases h
      refine ⟨⟨_, rfl⟩, .inr ?_⟩
      have hp := DEq_putBack (K := plainClass) (mf := mf) (new := prepareRecordData U r) (DEq.refl hw)
      obtain ⟨new2, ch2, rr2, e1, _, e3, _⟩ := computeChanges_spec (K := plainClass) (mf := mf) (prepareRecordData_wf U r) hp.symm
      rw [c1] at e1
      injection e1 with e1
      injection e1 with _ e1
      exact e3.1 (e1 ▸ hch)
  · split at h
    · cases h
      exact ⟨⟨_, rfl⟩, dataFits_refl _ c2⟩
    · cases h

theorem opFor_ok {ex : Option MongoRecord} {o : Option MongoOp} (hd : ∀ d, ex = some d → DocOk d) (h : opFor U mf ex r = .ok o) :
    OpResult U mf r ex.toList o := by
  cases ex with
  | none =>
    rw [opFor] at h
    split at h
    · next hdel => cases h; exact .inl ⟨rfl, hdel⟩
    · cases h; exact ⟨rfl, dataFits_refl _ (DEq.refl (prepareRecordData_wf U r))⟩
  | some d =>
    obtain ⟨hw, hr⟩ := hd d rfl
    rw [opFor, opForExisting] at h
    split at h
    · split at h
      · next hdel => cases h; exact ⟨⟨d, rfl⟩, hdel⟩
      · obtain ⟨ops, e1, e2⟩ := diffDict_nil_iff (prepareRecordData_wf U r) hw
        rw [e1] at h
        dsimp only at h
        split at h
        · next he =>
          cases h
          exact .inr ⟨d, rfl, .inr (sameData_of_pyEq (prepareRecordData_wf U r) hw (e2.1 (List.isEmpty_iff.1 he)))⟩
        · cases h; exact ⟨⟨d, rfl⟩, dataFits_refl _ (DEq.refl (prepareRecordData_wf U r))⟩
    · rw [revertIfPending] at h
      cases hrev : revertRecord d with
      | error e => rw [hrev] at h; cases h
      | ok x =>
        rw [hrev] at h
        cases x with
        | none => exact opForCommitted_ok hw (.inl ⟨rfl, rfl⟩) h
        | some x =>
          obtain ⟨d1, op⟩ := x
          have hop : ∃ id x v all, op = .revert id x v all := by
            unfold revertRecord at hrev
            split at hrev
            · cases hrev
            split at hrev
            · cases hrev
            split at hrev
            · cases hrev
            split at hrev
            · cases hrev
            · cases hrev; exact ⟨_, _, _, _, rfl⟩
          obtain ⟨a, b, c, e, rfl⟩ := hop
          exact opForCommitted_ok (hr _ _ hrev) (.inr ⟨_, _, _, _, rfl⟩) h

theorem applyOp_shows {D : List MongoRecord} {o : MongoOp} (hD : ∀ d ∈ D, d.id = r.id) (ho : o.id = r.id) (h : OpOk U mf r D o) : ShowsRecord U mf r (applyOp D o) := by
  cases o with
  | insert id data =>
    obtain ⟨rfl, h⟩ := h
    exact .inr ⟨_, rfl, h⟩
  | setData id data =>
    obtain ⟨⟨d, rfl⟩, h⟩ := h
    have e : d.id = id := (hD d (by simp)).trans ho.symm
    rw [applyOp, updateFirst, if_pos e]
    exact .inr ⟨_, rfl, h⟩
  | setDiff id data v ch =>
    obtain ⟨⟨d, rfl⟩, h⟩ := h
    have e : d.id = id := (hD d (by simp)).trans ho.symm
    rw [applyOp, updateFirst, if_pos e]
    exact .inr ⟨_, rfl, h⟩
  | revert id data v all =>
    obtain ⟨⟨d, rfl⟩, h⟩ := h
    have e : d.id = id := (hD d (by simp)).trans ho.symm
    rw [applyOp, updateFirst, if_pos e]
    exact .inr ⟨_, rfl, h⟩
  | delete id =>
    obtain ⟨⟨d, rfl⟩, h⟩ := h
    have e : d.id = id := (hD d (by simp)).trans ho.symm
    rw [applyOp, deleteFirst, if_pos e]
    exact .inl ⟨rfl, h⟩

/-! ## A version -/

/-- The documents with some versions given. -/
def Versioned (D D' : List MongoRecord) : Prop :=
  List.Forall₂ (fun d d' => d' = d ∨ ∃ v, d.version = none ∧ d' = { d with version := some v }) D D'

theorem docsWith_commitNth (id : PyStr) (v : Int) (k : Nat) (c : Coll) : Versioned (docsWith id c) (docsWith id (commitNth v k c)) := by
  have h := commitNth_forall (v := v) k c
  generalize commitNth v k c = c' at h
  induction h with
  | nil => exact .nil
  | @cons d d' c c' hd _ ih =>
    have e : d'.id = d.id := by
      rcases hd with rfl | ⟨_, rfl⟩ <;> rfl
    unfold docsWith at ih ⊢
    by_cases hx : d.id = id
    · rw [List.filter_cons_of_pos (by simpa using hx), List.filter_cons_of_pos (by simpa [e] using hx)]
      exact .cons (hd.imp_right fun h => ⟨v, h⟩) ih
    · rw [List.filter_cons_of_neg (by simpa using hx), List.filter_cons_of_neg (by simpa [e] using hx)]
      exact ih

theorem Versioned.nil {D : List MongoRecord} (h : Versioned [] D) : D = [] := by cases h; rfl

theorem Versioned.one {d : MongoRecord} {D : List MongoRecord} (h : Versioned [d] D) : ∃ d', D = [d'] ∧ (d' = d ∨ ∃ v, d.version = none ∧ d' = { d with version := some v }) := by
  cases h with
  | cons h1 h2 => cases h2; exact ⟨_, rfl, h1⟩

theorem ShowsRecord.versioned {D D' : List MongoRecord} (hv : Versioned D D') (h : ShowsRecord U mf r D) : ShowsRecord U mf r D' := by
  rcases h with ⟨rfl, h⟩ | ⟨d, rfl, h⟩
  · exact .inl ⟨hv.nil, h⟩
  · obtain ⟨d', rfl, rfl | ⟨v, _, rfl⟩⟩ := hv.one
    · exact .inr ⟨_, rfl, h⟩
    · exact .inr ⟨_, rfl, h⟩

theorem OneDoc.versioned {D D' : List MongoRecord} (hv : Versioned D D') (h : OneDoc D) : OneDoc D' := by
  rcases h with rfl | ⟨d, rfl, h⟩
  · exact .inl hv.nil
  · obtain ⟨d', rfl, rfl | ⟨v, _, rfl⟩⟩ := hv.one
    · exact .inr ⟨_, rfl, h⟩
    · refine .inr ⟨_, rfl, h.1, ?_⟩
      intro d' o e
      rw [revertRecord_committed (v := v) rfl] at e
      cases e

theorem OpOk.versioned {D D' : List MongoRecord} {o : MongoOp} (hv : Versioned D D') (h : OpOk U mf r D o) : OpOk U mf r D' o := by
  cases o with
  | insert id data => obtain ⟨rfl, h⟩ := h; exact ⟨hv.nil, h⟩
  | setData id data => obtain ⟨⟨d, rfl⟩, h⟩ := h; obtain ⟨d', rfl, _⟩ := hv.one; exact ⟨⟨_, rfl⟩, h⟩
  | setDiff id data v ch => obtain ⟨⟨d, rfl⟩, h⟩ := h; obtain ⟨d', rfl, _⟩ := hv.one; exact ⟨⟨_, rfl⟩, h⟩
  | revert id data v all => obtain ⟨⟨d, rfl⟩, h⟩ := h; obtain ⟨d', rfl, _⟩ := hv.one; exact ⟨⟨_, rfl⟩, h⟩
  | delete id => obtain ⟨⟨d, rfl⟩, h⟩ := h; obtain ⟨d', rfl, _⟩ := hv.one; exact ⟨⟨_, rfl⟩, h⟩

/-! ## The phases of a record -/

/-- All operations of a process that are not written yet. -/
def IngestProc.waiting (i : IngestProc) : List MongoOp := i.writing ++ i.buf ++ i.ops

/-- Where a record is: not looked up, to be written, or written. -/
inductive RecPhase (U : Unicode) (mf : Option PyStr) (r : Record) (D : List MongoRecord) (i : IngestProc) : Prop
  | todo (h : r ∈ i.chunks.flatten) (ho : ∀ o ∈ i.waiting, o.id ≠ r.id) (hD : OneDoc D)
  | ready (o : MongoOp) (hr : ∀ r' ∈ i.chunks.flatten, r'.id ≠ r.id) (ho : i.waiting.filter (fun o => decide (o.id = r.id)) = [o]) (hD : OpOk U mf r D o)
  | shown (hr : ∀ r' ∈ i.chunks.flatten, r'.id ≠ r.id) (ho : ∀ o ∈ i.waiting, o.id ≠ r.id) (hD : ShowsRecord U mf r D)

theorem RecPhase.congr {D : List MongoRecord} {i i' : IngestProc} (hw : i'.waiting = i.waiting) (hc : i'.chunks = i.chunks) (h : RecPhase U mf r D i) : RecPhase U mf r D i' := by
  cases h with
  | todo h ho hD => exact .todo (by rw [hc]; exact h) (by rw [hw]; exact ho) hD
  | ready o hr ho hD => exact .ready o (by rw [hc]; exact hr) (by rw [hw]; exact ho) hD
  | shown hr ho hD => exact .shown (by rw [hc]; exact hr) (by rw [hw]; exact ho) hD

theorem RecPhase.versioned {D D' : List MongoRecord} {i : IngestProc} (hv : Versioned D D') (h : RecPhase U mf r D i) : RecPhase U mf r D' i := by
  cases h with
  | todo h ho hD => exact .todo h ho (hD.versioned hv)
  | ready o hr ho hD => exact .ready o hr ho (hD.versioned hv)
  | shown hr ho hD => exact .shown hr ho (hD.versioned hv)

theorem docsWith_id {id : PyStr} {c : Coll} : ∀ d ∈ docsWith id c, d.id = id := by
  intro d hd
  simpa using (List.mem_filter.1 hd).2

theorem docsWith_applyOp {id : PyStr} (c : Coll) {o : MongoOp} (h : o.id = id) : docsWith id (applyOp c o) = applyOp (docsWith id c) o :=
  applyOp_own (own := fun x => decide (x = id)) c (by simpa using h)

theorem docsWith_applyOp_other {id : PyStr} (c : Coll) {o : MongoOp} (h : o.id ≠ id) : docsWith id (applyOp c o) = docsWith id c :=
  applyOp_other (own := fun x => decide (x = id)) c (by simpa using h)

theorem lookupExisting_one {id : PyStr} {c : Coll} (h : OneDoc (docsWith id c)) : (lookupExisting c id).toList = docsWith id c := by
  rw [lookupExisting_filter]
  show ((docsWith id c).getLast?).toList = docsWith id c
  rcases h with h | ⟨d, h, _⟩ <;> rw [h] <;> rfl

theorem recordsById_of_nodup {chunk : List Record} (h : (chunk.map Record.id).Nodup) : recordsById chunk = chunk := by
  unfold recordsById
  rw [aofList_nodup]
  · rw [List.map_map]
    exact (List.map_congr_left (fun _ _ => rfl)).trans (List.map_id _)
  · rw [akeys, List.map_map]
    exact h

theorem collectOps_filter {f : Record → Except PyErr (Option MongoOp)} {r : Record} :
    ∀ {rs : List Record} {ops : List MongoOp}, (∀ x o, f x = .ok (some o) → o.id = x.id) → (rs.map Record.id).Nodup → r ∈ rs → collectOps f rs = .ok ops →
      ∃ o, f r = .ok o ∧ ops.filter (fun o => decide (o.id = r.id)) = o.toList
  | x :: rs, ops, hf, hn, hm, h => by
    rw [collectOps] at h
    cases h1 : f x with
    | error e => rw [h1] at h; cases h
    | ok o =>
      rw [h1] at h
      cases h2 : collectOps f rs with
      | error e => rw [h2] at h; cases h
      | ok ops' =>
        rw [h2] at h
        cases h
        rw [List.map_cons, List.nodup_cons] at hn
        rw [List.filter_append]
        rcases List.mem_cons.1 hm with rfl | hm
        · refine ⟨o, h1, ?_⟩
          have : ops'.filter (fun o => decide (o.id = r.id)) = [] := by
            rw [List.filter_eq_nil_iff]
            intro y hy
            obtain ⟨x, hx, e⟩ := collectOps_mem h2 y hy
            have := hf x y e
            simp only [decide_eq_true_eq]
            intro e'
            exact hn.1 (List.mem_map.2 ⟨x, hx, this.symm.trans e'⟩)
          rw [this, List.append_nil]
          cases o with
          | none => rfl
          | some o => simp [hf r o h1]
        · obtain ⟨o', e1, e2⟩ := collectOps_filter hf hn.2 hm h2
          refine ⟨o', e1, ?_⟩
          rw [e2]
          cases o with
          | none => rfl
          | some o =>
            have : o.id ≠ r.id := by
              rw [hf x o h1]
              intro e
              exact hn.1 (List.mem_map.2 ⟨r, hm, e.symm⟩)
            simp [this]

theorem RecPhase.step {size : Nat} {c : Coll} {i : IngestProc} (hm : i.modifiedField = mf) (hn : (i.chunks.flatten.map Record.id).Nodup)
    (h : RecPhase U mf r (docsWith r.id c) i) :
    RecPhase U mf r (docsWith r.id (i.step U size c).1) (i.step U size c).2 := by
  have hid : ∀ c x o, opFor U mf (lookupExisting c x.id) x = .ok (some o) → o.id = x.id :=
    fun c x o e => opFor_id (fun d hd => lookupExisting_id hd) e
  rw [IngestProc.step.eq_def]
  split
  · exact h
  split
  · next op rest hw =>
    have hwait : i.waiting = op :: (rest ++ i.buf ++ i.ops) := by
      rw [IngestProc.waiting, hw]; rfl
    dsimp only
    by_cases e : op.id = r.id
    · cases h with
      | todo h ho hD => exact absurd e (ho op (by rw [hwait]; simp))
      | shown hr ho hD => exact absurd e (ho op (by rw [hwait]; simp))
      | ready o hr ho hD =>
        rw [hwait, List.filter_cons_of_pos (by simpa using e)] at ho
        injection ho with h1 h2
        subst h1
        refine .shown hr ?_ ?_
        · intro o ho'
          have := List.filter_eq_nil_iff.1 h2 o ho'
          simpa using this
        · rw [docsWith_applyOp c e]
          exact applyOp_shows docsWith_id e hD
    · rw [docsWith_applyOp_other c e]
      cases h with
      | todo h ho hD => exact .todo h (fun o ho' => ho o (by rw [hwait]; exact List.mem_cons_of_mem _ ho')) hD
      | shown hr ho hD => exact .shown hr (fun o ho' => ho o (by rw [hwait]; exact List.mem_cons_of_mem _ ho')) hD
      | ready o hr ho hD =>
        rw [hwait, List.filter_cons_of_neg (by simpa using e)] at ho
        exact .ready o hr ho hD
  · next hw =>
    split
    · next op rest ho =>
      split
      · refine RecPhase.congr (D := docsWith r.id c) (i := i) ?_ rfl h
        simp [IngestProc.waiting, hw, ho]
      · refine RecPhase.congr (D := docsWith r.id c) (i := i) ?_ rfl h
        simp [IngestProc.waiting, hw, ho]
    · next ho =>
      split
      · next chunk rest hc =>
        have hwait : i.waiting = i.buf := by simp [IngestProc.waiting, hw, ho]
        rw [hc, List.flatten_cons, List.map_append, List.nodup_append] at hn
        split
        · exact RecPhase.congr (D := docsWith r.id c) (i := i) rfl rfl h
        · next ops hops =>
          unfold chunkOps at hops
          rw [recordsById_of_nodup hn.1, hm] at hops
          have hwait' : ({ i with ops := ops, chunks := rest } : IngestProc).waiting = i.buf ++ ops := by
            simp [IngestProc.waiting, hw]
          have hother : (∀ r' ∈ chunk, r'.id ≠ r.id) → ∀ o ∈ ops, o.id ≠ r.id := by
            intro h o ho
            obtain ⟨x, hx, e⟩ := collectOps_mem hops o ho
            rw [hid _ _ _ e]
            exact h x hx
          cases h with
          | todo h ho hD =>
            rw [hwait] at ho
            rw [hc, List.flatten_cons] at h
            rcases List.mem_append.1 h with h | h
            · have hrest : ∀ r' ∈ rest.flatten, r'.id ≠ r.id := by
                intro r' hr' e
                exact hn.2.2 r.id (List.mem_map.2 ⟨r, h, rfl⟩) r.id (List.mem_map.2 ⟨r', hr', e⟩) rfl
              obtain ⟨o, e1, e2⟩ := collectOps_filter (fun x o => hid c x o) hn.1 h hops
              have hb : i.buf.filter (fun o => decide (o.id = r.id)) = [] := by
                rw [List.filter_eq_nil_iff]; intro o ho'; simpa using ho o ho'
              have hfil : ({ i with ops := ops, chunks := rest } : IngestProc).waiting.filter (fun o => decide (o.id = r.id)) = o.toList := by
                rw [hwait', List.filter_append, hb, e2]; rfl
              have hok := opFor_ok (fun d hd => ?_) e1
              · rw [lookupExisting_one hD] at hok
                cases o with
                | none =>
                  refine .shown hrest ?_ hok
                  intro o ho'
                  have := List.filter_eq_nil_iff.1 hfil o ho'
                  simpa using this
                | some o => exact .ready o hrest hfil hok
              · have hl := lookupExisting_one hD
                rw [hd] at hl
                rcases hD with h0 | ⟨d', h0, hok⟩
                · rw [h0] at hl; cases hl
                · rw [h0] at hl; cases hl; exact hok
            · have hchunk : ∀ r' ∈ chunk, r'.id ≠ r.id := by
                intro r' hr' e
                exact hn.2.2 r.id (List.mem_map.2 ⟨r', hr', e⟩) r.id (List.mem_map.2 ⟨r, h, rfl⟩) rfl
              refine .todo h ?_ hD
              rw [hwait']
              intro o ho'
              rcases List.mem_append.1 ho' with ho' | ho'
              · exact ho o ho'
              · exact hother hchunk o ho'
          | ready o hr ho hD =>
            rw [hwait] at ho
            rw [hc, List.flatten_cons] at hr
            refine .ready o (fun r' h => hr r' (List.mem_append_right _ h)) ?_ hD
            rw [hwait', List.filter_append, ho, List.filter_eq_nil_iff.2]
            · rfl
            · intro o ho'
              simpa using hother (fun r' h => hr r' (List.mem_append_left _ h)) o ho'
          | shown hr ho hD =>
            rw [hwait] at ho
            rw [hc, List.flatten_cons] at hr
            refine .shown (fun r' h => hr r' (List.mem_append_right _ h)) ?_ hD
            rw [hwait']
            intro o ho'
            rcases List.mem_append.1 ho' with ho' | ho'
            · exact ho o ho'
            · exact hother (fun r' h => hr r' (List.mem_append_left _ h)) o ho'
      · next hc =>
        refine RecPhase.congr (D := docsWith r.id c) (i := i) ?_ rfl h
        simp [IngestProc.waiting, hw, ho]

end Splitgill
