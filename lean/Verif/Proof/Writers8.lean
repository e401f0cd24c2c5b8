import Verif.Proof.Writers7
import Verif.Spec.WriterHist
/-!
# Proofs about processes that ingest and commit: the histories of the records
-/

namespace Splitgill

variable {U : Unicode} {size : Nat} {db id : PyStr} {own : PyStr → Bool} {p : Nat} {old : List (Int × Dict)} {T T' : Int}

/-! ## The document of a record -/

/-- The documents of a record have a history that ends with the versions `old` and has no version above `T`. -/
def KeptDocs (old : List (Int × Dict)) (T : Int) (D : List MongoRecord) : Prop :=
  (D = [] ∨ ∃ d, D = [d]) ∧ ∃ h : Hist, Rep plainClass D.head? h ∧ FirstOk h ∧ old <:+ h.committed ∧ ∀ vd ∈ h.committed, vd.1 ≤ T

theorem KeptDocs.mono {D : List MongoRecord} (h : KeptDocs old T D) (hT : T ≤ T') : KeptDocs old T' D := by
  obtain ⟨h1, hh, h2, h3, h4, h5⟩ := h
  exact ⟨h1, hh, h2, h3, h4, fun vd hvd => Int.le_trans (h5 vd hvd) hT⟩

/-- An operation keeps it, also after a commit. -/
structure OpKept (old : List (Int × Dict)) (T : Int) (D : List MongoRecord) (o : MongoOp) : Prop where
  now : KeptDocs old T D
  next : KeptDocs old T (applyOp D o)
  late : ∀ d, D = [d] → d.version = none → ∀ v, T ≤ v → KeptDocs old v (applyOp [{ d with version := some v }] o)

theorem OpKept.mono {D : List MongoRecord} {o : MongoOp} (h : OpKept old T D o) (hT : T ≤ T') : OpKept old T' D o :=
  ⟨h.now.mono hT, h.next.mono hT, fun d h1 h2 v hv => h.late d h1 h2 v (Int.le_trans hT hv)⟩

theorem applyOp_docs {D : List MongoRecord} {o : MongoOp} (h1 : D = [] ∨ ∃ d, D = [d]) (hid : ∀ d ∈ D, d.id = o.id) (hi : o.isInsert = true → D.head? = none) :
    applyOp D o = (docOp D.head? o).toList := by
  rcases h1 with rfl | ⟨d, rfl⟩
  · cases o <;> rfl
  · have e := hid d (by simp)
    cases o with
    | insert id data => cases hi rfl
    | _ => simp only [MongoOp.id] at e; simp [applyOp, updateFirst, deleteFirst, docOp, e]

theorem opFor_pending {mf : Option PyStr} {r : Record} {d : MongoRecord} {o : MongoOp} (hv : d.version = none) (h : opFor U mf (some d) r = .ok (some o)) :
    (d.diffs = [] ∧ ((∃ id, o = .delete id) ∨ ∃ id, o = .setData id (prepareRecordData U r) ∧ r.isDelete = false)) ∨
      ∀ w, docOp (some { d with version := w }) o = docOp (some d) o := by
  rw [opFor, opForExisting] at h
  split at h
  · next hc =>
    rw [hv, Option.isNone_none, Bool.true_and, List.isEmpty_iff] at hc
    refine .inl ⟨hc, ?_⟩
    split at h
    · cases h; exact .inl ⟨_, rfl⟩
    · next hdel =>
      cases hx : diffDict (prepareRecordData U r) d.data with
      | error e => rw [hx] at h; cases h
      | ok ops =>
        rw [hx] at h
        dsimp only at h
        split at h
        · cases h
        · cases h; exact .inr ⟨_, rfl, by simpa using hdel⟩
  · next hc =>
    refine .inr ?_
    cases hrev : revertIfPending d with
    | error e => rw [hrev] at h; cases h
    | ok x =>
      obtain ⟨d1, rop⟩ := x
      rw [hrev] at h
      have hrop : rop = none ∨ ∃ id x v all, rop = some (.revert id x v all) := by
        unfold revertIfPending at hrev
        cases hr : revertRecord d with
        | error e => rw [hr] at hrev; cases hrev
        | ok y =>
          rw [hr] at hrev
          cases y with
          | none => cases hrev; exact .inl rfl
          | some y =>
            obtain ⟨d2, op⟩ := y
            cases hrev
            unfold revertRecord at hr
            split at hr
            · cases hr
            split at hr
            · cases hr
            split at hr
            · cases hr
            split at hr
            · cases hr
            · cases hr; exact .inr ⟨_, _, _, _, rfl⟩
      dsimp only at h
      unfold opForCommitted at h
      cases hcc : computeChanges mf (prepareRecordData U r) d1.data with
      | error e => rw [hcc] at h; cases h
      | ok y =>
        rw [hcc] at h
        dsimp only at h
        split at h
        · rcases hrop with rfl | ⟨id, x, v, all, rfl⟩
          · cases h
          · cases h; intro w; rfl
        · split at h
          · cases h; intro w; rfl
          · cases h

theorem Hist.ingest_keeps (mf : Option PyStr) (new : Dict) (h : Hist) : (h.ingest mf new).committed = h.committed := by
  unfold Hist.ingest
  split <;> rfl

theorem opFor_kept {mf : Option PyStr} {r : Record} {D : List MongoRecord} (hD : KeptDocs old T D) (hid : ∀ d ∈ D, d.id = r.id) {o : MongoOp}
    (h : opFor U mf D.head? r = .ok (some o)) : OpKept old T D o := by
  obtain ⟨h1, hh, h2, h3, h4, h5⟩ := hD
  obtain ⟨op, e, e1, e2, e3⟩ := opFor_spec (K := plainClass) (mf := mf) (prepareRecordData_wf U r) h2
    (fun d hd => hid d (by rcases h1 with rfl | ⟨d', rfl⟩ <;> simp_all))
  rw [h] at e
  cases e
  obtain ⟨e0, e1⟩ := e1 o rfl
  have hdocs : ∀ o : Option MongoRecord, (o.toList = [] ∨ ∃ d, o.toList = [d]) ∧ o.toList.head? = o := by
    intro o
    cases o with
    | none => exact ⟨.inl rfl, rfl⟩
    | some d => exact ⟨.inr ⟨d, rfl⟩, rfl⟩
  have happ := applyOp_docs h1 (fun d hd => (hid d hd).trans e0.symm) e1
  have hnext : KeptDocs old T (applyOp D o) := by
    rw [happ]
    refine ⟨(hdocs _).1, _, ?_, h3.ingest mf (prepareRecordData U r), ?_, ?_⟩
    · rw [(hdocs _).2]; exact e2
    · rw [Hist.ingest_keeps]; exact h4
    · rw [Hist.ingest_keeps]; exact h5
  refine ⟨⟨h1, hh, h2, h3, h4, h5⟩, hnext, ?_⟩
  rintro d rfl hv v hTv
  have happ' : applyOp [{ d with version := some v }] o = (docOp (some { d with version := some v }) o).toList :=
    applyOp_docs (D := [{ d with version := some v }]) (.inr ⟨_, rfl⟩) (fun d' hd' => by
      rw [List.mem_singleton] at hd'; subst hd'; exact (hid d (by simp)).trans e0.symm) (fun hi => by cases e1 hi)
  rcases opFor_pending hv h with ⟨hd, ho⟩ | ho
  · obtain ⟨cs, pd⟩ := hh
    have hcs : cs = [] := by
      cases pd with
      | none =>
        cases cs with
        | nil => rfl
        | cons c cs => have := DocRep.version h2.1; rw [hv] at this; cases this
      | some pd =>
        have hr : DocRep plainClass d none pd cs := h2
        cases cs with
        | nil => rfl
        | cons c cs => have := (hr.keys c.1).2 (by simp); rw [hd] at this; cases this
    subst hcs
    have hold : old = [] := List.eq_nil_of_suffix_nil h4
    subst hold
    rw [happ']
    rcases ho with ⟨id, rfl⟩ | ⟨id, rfl, hdel⟩
    · exact ⟨.inl rfl, {}, ⟨rfl, rfl⟩, ⟨by simp, by simp⟩, List.suffix_refl _, by simp⟩
    · refine ⟨.inr ⟨_, rfl⟩, ⟨[(v, prepareRecordData U r)], none⟩, ⟨⟨rfl, DEq.refl (K := plainClass) (prepareRecordData_wf U r), .nil, ?_, ?_, by simp⟩, by simp⟩, ?_, List.nil_suffix, by simp⟩
      · simp [hd, akeys]
      · simp [hd, akeys]
      · refine ⟨?_, by simp⟩
        intro vd hvd
        simp at hvd
        subst hvd
        have := prepareRecordData_isEmpty U r
        rw [hdel] at this
        intro e
        rw [show prepareRecordData U r = [] from e] at this
        cases this
  · rw [happ', ho, ← (show applyOp [d] o = (docOp (some d) o).toList from happ)]
    exact hnext.mono hTv

theorem KeptDocs.version {d : MongoRecord} {v : Int} (h : KeptDocs old T [d]) (hd : d.version = none) (hT : T ≤ v) (hv : v ∉ d.getVersions) :
    KeptDocs old v [{ d with version := some v }] := by
  obtain ⟨h1, hh, h2, h3, h4, h5⟩ := h
  refine ⟨.inr ⟨_, rfl⟩, hh.commit v, ?_, h3.commit v, ?_, ?_⟩
  · have hlt : ∀ vd ∈ hh.committed, vd.1 < v := by
      intro vd hvd
      have h6 := h5 vd hvd
      have : vd.1 ≠ v := by
        rintro rfl
        apply hv
        have h2' : Rep plainClass (some d) hh := h2
        rw [h2'.getVersions.2, List.mem_reverse, List.mem_map]
        exact ⟨vd, hvd, rfl⟩
      omega
    have := Rep.commit h2 hlt
    simp only [List.head?_cons, Option.map_some, hd, Option.isNone_none, if_true] at this
    exact this
  · rw [Hist.commit]; split
    · exact h4
    · exact h4.trans (List.suffix_cons _ _)
  · intro vd hvd
    rw [Hist.commit] at hvd; split at hvd
    · exact Int.le_trans (h5 vd hvd) hT
    · rcases List.mem_cons.1 hvd with rfl | hvd
      · exact Int.le_refl _
      · exact Int.le_trans (h5 vd hvd) hT

/-! ## Where a record is -/

/-- No operation for the record waits, or one does. -/
inductive IdPhase (old : List (Int × Dict)) (T : Int) (id : PyStr) (D : List MongoRecord) (i : IngestProc) : Prop
  | idle (ho : ∀ o ∈ i.waiting, o.id ≠ id) (hD : KeptDocs old T D)
  | ready (o : MongoOp) (hr : ∀ r' ∈ i.chunks.flatten, r'.id ≠ id) (ho : i.waiting.filter (fun o => decide (o.id = id)) = [o]) (hD : OpKept old T D o)

theorem IdPhase.kept {D : List MongoRecord} {i : IngestProc} (h : IdPhase old T id D i) : KeptDocs old T D := by
  cases h with
  | idle _ hD => exact hD
  | ready _ _ _ hD => exact hD.now

theorem IdPhase.mono {D : List MongoRecord} {i : IngestProc} (h : IdPhase old T id D i) (hT : T ≤ T') : IdPhase old T' id D i := by
  cases h with
  | idle ho hD => exact .idle ho (hD.mono hT)
  | ready o hr ho hD => exact .ready o hr ho (hD.mono hT)

theorem IdPhase.congr {D : List MongoRecord} {i i' : IngestProc} (hw : i'.waiting = i.waiting) (hc : i'.chunks = i.chunks) (h : IdPhase old T id D i) : IdPhase old T id D i' := by
  cases h with
  | idle ho hD => exact .idle (by rw [hw]; exact ho) hD
  | ready o hr ho hD => exact .ready o (by rw [hc]; exact hr) (by rw [hw]; exact ho) hD

theorem IdPhase.version {d : MongoRecord} {i : IngestProc} {v : Int} (h : IdPhase old T id [d] i) (hd : d.version = none) (hT : T ≤ v) (hv : v ∉ d.getVersions) :
    IdPhase old v id [{ d with version := some v }] i := by
  cases h with
  | idle ho hD => exact .idle ho (hD.version hd hT hv)
  | ready o hr ho hD => exact .ready o hr ho ⟨hD.now.version hd hT hv, hD.late d rfl hd v hT, fun d' e h => by cases e; cases h⟩

theorem lookupExisting_docs {c : Coll} (h : docsWith id c = [] ∨ ∃ d, docsWith id c = [d]) : lookupExisting c id = (docsWith id c).head? := by
  rw [lookupExisting_filter]
  show (docsWith id c).getLast? = (docsWith id c).head?
  rcases h with h | ⟨d, h⟩ <;> rw [h] <;> rfl

theorem IdPhase.step {c : Coll} {i : IngestProc} (hn : (i.chunks.flatten.map Record.id).Nodup) (h : IdPhase old T id (docsWith id c) i) :
    IdPhase old T id (docsWith id (i.step U size c).1) (i.step U size c).2 := by
  have hid : ∀ mf c x o, opFor U mf (lookupExisting c x.id) x = .ok (some o) → o.id = x.id :=
    fun mf c x o e => opFor_id (fun d hd => lookupExisting_id hd) e
  rw [IngestProc.step.eq_def]
  split
  · exact h
  split
  · next op rest hw =>
    have hwait : i.waiting = op :: (rest ++ i.buf ++ i.ops) := by
      rw [IngestProc.waiting, hw]; rfl
    dsimp only
    by_cases e : op.id = id
    · cases h with
      | idle ho hD => exact absurd e (ho op (by rw [hwait]; simp))
      | ready o hr ho hD =>
        rw [hwait, List.filter_cons_of_pos (by simpa using e)] at ho
        injection ho with h1 h2
        subst h1
        refine .idle ?_ ?_
        · intro o ho'
          have := List.filter_eq_nil_iff.1 h2 o ho'
          simpa using this
        · rw [docsWith_applyOp c e]
          exact hD.next
    · rw [docsWith_applyOp_other c e]
      cases h with
      | idle ho hD => exact .idle (fun o ho' => ho o (by rw [hwait]; exact List.mem_cons_of_mem _ ho')) hD
      | ready o hr ho hD =>
        rw [hwait, List.filter_cons_of_neg (by simpa using e)] at ho
        exact .ready o hr ho hD
  · next hw =>
    split
    · next op rest ho =>
      split
      · refine IdPhase.congr (D := docsWith id c) (i := i) ?_ rfl h
        simp [IngestProc.waiting, hw, ho]
      · refine IdPhase.congr (D := docsWith id c) (i := i) ?_ rfl h
        simp [IngestProc.waiting, hw, ho]
    · next ho =>
      split
      · next chunk rest hc =>
        have hwait : i.waiting = i.buf := by simp [IngestProc.waiting, hw, ho]
        rw [hc, List.flatten_cons, List.map_append, List.nodup_append] at hn
        split
        · exact IdPhase.congr (D := docsWith id c) (i := i) rfl rfl h
        · next ops hops =>
          unfold chunkOps at hops
          rw [recordsById_of_nodup hn.1] at hops
          have hwait' : ({ i with ops := ops, chunks := rest } : IngestProc).waiting = i.buf ++ ops := by
            simp [IngestProc.waiting, hw]
          have hother : (∀ r' ∈ chunk, r'.id ≠ id) → ∀ o ∈ ops, o.id ≠ id := by
            intro h o ho
            obtain ⟨x, hx, e⟩ := collectOps_mem hops o ho
            rw [hid _ _ _ _ e]
            exact h x hx
          cases h with
          | idle ho hD =>
            rw [hwait] at ho
            by_cases hin : ∃ r ∈ chunk, r.id = id
            · obtain ⟨r, h, rfl⟩ := hin
              have hrest : ∀ r' ∈ rest.flatten, r'.id ≠ r.id := by
                intro r' hr' e
                exact hn.2.2 r.id (List.mem_map.2 ⟨r, h, rfl⟩) r.id (List.mem_map.2 ⟨r', hr', e⟩) rfl
              obtain ⟨o, e1, e2⟩ := collectOps_filter (fun x o => hid i.modifiedField c x o) hn.1 h hops
              have hb : i.buf.filter (fun o => decide (o.id = r.id)) = [] := by
                rw [List.filter_eq_nil_iff]; intro o ho'; simpa using ho o ho'
              have hfil : ({ i with ops := ops, chunks := rest } : IngestProc).waiting.filter (fun o => decide (o.id = r.id)) = o.toList := by
                rw [hwait', List.filter_append, hb, e2]; rfl
              cases o with
              | none =>
                refine .idle ?_ hD
                intro o ho'
                have := List.filter_eq_nil_iff.1 hfil o ho'
                simpa using this
              | some o =>
                rw [lookupExisting_docs hD.1] at e1
                exact .ready o hrest hfil (opFor_kept hD docsWith_id e1)
            · refine .idle ?_ hD
              rw [hwait']
              intro o ho'
              rcases List.mem_append.1 ho' with ho' | ho'
              · exact ho o ho'
              · exact hother (fun r' h e => hin ⟨r', h, e⟩) o ho'
          | ready o hr ho hD =>
            rw [hwait] at ho
            rw [hc, List.flatten_cons] at hr
            refine .ready o (fun r' h => hr r' (List.mem_append_right _ h)) ?_ hD
            rw [hwait', List.filter_append, ho, List.filter_eq_nil_iff.2]
            · rfl
            · intro o ho'
              simpa using hother (fun r' h => hr r' (List.mem_append_left _ h)) o ho'
      · next hc =>
        refine IdPhase.congr (D := docsWith id c) (i := i) ?_ rfl h
        simp [IngestProc.waiting, hw, ho]

/-- The process still has the record to look up, or an operation for it to write. -/
def IngestProc.HasFor (id : PyStr) (i : IngestProc) : Prop := (∃ o ∈ i.waiting, o.id = id) ∨ ∃ r ∈ i.chunks.flatten, r.id = id

theorem IdPhase.fixed {c : Coll} {i : IngestProc} {D : List MongoRecord} (h : IdPhase old T id (docsWith id c) i) (hD : i.HasFor id → docsWith id c = D) :
    (i.step U size c).2.HasFor id → docsWith id (i.step U size c).1 = D := by
  have hid : ∀ mf c x o, opFor U mf (lookupExisting c x.id) x = .ok (some o) → o.id = x.id :=
    fun mf c x o e => opFor_id (fun d hd => lookupExisting_id hd) e
  rw [IngestProc.step.eq_def]
  split
  · exact hD
  split
  · next op rest hw =>
    have hwait : i.waiting = op :: (rest ++ i.buf ++ i.ops) := by
      rw [IngestProc.waiting, hw]; rfl
    dsimp only
    by_cases e : op.id = id
    · cases h with
      | idle ho hD => exact absurd e (ho op (by rw [hwait]; simp))
      | ready o hr ho hD' =>
        rw [hwait, List.filter_cons_of_pos (by simpa using e)] at ho
        injection ho with h1 h2
        rintro (⟨o', ho', e'⟩ | ⟨r, hr', e'⟩)
        · have := List.filter_eq_nil_iff.1 h2 o' ho'
          simp [e'] at this
        · exact absurd e' (hr r hr')
    · rw [docsWith_applyOp_other c e]
      rintro (⟨o', ho', e'⟩ | h')
      · exact hD (.inl ⟨o', by rw [hwait]; exact List.mem_cons_of_mem _ ho', e'⟩)
      · exact hD (.inr h')
  · next hw =>
    split
    · next op rest ho =>
      have key : ∀ i' : IngestProc, i'.waiting = i.waiting → i'.chunks = i.chunks → i'.HasFor id → docsWith id c = D := by
        intro i' e1 e2 h'
        apply hD
        unfold IngestProc.HasFor at h' ⊢
        rwa [e1, e2] at h'
      split
      · exact key _ (by simp [IngestProc.waiting, hw, ho]) rfl
      · exact key _ (by simp [IngestProc.waiting, hw, ho]) rfl
    · next ho =>
      split
      · next chunk rest hc =>
        split
        · exact hD
        · next ops hops =>
          dsimp only
          rintro (⟨o', ho', e'⟩ | ⟨r, hr, e'⟩)
          · have hwait' : ({ i with ops := ops, chunks := rest } : IngestProc).waiting = i.buf ++ ops := by
              simp [IngestProc.waiting, hw]
            rw [hwait', List.mem_append] at ho'
            rcases ho' with ho' | ho'
            · exact hD (.inl ⟨o', by simp [IngestProc.waiting, ho'], e'⟩)
            · unfold chunkOps at hops
              obtain ⟨x, hx, e⟩ := collectOps_mem hops o' ho'
              refine hD (.inr ⟨x, ?_, (hid _ _ _ _ e).symm.trans e'⟩)
              rw [hc, List.flatten_cons, List.mem_append]
              exact .inl (recordsById_sub hx)
          · exact hD (.inr ⟨r, by rw [hc, List.flatten_cons]; exact List.mem_append_right _ hr, e'⟩)
      · next hc =>
        rintro (⟨o', ho', e'⟩ | h')
        · exact hD (.inl ⟨o', by simpa [IngestProc.waiting, hw, ho] using ho', e'⟩)
        · exact hD (.inr h')

end Splitgill
