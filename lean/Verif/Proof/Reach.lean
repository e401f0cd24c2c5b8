import Verif.Proof.Store2
/-!
# Reachable collections
-/

namespace Splitgill

theorem Regular.left {es es' : List Event} (h : Regular (es ++ es')) : Regular es :=
  ⟨by have := h.clock; rw [List.filterMap_append] at this; exact (List.pairwise_append.1 this).1,
   fun e he => h.noSpan e (List.mem_append_left _ he)⟩

theorem Regular.right {es es' : List Event} (h : Regular (es ++ es')) : Regular es' :=
  ⟨by have := h.clock; rw [List.filterMap_append] at this; exact (List.pairwise_append.1 this).2.1,
   fun e he => h.noSpan e (List.mem_append_right _ he)⟩

theorem DEq.nil_iff {K : DataClass} {a b : Dict} (h : DEq K a b) : a = [] ↔ b = [] := by
  have : a.length = b.length := by
    have := h.sim
    simp only [simEq, eqWith, Bool.and_eq_true, beq_iff_eq, decide_eq_true_eq] at this
    exact this.1
  rw [← List.length_eq_zero_iff, ← List.length_eq_zero_iff, this]

theorem reach {U : Unicode} {es : List Event} (h : Regular es) {c : Coll} (hc : runEvents U [] es = .ok c) :
    ∃ s, SpecRun U Store.empty es s ∧ RColl (fun _ => plainClass) c s := by
  obtain ⟨c', s, h1, h2, h3⟩ := run_events (U := U) es RColl.empty (by simp [Store.empty]) (fun e _ => fits_plain U e.stream) h
  rw [hc] at h1; cases h1; exact ⟨s, h2, h3⟩

theorem SpecRun.versions {U : Unicode} {s s' : Store} {es : List Event} (h : SpecRun U s es s') (id : PyStr) :
    ∀ vd ∈ (s' id).committed, vd ∈ (s id).committed ∨ vd.1 ∈ es.filterMap Event.version := by
  induction h with
  | nil => exact fun _ h => .inl h
  | @cons s s1 s2 e es h1 _ ih =>
    intro vd hvd
    rcases ih vd hvd with h | h
    · rcases h1.committed id with e1 | ⟨v, d, e1, e2⟩
      · rw [e1] at h; exact .inl h
      · rw [e2] at h
        rcases List.mem_cons.1 h with e3 | h
        · subst e3; exact .inr (by simp [List.filterMap_cons, e1])
        · exact .inl h
    · refine .inr ?_
      rw [List.filterMap_cons]
      cases e.version with
      | none => exact h
      | some w => exact List.mem_cons_of_mem _ h

theorem SpecRun.suffix {U : Unicode} {s s' : Store} {es : List Event} (h : SpecRun U s es s') (id : PyStr) :
    (s id).committed <:+ (s' id).committed := by
  induction h with
  | nil => exact List.suffix_refl _
  | @cons s s1 s2 e es h1 _ ih =>
    refine List.IsSuffix.trans ?_ ih
    rcases h1.committed id with e1 | ⟨v, d, e1, e2⟩
    · rw [e1]; exact List.suffix_refl _
    · rw [e2]; exact List.suffix_cons _ _

theorem runEvents_append (U : Unicode) (c : Coll) (es es' : List Event) :
    runEvents U c (es ++ es') = (runEvents U c es).bind (fun c => runEvents U c es') := by
  simp only [runEvents, List.foldlM_append]; rfl

theorem reach_append {U : Unicode} {es es' : List Event} (h : Regular (es ++ es')) {c : Coll}
    (hc : runEvents U [] es = .ok c) :
    ∃ s c' s', SpecRun U Store.empty es s ∧ RColl (fun _ => plainClass) c s ∧ runEvents U [] (es ++ es') = .ok c' ∧
      SpecRun U s es' s' ∧ RColl (fun _ => plainClass) c' s' := by
  obtain ⟨s, h1, h2⟩ := reach h.left hc
  obtain ⟨c', s', h3, h4, h5⟩ := run_events (U := U) es' h2 (by
    intro v hv id vd hvd
    rcases h1.versions id vd hvd with h' | h'
    · simp [Store.empty] at h'
    · have := h.clock
      rw [List.filterMap_append] at this
      exact (List.pairwise_append.1 this).2.2 _ h' _ hv) (fun e _ => fits_plain U e.stream) h.right
  exact ⟨s, c', s', h1, h2, by rw [runEvents_append, hc]; exact h3, h4, h5⟩

theorem Rep.history {K : PyStr → DataClass} {c : Coll} {s : Store} (hR : RColl K c s) (id : PyStr) :
    ∃ items, history c id = .ok items ∧ StatesEq (K id) items (s id).states := by
  have := hR.rep id
  unfold Splitgill.history
  cases hf : findRecord id c with
  | none =>
    rw [hf] at this
    obtain ⟨h1, h2⟩ := Rep.none_iff.1 this
    exact ⟨[], rfl, by simp [Hist.states, h1, h2, StatesEq]⟩
  | some doc => rw [hf] at this; exact Rep.iter this

theorem committedOf_states (h : Hist) : committedOf h.states = h.committed := by
  obtain ⟨cs, p⟩ := h
  have : committedOf (cs.map (fun vd => (some vd.1, vd.2))) = cs := by
    simp only [committedOf, List.filterMap_map]
    induction cs with
    | nil => rfl
    | cons vd cs ih => simp only [List.filterMap_cons, Function.comp, Option.map]; congr 1
  cases p with
  | none => simpa [Hist.states] using this
  | some p => simpa [Hist.states, committedOf] using this

/-- Versions with well-formed equal data. -/
def VersEq (K : DataClass) (a b : List (Int × Dict)) : Prop := List.Forall₂ (fun x y => x.1 = y.1 ∧ DEq K x.2 y.2) a b

variable {K : DataClass}

theorem VersEq.same {a b : List (Int × Dict)} (h : VersEq K a b) : SameVersions a b :=
  h.imp (fun _ _ h => ⟨h.1, h.2.sim⟩)

theorem VersEq.symm {a b : List (Int × Dict)} (h : VersEq K a b) : VersEq K b a := by
  induction h with
  | nil => exact .nil
  | cons h _ ih => exact .cons ⟨h.1.symm, h.2.symm⟩ ih

theorem VersEq.trans {a b c : List (Int × Dict)} (h : VersEq K a b) (h' : VersEq K b c) : VersEq K a c := by
  induction h generalizing c with
  | nil => cases h'; exact .nil
  | cons h _ ih => cases h' with | cons h' hr => exact .cons ⟨h.1.trans h'.1, h.2.trans h'.2⟩ (ih hr)

theorem StatesEq.committed {items states : List VersionedData} (h : StatesEq K items states) :
    VersEq K (committedOf items) (committedOf states) := by
  induction h with
  | nil => exact .nil
  | @cons a b as bs h _ ih =>
    simp only [committedOf, List.filterMap_cons]
    rw [h.1]
    cases b.1 with
    | none => exact ih
    | some v => exact .cons ⟨rfl, h.2⟩ ih

theorem VersEq.fst {a b : List (Int × Dict)} (h : VersEq K a b) : a.map Prod.fst = b.map Prod.fst := by
  induction h with
  | nil => rfl
  | cons h _ ih => simp [h.1, ih]

theorem VersEq.mem {a b : List (Int × Dict)} (h : VersEq K a b) {v d} (hm : (v, d) ∈ a) :
    ∃ d', (v, d') ∈ b ∧ DEq K d d' := by
  induction h with
  | nil => cases hm
  | @cons x y as bs h _ ih =>
    rcases List.mem_cons.1 hm with e | hm
    · subst e; have h1 : v = y.1 := h.1; exact ⟨y.2, by rw [h1]; simp, h.2⟩
    · obtain ⟨d', h1, h2⟩ := ih hm
      exact ⟨d', List.mem_cons_of_mem _ h1, h2⟩

theorem Rep.desc {o : Option MongoRecord} {h : Hist} (hr : Rep K o h) : (h.committed.map Prod.fst).Pairwise (· > ·) := by
  obtain ⟨cs, p⟩ := h
  cases o with
  | none => obtain ⟨h1, _⟩ := Rep.none_iff.1 hr; simp only at h1; simp [h1]
  | some doc =>
    cases p with
    | some p => exact DocRep.desc hr
    | none =>
      cases cs with
      | nil => exact hr.elim
      | cons vd cs =>
        have hr : DocRep K doc (some vd.1) vd.2 cs ∧ _ := hr
        rw [List.map_cons, List.pairwise_cons]
        exact ⟨hr.2, hr.1.desc⟩

theorem Rep.getVersions {doc : MongoRecord} {h : Hist} (hr : Rep K (some doc) h) :
    doc.getVersions true = h.committed.map Prod.fst ∧ doc.getVersions false = (h.committed.map Prod.fst).reverse := by
  have hd := hr.desc
  obtain ⟨cs, p⟩ := h
  have key : (akeys doc.diffs ++ doc.version.toList).Nodup ∧
      ∀ v, v ∈ akeys doc.diffs ++ doc.version.toList ↔ v ∈ cs.map Prod.fst := by
    cases p with
    | some p =>
      have hr : DocRep K doc none p cs := hr
      rw [hr.version]
      simp only [Option.toList, List.append_nil]
      exact ⟨hr.nodup, hr.keys⟩
    | none =>
      cases cs with
      | nil => exact hr.elim
      | cons vd cs =>
        have hr : DocRep K doc (some vd.1) vd.2 cs ∧ _ := hr
        rw [hr.1.version]
        simp only [Option.toList]
        refine ⟨?_, fun v => ?_⟩
        · rw [List.nodup_append]
          refine ⟨hr.1.nodup, by simp, fun a ha b hb e => ?_⟩
          simp at hb; subst hb; subst e
          have := hr.2 _ ((hr.1.keys _).1 ha); omega
        · rw [List.mem_append, hr.1.keys]; simp [or_comm]
  constructor
  · simp only [MongoRecord.getVersions, if_true]
    exact sortDesc_eq key.1 hd key.2
  · simp only [MongoRecord.getVersions, Bool.false_eq_true, if_false]
    refine sortAsc_eq key.1 (List.pairwise_reverse.2 hd) (fun v => ?_)
    rw [List.mem_reverse]; exact key.2 v

theorem ingest_one {K : PyStr → DataClass} {U : Unicode} {mf : Option PyStr} {c : Coll} {s : Store} (hR : RColl K c s) (r : Record)
    (hq : (K r.id).Q (prepareRecordData U r)) :
    ∃ c', ingest U mf c [r] = .ok c' ∧ (∀ id, id ≠ r.id → findRecord id c' = findRecord id c) ∧
      findRecord r.id c' = docOp? (findRecord r.id c) (opOf U mf c r) ∧
      Rep (K r.id) (findRecord r.id c') ((s r.id).ingest mf (prepareRecordData U r)) := by
  have hspan : NoSpan 200 [r] := by
    unfold NoSpan
    rw [show partition [r] 200 = [[r]] from rfl]; simp
  obtain ⟨st, h1, h2, h3, h4, h5, h6⟩ := ingestSized_spec (U := U) (mf := mf) hR (by omega) (by intro x hx; rw [List.mem_singleton.1 hx]; exact hq) hspan
  obtain ⟨b1, b2⟩ := bulkWrite_spec hR.nodup h4 h5
  have e : st.written.flatten = (opOf U mf c r).toList := by
    rw [h3]
    rw [show partition [r] 200 = [[r]] from rfl]
    have : effective [[r]] = [r] := rfl
    rw [this, List.filterMap_cons]
    cases opOf U mf c r <;> rfl
  refine ⟨st.coll, by rw [ingest, h1]; rfl, ?_, ?_, ?_⟩
  · intro id hid
    rw [h2, b2, e]
    cases ho : opOf U mf c r with
    | none => rfl
    | some o =>
      have := ((opOf_spec hR r).2 o ho).1
      have hne : ¬ r.id = id := fun e => hid e.symm
      simp [opAt, this, hne, docOp?]
  · rw [h2, b2, e]
    cases ho : opOf U mf c r with
    | none => rfl
    | some o =>
      have := ((opOf_spec hR r).2 o ho).1
      simp [opAt, this]
  · have := h6 r.id
    rw [h2, b2]
    rw [Store.ingest_eq] at this
    simpa [lastRec] using this

theorem StatesEq.mem {items states : List VersionedData} (h : StatesEq K items states) {vd} (hm : vd ∈ items) :
    ∃ b ∈ states, vd.1 = b.1 ∧ DEq K vd.2 b.2 := by
  induction h with
  | nil => cases hm
  | @cons a b as bs h _ ih =>
    rcases List.mem_cons.1 hm with e | hm
    · exact ⟨b, by simp, by rw [e]; exact h⟩
    · obtain ⟨b', h1, h2⟩ := ih hm; exact ⟨b', List.mem_cons_of_mem _ h1, h2⟩

theorem ingest_find {K : PyStr → DataClass} {U : Unicode} {mf : Option PyStr} {c : Coll} {s : Store} (hR : RColl K c s) {rs : List Record}
    (hq : Fits K U rs) (hspan : NoSpan 200 rs) : ∃ c', ingest U mf c rs = .ok c' ∧ (ids c').Nodup ∧
      ∀ id, findRecord id c' = docOp? (findRecord id c) ((lastRec id rs).bind (opOf U mf c)) := by
  obtain ⟨st, h1, h2, h3, h4, h5, h6⟩ := ingestSized_spec (U := U) (mf := mf) hR (by omega) hq hspan
  obtain ⟨b1, b2⟩ := bulkWrite_spec hR.nodup h4 h5
  refine ⟨st.coll, by rw [ingest, h1]; rfl, by rw [h2]; exact b1, fun id => ?_⟩
  rw [h2, b2, h3, opAt_filterMap hR id (effective_nodup hspan), effective_find id hspan,
    partition_flatten (by omega)]

theorem sameData_of_pyEq {mf : Option PyStr} {a b : Dict} (ha : (Value.dict a).wf = true)
    (hb : (Value.dict b).wf = true) (h : pyEq (.dict a) (.dict b) = true) : sameData mf a b = true := by
  cases mf with
  | none => exact h
  | some m =>
    unfold sameData
    dsimp only
    split
    · have := pyEq_aerase (m := m) ha hb h
      rwa [aerase_eq_filter m (wf_dict_iff.1 ha).1, aerase_eq_filter m (wf_dict_iff.1 hb).1] at this
    · exact h

theorem opFor_same_committed {U : Unicode} {mf : Option PyStr} {doc : MongoRecord} {r : Record} {v : Int}
    (hv : doc.version = some v) (hw : (Value.dict doc.data).wf = true)
    (hs : pyEq (.dict (prepareRecordData U r)) (.dict doc.data) = true) :
    opFor U mf (some doc) r = .ok none := by
  have hwf := prepareRecordData_wf U r
  obtain ⟨new', ch, r', h1, h2, h3, h4, h5⟩ := computeChanges_spec (K := plainClass) (mf := mf) hwf (DEq.refl hw)
  have hch := h3.2 (sameData_of_pyEq hwf hw hs)
  subst hch
  unfold opFor
  dsimp only
  unfold opForExisting
  simp only [hv, Option.isNone_some, Bool.false_and, Bool.false_eq_true, if_false]
  rw [revertIfPending, revertRecord_committed hv]
  simp only [opForCommitted, h1, List.isEmpty_nil, if_true, Option.map_none]

theorem opFor_same_new {U : Unicode} {mf : Option PyStr} {doc : MongoRecord} {r : Record}
    (hv : doc.version = none) (hd : doc.diffs = []) (hr : r.data ≠ []) (hw : (Value.dict doc.data).wf = true)
    (hs : pyEq (.dict (prepareRecordData U r)) (.dict doc.data) = true) :
    opFor U mf (some doc) r = .ok none := by
  have hwf := prepareRecordData_wf U r
  obtain ⟨ops, h1, h2⟩ := diffDict_nil_iff hwf hw
  have := h2.2 hs
  subst this
  have : r.isDelete = false := by simp [Record.isDelete, hr]
  unfold opFor
  dsimp only
  unfold opForExisting
  simp [hv, hd, this, h1]

theorem ingestSized_one {U : Unicode} {mf : Option PyStr} {c : Coll} (hn : (ids c).Nodup) {r : Record}
    (h : opFor U mf (findRecord r.id c) r = .ok none) :
    ingestSized U mf 200 c [r] = .ok { coll := c } := by
  rw [ingestSized, show partition [r] 200 = [[r]] from rfl, ingestLoop, chunkOps,
    show recordsById [r] = [r] from rfl, collectOps, lookupExisting_eq hn, h]
  rfl

theorem Rep.data_wf {doc : MongoRecord} {h : Hist} (hr : Rep K (some doc) h) : (Value.dict doc.data).wf = true := by
  obtain ⟨cs, p⟩ := h
  cases p with
  | some p => exact (DocRep.data hr).wfl
  | none =>
    cases cs with
    | nil => exact hr.elim
    | cons vd cs => exact (DocRep.data hr.1).wfl

end Splitgill
