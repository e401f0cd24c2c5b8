import Verif.Proof.Reach
import Verif.Spec.Concurrent
/-!
# Concurrent ingests: unwritten operations stay right as long as nobody commits under them
-/

namespace Splitgill

/-- An operation that can still be applied to a record with these committed versions without losing any. -/
def OpFits (cs : List (Int × Dict)) : MongoOp → Prop
  | .insert _ data => cs = [] ∧ (Value.dict data).wf = true
  | .setData _ data => cs = [] ∧ (Value.dict data).wf = true
  | .delete _ => cs = []
  | .setDiff _ data v ch => ∃ d rest r, cs = (v, d) :: rest ∧ (Value.dict data).wf = true ∧ OpsWf ch ∧
      patchDict data ch = .ok r ∧ DEq plainClass r d
  | .revert _ data v all => ∃ d rest, cs = (v, d) :: rest ∧ DEq plainClass data d ∧ all = rest.isEmpty

theorem aerase_of_not_mem {κ α : Type} [DecidableEq κ] (m : κ) : ∀ {d : List (κ × α)}, m ∉ akeys d → aerase m d = d
  | [], _ => rfl
  | (k, v) :: r, h => by
    rw [akeys_cons, List.mem_cons, not_or] at h
    rw [aerase, if_neg h.1, aerase_of_not_mem m h.2]

theorem DocRep.diffs_nil {doc : MongoRecord} {ver d} (h : DocRep plainClass doc ver d []) : doc.diffs = [] := by
  cases hd : doc.diffs with
  | nil => rfl
  | cons kv _ => have := (h.keys kv.1).1 (by simp [hd]); simp at this

/-- The document brought back to its last committed version. -/
theorem Rep.atCommitted {doc : MongoRecord} {v d cs p} (hr : Rep plainClass (some doc) ⟨(v, d) :: cs, p⟩) :
    ∃ doc1, DocRep plainClass doc1 (some v) d cs ∧ (∀ v' ∈ cs.map Prod.fst, v' < v) ∧ (akeys doc.diffs).Nodup ∧
      (∀ v' ch, v' ∈ akeys (aset v ch doc.diffs) ↔ v' = v ∨ v' ∈ akeys doc1.diffs) ∧
      (∀ v' ∈ cs.map Prod.fst, aget v' doc.diffs = aget v' doc1.diffs) ∧
      doc1.diffs = aerase v doc.diffs := by
  cases p with
  | none =>
    obtain ⟨hr, hlt⟩ : DocRep plainClass doc (some v) d cs ∧ ∀ v' ∈ cs.map Prod.fst, v' < v := hr
    refine ⟨doc, hr, hlt, hr.nodup, fun v' ch => by rw [mem_akeys_aset], fun _ _ => rfl, ?_⟩
    symm
    apply aerase_of_not_mem
    intro hm
    have := hlt v ((hr.keys v).1 hm)
    omega
  | some p =>
    have hr : DocRep plainClass doc none p ((v, d) :: cs) := hr
    obtain ⟨doc1, h1, h2, h3, h4, h5⟩ := hr.revert
    have e : doc1.diffs = aerase v doc.diffs := by rw [h5]
    refine ⟨doc1, h2, h4, hr.nodup, ?_, ?_, e⟩
    · intro v' ch
      rw [mem_akeys_aset, e, mem_akeys_aerase hr.nodup]
      by_cases e : v' = v <;> simp [e]
    · intro v' hv'
      have := h4 v' hv'
      rw [e, aget_aerase _ _ hr.nodup, if_neg (by omega)]

/-- Applying a fitting operation keeps the committed versions. -/
theorem OpFits.apply {o : Option MongoRecord} {h : Hist} {op : MongoOp} (hr : Rep plainClass o h)
    (hf : OpFits h.committed op) (hins : op.isInsert = true → o = none) :
    ∃ p, Rep plainClass (docOp o op) { h with pending := p } := by
  obtain ⟨cs, p⟩ := h
  dsimp only at hf ⊢
  cases op with
  | insert id data =>
    obtain ⟨rfl, hw⟩ := hf
    exact ⟨some data, rfl, DEq.refl hw, .nil, by simp, by simp, by simp⟩
  | setData id data =>
    obtain ⟨rfl, hw⟩ := hf
    cases o with
    | none => exact ⟨p, hr⟩
    | some doc =>
      cases p with
      | none => exact hr.elim
      | some p =>
        have hr : DocRep plainClass doc none p [] := hr
        exact ⟨some data, hr.version, DEq.refl hw, .nil, hr.nodup, hr.keys, hr.desc⟩
  | delete id =>
    obtain rfl : cs = [] := hf
    exact ⟨none, rfl, rfl⟩
  | setDiff id data v ch =>
    obtain ⟨d, rest, r, rfl, hw, hwf, hp, hde⟩ := hf
    cases o with
    | none => exact absurd (Rep.none_iff.1 hr).1 (by simp)
    | some doc =>
      obtain ⟨doc1, h1, h2, h3, h4, h5, _⟩ := hr.atCommitted
      exact ⟨some data, DocRep.setDiff h1 h2 h3 (fun v' => h4 v' _) h5 hwf hp (hde.trans h1.data.symm) (DEq.refl hw)⟩
  | revert id data v all =>
    obtain ⟨d, rest, rfl, hde, rfl⟩ := hf
    cases o with
    | none => exact absurd (Rep.none_iff.1 hr).1 (by simp)
    | some doc =>
      obtain ⟨doc1, h1, h2, h3, h4, h5, h6⟩ := hr.atCommitted
      refine ⟨none, ?_, h2⟩
      have e : (if rest.isEmpty = true then [] else aerase v doc.diffs) = doc1.diffs := by
        cases rest with
        | nil => simp [h1.diffs_nil]
        | cons _ _ => simp [h6]
      dsimp only
      rw [e]
      exact ⟨rfl, hde, h1.chain.congr (h1.data.trans hde.symm), h1.nodup, h1.keys, h1.desc⟩

theorem DocRep.isEmpty_iff {doc : MongoRecord} {ver d cs} (h : DocRep plainClass doc ver d cs) :
    doc.diffs.isEmpty = cs.isEmpty := by
  cases cs with
  | nil => simp [h.diffs_nil]
  | cons vd cs =>
    cases hd : doc.diffs with
    | nil => have := (h.keys vd.1).2 (by simp); rw [hd] at this; simp at this
    | cons _ _ => rfl

/-- The operation an ingest generates fits. -/
theorem opFor_fits {U : Unicode} {mf : Option PyStr} {e : Option MongoRecord} {r : Record} {h : Hist}
    (hr : Rep plainClass e h) {o : MongoOp} (ho : opFor U mf e r = .ok (some o)) : OpFits h.committed o := by
  have hwf := prepareRecordData_wf U r
  cases e with
  | none =>
    obtain ⟨h1, h2⟩ := Rep.none_iff.1 hr
    rw [opFor] at ho
    split at ho
    · cases ho
    · cases ho; exact ⟨h1, hwf⟩
  | some doc =>
    obtain ⟨cs, p⟩ := h
    rw [opFor] at ho
    unfold opForExisting at ho
    dsimp only at ho ⊢
    cases cs with
    | nil =>
      cases p with
      | none => exact hr.elim
      | some p =>
        have hr : DocRep plainClass doc none p [] := hr
        simp only [hr.version, hr.diffs_nil, Option.isNone_none, List.isEmpty_nil, Bool.and_self, if_true] at ho
        split at ho
        · cases ho; rfl
        · split at ho
          · cases ho
          · split at ho
            · cases ho
            · cases ho; exact ⟨rfl, hwf⟩
    | cons vd cs =>
      obtain ⟨v, d⟩ := vd
      have hmatch : (doc.version.isNone && doc.diffs.isEmpty) = false := by
        cases p with
        | none => have hr' : DocRep plainClass doc (some v) d cs ∧ _ := hr; simp [hr'.1.version]
        | some p =>
          have hr : DocRep plainClass doc none p ((v, d) :: cs) := hr
          simp [hr.isEmpty_iff]
      rw [hmatch] at ho
      simp only [Bool.false_eq_true, if_false] at ho
      obtain ⟨doc1, rop, hrev, hrep, hrop⟩ :
          ∃ (doc1 : MongoRecord) (rop : Option MongoOp), revertIfPending doc = .ok (doc1, rop) ∧
          DocRep plainClass doc1 (some v) d cs ∧
          (∀ d' o, DEq plainClass d' doc1.data → rop.map (MongoOp.withData d') = some o → OpFits ((v, d) :: cs) o) := by
        cases p with
        | none =>
          obtain ⟨hr, hlt⟩ : DocRep plainClass doc (some v) d cs ∧ ∀ v' ∈ cs.map Prod.fst, v' < v := hr
          exact ⟨doc, none, by rw [revertIfPending, revertRecord_committed hr.version], hr, by simp⟩
        | some p =>
          have hr : DocRep plainClass doc none p ((v, d) :: cs) := hr
          obtain ⟨doc1, h1, h2, h3, h4, h5⟩ := hr.revert
          refine ⟨doc1, some (.revert doc.id doc1.data v doc1.diffs.isEmpty), ?_, h2, ?_⟩
          · rw [revertIfPending, h1]
          · intro d' o hd' ho; cases ho; exact ⟨d, cs, rfl, hd'.trans h2.data, h2.isEmpty_iff⟩
      rw [hrev] at ho
      simp only [opForCommitted] at ho
      obtain ⟨new', ch, rr, c1, c2, c3, c4, c5⟩ := computeChanges_spec (mf := mf) hwf hrep.data
      rw [c1] at ho
      cases ch with
      | nil => exact hrop _ o (DEq_putBack (mf := mf) (new := prepareRecordData U r) hrep.data) (Except.ok.inj ho)
      | cons x xs =>
        obtain ⟨c6, c7⟩ := c5 (by simp)
        rw [hrep.version] at ho
        simp only [List.isEmpty_cons, Bool.false_eq_true, if_false, Except.ok.injEq, Option.some.injEq] at ho
        subst ho
        exact ⟨d, cs, rr, rfl, c2.left, c4, c6, c7.trans hrep.data⟩

/-- The operation a rollback generates fits. -/
theorem rollbackOp_fits {doc : MongoRecord} {h : Hist} (hr : Rep plainClass (some doc) h) {o : MongoOp}
    (ho : rollbackOp doc = .ok (some o)) : OpFits h.committed o := by
  obtain ⟨cs, p⟩ := h
  cases p with
  | none =>
    cases cs with
    | nil => exact hr.elim
    | cons vd cs =>
      have hr' : DocRep plainClass doc (some vd.1) vd.2 cs ∧ _ := hr
      simp [rollbackOp, hr'.1.version] at ho
  | some p =>
    have hr : DocRep plainClass doc none p cs := hr
    cases cs with
    | nil =>
      simp [rollbackOp, hr.version, hr.diffs_nil] at ho
      subst ho; rfl
    | cons vd cs =>
      obtain ⟨v, d⟩ := vd
      obtain ⟨doc1, h1, h2, h3, h4, h5⟩ := hr.revert
      have hne : doc.diffs.isEmpty = false := by rw [hr.isEmpty_iff]; rfl
      simp [rollbackOp, hr.version, hne, h1, bind, Except.bind] at ho
      subst ho
      exact ⟨d, cs, rfl, h2.data, h2.isEmpty_iff⟩

/-- The id an operation inserts. -/
def MongoOp.insertId : MongoOp → Option PyStr
  | .insert id _ => some id
  | _ => none

/-- The ids about to be inserted. -/
def insertIds (l : List (Nat × MongoOp)) : List PyStr := l.filterMap (fun x => x.2.insertId)

/-- The collection stands for the histories, and every unwritten operation fits. -/
structure ConcInv (st : ConcState) (s : Store) : Prop where
  rep : RColl (fun _ => plainClass) st.coll s
  fits : ∀ x ∈ st.unwritten, OpFits (s x.2.id).committed x.2
  fresh : ∀ x ∈ st.unwritten, x.2.isInsert = true → findRecord x.2.id st.coll = none
  nodup : (insertIds st.unwritten).Nodup

theorem insertId_eq {o : MongoOp} {id} (h : o.insertId = some id) : o.id = id ∧ o.isInsert = true := by
  cases o <;> simp_all [MongoOp.insertId, MongoOp.id, MongoOp.isInsert]

theorem insertId_of {o : MongoOp} (h : o.isInsert = true) : o.insertId = some o.id := by
  cases o <;> simp_all [MongoOp.insertId, MongoOp.id, MongoOp.isInsert]

theorem mem_insertIds {l : List (Nat × MongoOp)} {id} :
    id ∈ insertIds l ↔ ∃ x ∈ l, x.2.isInsert = true ∧ x.2.id = id := by
  rw [insertIds, List.mem_filterMap]
  constructor
  · rintro ⟨x, h1, h2⟩; have := insertId_eq h2; exact ⟨x, h1, this.2, this.1⟩
  · rintro ⟨x, h1, h2, h3⟩; exact ⟨x, h1, by rw [insertId_of h2, h3]⟩

theorem ConcInv.sublist {st : ConcState} {s : Store} (h : ConcInv st s) {l} (hl : l.Sublist st.unwritten) :
    ConcInv { st with unwritten := l } s :=
  ⟨h.rep, fun x hx => h.fits x (hl.subset hx), fun x hx => h.fresh x (hl.subset hx),
    h.nodup.sublist (hl.filterMap _)⟩

theorem dropOps_sublist (p : Nat) (l : List (Nat × MongoOp)) : (dropOps p l).Sublist l := List.filter_sublist

theorem takeOp_perm {p : Nat} : ∀ {l : List (Nat × MongoOp)} {o rest}, takeOp p l = some (o, rest) →
    l.Perm ((p, o) :: rest) ∧ rest.Sublist l
  | [], _, _, h => by cases h
  | (q, x) :: l, o, rest, h => by
    rw [takeOp] at h
    split at h
    · rename_i hq; cases h; subst hq; exact ⟨.refl _, List.sublist_cons_self _ _⟩
    · rw [Option.map_eq_some_iff] at h
      obtain ⟨⟨o', r'⟩, h1, h2⟩ := h
      cases h2
      obtain ⟨i1, i2⟩ := takeOp_perm h1
      exact ⟨(i1.cons _).trans (.swap _ _ _), i2.cons_cons _⟩

theorem ConcInv.add {st : ConcState} {s : Store} (h : ConcInv st s) {p : Nat} {ops : List MongoOp}
    (hf : ∀ o ∈ ops, OpFits (s o.id).committed o)
    (hn : ∀ o ∈ ops, o.isInsert = true → findRecord o.id st.coll = none ∧ o.id ∉ insertIds st.unwritten)
    (hd : (ops.filterMap MongoOp.insertId).Nodup) :
    ConcInv { st with unwritten := st.unwritten ++ ops.map (fun o => (p, o)) } s := by
  refine ⟨h.rep, ?_, ?_, ?_⟩
  · intro x hx
    rcases List.mem_append.1 hx with hx | hx
    · exact h.fits x hx
    · obtain ⟨o, ho, rfl⟩ := List.mem_map.1 hx; exact hf o ho
  · intro x hx hi
    rcases List.mem_append.1 hx with hx | hx
    · exact h.fresh x hx hi
    · obtain ⟨o, ho, rfl⟩ := List.mem_map.1 hx; exact (hn o ho hi).1
  · dsimp only
    rw [insertIds, List.filterMap_append, List.filterMap_map, List.nodup_append]
    refine ⟨h.nodup, hd, ?_⟩
    intro a ha b hb hab
    subst hab
    rw [List.mem_filterMap] at hb
    obtain ⟨o, ho, hoi⟩ := hb
    have := insertId_eq hoi
    exact (hn o ho this.2).2 (this.1 ▸ ha)

/-- Every committed version is in both, the second with more. -/
def Grows (s s' : Store) : Prop := ∀ id, ∃ newer, (s' id).committed = newer ++ (s id).committed

theorem Grows.refl (s : Store) : Grows s s := fun _ => ⟨[], rfl⟩
theorem Grows.trans {a b c : Store} (h : Grows a b) (h' : Grows b c) : Grows a c := fun id => by
  obtain ⟨x, hx⟩ := h id
  obtain ⟨y, hy⟩ := h' id
  exact ⟨y ++ x, by rw [hy, hx, List.append_assoc]⟩

theorem ConcInv.write {st : ConcState} {s : Store} (h : ConcInv st s) {p : Nat} {o rest}
    (ht : takeOp p st.unwritten = some (o, rest)) :
    ∃ s', ConcInv { coll := applyOp st.coll o, unwritten := rest } s' ∧ ∀ id, (s' id).committed = (s id).committed := by
  obtain ⟨hp, hs⟩ := takeOp_perm ht
  have hmem : (p, o) ∈ st.unwritten := hp.symm.subset (by simp)
  have hins := h.fresh _ hmem
  obtain ⟨a1, a2⟩ := applyOp_spec h.rep.nodup hins
  have hrep := h.rep.rep o.id
  obtain ⟨pd, hpd⟩ := OpFits.apply hrep (h.fits _ hmem) hins
  refine ⟨fun id => if id = o.id then { s id with pending := pd } else s id, ⟨⟨a1, ?_⟩, ?_, ?_, ?_⟩, ?_⟩
  · intro i
    dsimp only
    rw [a2]
    by_cases hi : o.id = i
    · subst hi; simpa using hpd
    · rw [if_neg hi, if_neg (fun e => hi e.symm)]; exact h.rep.rep i
  · intro x hx
    have := h.fits x (hs.subset hx)
    dsimp only
    split
    · exact this
    · exact this
  · intro x hx hi
    dsimp only
    rw [a2]
    split
    · rename_i he
      -- only an insert makes a document appear
      have hnone := h.fresh x (hs.subset hx) hi
      rw [← he] at hnone
      rw [← he, hnone]
      cases ho : o.isInsert with
      | true =>
        exfalso
        have hnd : (insertIds ((p, o) :: rest)).Nodup := (hp.filterMap _).nodup_iff.1 h.nodup
        rw [insertIds, List.filterMap_cons, insertId_of ho] at hnd
        refine (List.nodup_cons.1 hnd).1 ?_
        exact mem_insertIds.2 ⟨x, hx, hi, he.symm⟩
      | false => cases o <;> simp_all [docOp, MongoOp.isInsert]
    · exact h.fresh x (hs.subset hx) hi
  · exact h.nodup.sublist (hs.filterMap _)
  · intro id; dsimp only; split <;> rfl

theorem ConcInv.commit {st : ConcState} {s : Store} (h : ConcInv st s) {v : Int} {done : PyStr → Bool}
    (hc : st.CalmAt (.commit v done)) (hv : ∀ id, ∀ vd ∈ (s id).committed, vd.1 < v) :
    ConcInv { st with coll := commitCollCrash v done st.coll }
      (fun id => if done id then (s id).commit v else s id) := by
  have hf : ∀ d : MongoRecord, (if d.version.isNone && done d.id then { d with version := some v } else d).id = d.id := by
    intro d; split <;> rfl
  refine ⟨commitCollCrash_spec h.rep done hv, ?_, ?_, h.nodup⟩
  · intro x hx
    have := h.fits x hx
    split
    · rename_i hd
      -- the document has no uncommitted data
      have hrep := h.rep.rep x.2.id
      cases hfr : findRecord x.2.id st.coll with
      | none =>
        rw [hfr] at hrep
        have := (Rep.none_iff.1 hrep).2
        simpa [Hist.commit, this] using h.fits x hx
      | some doc =>
        have hid := findRecord_id hfr
        have hver : doc.version ≠ none := fun hv => by
          have := hc x hx doc (findRecord_mem hfr) hid hv
          rw [hid, hd] at this; cases this
        rw [hfr] at hrep
        cases hp : (s x.2.id).pending with
        | none => simpa [Hist.commit, hp] using h.fits x hx
        | some p =>
          exfalso
          have hs : s x.2.id = ⟨(s x.2.id).committed, some p⟩ := by
            cases hh : s x.2.id; rw [hh] at hp; cases hp; rfl
          rw [hs] at hrep
          have hrep : DocRep plainClass doc none p _ := hrep
          exact hver hrep.version
    · exact this
  · intro x hx hi
    dsimp only
    rw [commitCollCrash, findRecord_map hf, h.fresh x hx hi]; rfl

/-- The operations of a chunk. -/
theorem chunkOps_fits {U : Unicode} {mf : Option PyStr} {c : Coll} {s : Store} (hR : RColl (fun _ => plainClass) c s) (chunk : List Record) :
    ∃ ops, chunkOps U mf c chunk = .ok ops ∧
      (∀ o ∈ ops, OpFits (s o.id).committed o ∧ (∃ r ∈ chunk, r.id = o.id) ∧
        (o.isInsert = true → findRecord o.id c = none)) ∧
      (ops.map MongoOp.id).Nodup := by
  refine ⟨(recordsById chunk).filterMap (opOf U mf c), ?_, ?_, ?_⟩
  · rw [chunkOps]
    apply collectOps_eq
    intro r hr
    rw [lookupExisting_eq hR.nodup]
    exact (opOf_spec hR r).1
  · intro o ho
    rw [List.mem_filterMap] at ho
    obtain ⟨r, hr, ho⟩ := ho
    obtain ⟨h1, h2⟩ := opOf_spec (U := U) (mf := mf) hR r
    obtain ⟨e1, e2⟩ := h2 o ho
    rw [ho] at h1
    rw [e1]
    exact ⟨opFor_fits (hR.rep r.id) h1, ⟨r, recordsById_sub hr, rfl⟩, e2⟩
  · exact (recordsById_nodup chunk).sublist (opsOf_ids hR _)

theorem insertIds_sublist (ops : List MongoOp) : (ops.filterMap MongoOp.insertId).Sublist (ops.map MongoOp.id) := by
  induction ops with
  | nil => exact .slnil
  | cons o ops ih =>
    rw [List.filterMap_cons, List.map_cons]
    cases h : o.insertId with
    | none => exact ih.cons _
    | some id => dsimp only; rw [← (insertId_eq h).1]; exact ih.cons_cons _

theorem commitVersions_cons (a : ConcAct) (as : List ConcAct) :
    commitVersions (a :: as) = commitVersions [a] ++ commitVersions as := by
  simp only [commitVersions, List.filterMap_cons, List.filterMap_nil]
  split <;> rfl

/-- One action. -/
theorem ConcInv.act {U : Unicode} {st : ConcState} {s : Store} (h : ConcInv st s) {a : ConcAct} (hc : st.CalmAt a)
    {used : List Int} (hu : ∀ id, ∀ vd ∈ (s id).committed, vd.1 ∈ used)
    (hv : (used ++ commitVersions [a]).Pairwise (· < ·)) :
    ∃ s', ConcInv (st.act U a) s' ∧ Grows s s' ∧
      ∀ id, ∀ vd ∈ (s' id).committed, vd.1 ∈ used ++ commitVersions [a] := by
  cases a with
  | lookup p mf chunk =>
    obtain ⟨ops, e, h1, h2⟩ := chunkOps_fits (U := U) (mf := mf) h.rep chunk
    refine ⟨s, ?_, .refl s, by simpa [commitVersions] using hu⟩
    rw [ConcState.act, e]
    refine h.add (fun o ho => (h1 o ho).1) (fun o ho hi => ⟨(h1 o ho).2.2 hi, ?_⟩) (h2.sublist (insertIds_sublist ops))
    intro hm
    obtain ⟨x, hx, hxi, hxe⟩ := mem_insertIds.1 hm
    obtain ⟨r, hr, hre⟩ := (h1 o ho).2.1
    obtain ⟨q, x⟩ := x
    cases x with
    | insert id data =>
      have := hc r hr _ hx data
      exact this (by rw [hre, ← hxe]; rfl)
    | _ => simp [MongoOp.isInsert] at hxi
  | lookupRollback p =>
    refine ⟨s, ?_, .refl s, by simpa [commitVersions] using hu⟩
    have e := rollbackOps_eq (c := st.coll) (fun d hd => (rollbackOp_spec (h.rep.rep_mem hd)).1)
    rw [ConcState.act, e]
    have hop : ∀ o ∈ st.coll.filterMap rbOp, ∃ d ∈ st.coll, o.id = d.id ∧ o.isInsert = false ∧ rollbackOp d = .ok (some o) := by
      intro o ho
      obtain ⟨d, hd, ho⟩ := List.mem_filterMap.1 ho
      obtain ⟨r1, r2, _⟩ := rollbackOp_spec (h.rep.rep_mem hd)
      rw [ho] at r1
      exact ⟨d, hd, (r2 o ho).1, (r2 o ho).2, r1⟩
    refine h.add ?_ ?_ ?_
    · intro o ho
      obtain ⟨d, hd, e1, e2, e3⟩ := hop o ho
      rw [e1]
      exact rollbackOp_fits (h.rep.rep_mem hd) e3
    · intro o ho hi
      obtain ⟨d, hd, e1, e2, e3⟩ := hop o ho
      rw [e2] at hi; cases hi
    · have : (st.coll.filterMap rbOp).filterMap MongoOp.insertId = [] := by
        rw [List.filterMap_eq_nil_iff]
        intro o ho
        obtain ⟨d, hd, e1, e2, e3⟩ := hop o ho
        cases o <;> simp_all [MongoOp.insertId, MongoOp.isInsert]
      rw [this]; exact .nil
  | write p =>
    rw [ConcState.act]
    cases ht : takeOp p st.unwritten with
    | none => exact ⟨s, h, .refl s, by simpa [commitVersions] using hu⟩
    | some x =>
      obtain ⟨o, rest⟩ := x
      obtain ⟨s', h1, h2⟩ := h.write ht
      exact ⟨s', h1, fun id => ⟨[], by rw [h2]; rfl⟩, fun id vd hvd => by
        rw [h2] at hvd; simpa [commitVersions] using hu id vd hvd⟩
  | commit v done =>
    have hlt : ∀ id, ∀ vd ∈ (s id).committed, vd.1 < v := by
      intro id vd hvd
      rw [List.pairwise_append] at hv
      exact hv.2.2 _ (hu id vd hvd) v (by simp [commitVersions])
    refine ⟨_, h.commit hc hlt, ?_, ?_⟩
    · intro id
      dsimp only
      split
      · rw [Hist.commit]; split
        · exact ⟨[], rfl⟩
        · exact ⟨[_], rfl⟩
      · exact ⟨[], rfl⟩
    · intro id vd hvd
      have hmem := hu id vd
      split at hvd
      · rw [Hist.commit] at hvd; split at hvd
        · exact List.mem_append_left _ (hmem hvd)
        · rcases List.mem_cons.1 hvd with e | hvd
          · subst e; exact List.mem_append_right _ (by simp [commitVersions])
          · exact List.mem_append_left _ (hmem hvd)
      · exact List.mem_append_left _ (hmem hvd)
  | stop p =>
    exact ⟨s, h.sublist (dropOps_sublist p _), .refl s, by simpa [commitVersions] using hu⟩

theorem ConcInv.run {U : Unicode} : ∀ (acts : List ConcAct) {st : ConcState} {s : Store} {used : List Int},
    ConcInv st s → st.Calm U acts → (∀ id, ∀ vd ∈ (s id).committed, vd.1 ∈ used) →
    (used ++ commitVersions acts).Pairwise (· < ·) →
    ∃ s', ConcInv (st.run U acts) s' ∧ Grows s s' ∧
      ∀ id, ∀ vd ∈ (s' id).committed, vd.1 ∈ used ++ commitVersions acts
  | [], st, s, used, h, _, hu, _ => ⟨s, h, .refl s, by simpa [commitVersions] using hu⟩
  | a :: as, st, s, used, h, hc, hu, hv => by
    rw [commitVersions_cons, ← List.append_assoc] at hv
    obtain ⟨s1, h1, g1, u1⟩ := h.act (U := U) hc.1 hu (List.pairwise_append.1 hv).1
    obtain ⟨s2, h2, g2, u2⟩ := ConcInv.run as h1 hc.2 u1 hv
    refine ⟨s2, h2, g1.trans g2, ?_⟩
    rw [commitVersions_cons, ← List.append_assoc]; exact u2

theorem concInv_empty : ConcInv {} Store.empty :=
  ⟨⟨by simp [ids], fun _ => by simp [findRecord, Rep, Store.empty]⟩, by simp, by simp, by simp [insertIds]⟩

theorem ConcState.run_append (U : Unicode) (st : ConcState) (a b : List ConcAct) :
    st.run U (a ++ b) = (st.run U a).run U b := by simp [ConcState.run]

theorem calm_append {U : Unicode} : ∀ (a : List ConcAct) {b : List ConcAct} {st : ConcState},
    st.Calm U (a ++ b) → st.Calm U a ∧ (st.run U a).Calm U b
  | [], _, _, h => ⟨trivial, h⟩
  | _ :: as, _, _, h => by
    obtain ⟨h1, h2⟩ := calm_append as h.2
    exact ⟨⟨h.1, h1⟩, h2⟩

end Splitgill
