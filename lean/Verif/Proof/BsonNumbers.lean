import Verif.Spec.BsonBytes
import Verif.Spec.Life
import Verif.Proof.Bson2
/-!
# The versions and positions in what is stored
-/

namespace Splitgill

/-! ## Positions in diffs -/

theorem shortListsDict_iff : ∀ {d : Dict}, ShortListsDict d ↔ ∀ kv ∈ d, ShortLists kv.2
  | [] => by simp [ShortListsDict]
  | (k, v) :: r => by rw [ShortListsDict, shortListsDict_iff, List.forall_mem_cons]

/-- What is compared has short lists on the left, which is the data that is given, and the path to it fits. -/
def Comparison.Fits : Comparison → Prop
  | .dict p l _ => (∀ e ∈ p, e.Fits) ∧ ShortListsDict l
  | .list p l _ => (∀ e ∈ p, e.Fits) ∧ l.length < 2 ^ 63 ∧ ShortListsList l

theorem fits_snoc {p : Path} (h : ∀ e ∈ p, e.Fits) {x : PathEl} (hx : x.Fits) : ∀ e ∈ p ++ [x], e.Fits :=
  fun e he => (List.mem_append.1 he).elim (h e) (fun h => by rw [List.mem_singleton.1 h]; exact hx)

theorem dictLoop_fits {path : Path} {right : Dict} (hp : ∀ e ∈ path, e.Fits) : ∀ (left : Dict), ShortListsDict left →
    ∀ c ∈ (dictLoop path right left).2, c.Fits
  | [], _ => fun _ h => (nomatch h)
  | (k, v) :: rest, h => by
    have ih := dictLoop_fits (right := right) hp rest h.2
    rw [dictLoop]
    cases hg : aget k right with
    | none => exact ih
    | some w =>
      dsimp only
      split
      · exact ih
      · split
        · exact fun c hc => (List.mem_cons.1 hc).elim (fun e => by subst e; exact ⟨fits_snoc hp trivial, h.1⟩) (ih c)
        · exact fun c hc => (List.mem_cons.1 hc).elim (fun e => by subst e; exact ⟨fits_snoc hp trivial, h.1⟩) (ih c)
        · exact ih

theorem listLoop_fits {path : Path} (hp : ∀ e ∈ path, e.Fits) : ∀ (left right : List Value) (index : Nat), index + left.length < 2 ^ 63 →
    ShortListsList left →
    (∀ c ∈ (listLoop path index left right).changes, c.1 < 2 ^ 63) ∧
    (∀ n, (listLoop path index left right).ld = some n → n < 2 ^ 63) ∧
    ∀ c ∈ (listLoop path index left right).further, c.Fits
  | [], [], _, _, _ => ⟨fun _ h => (nomatch h), fun _ h => (nomatch h), fun _ h => (nomatch h)⟩
  | [], r :: rs, _, _, _ => ⟨fun _ h => (nomatch h), fun _ h => (nomatch h), fun _ h => (nomatch h)⟩
  | _ :: _, [], index, hi, _ => ⟨fun _ h => (nomatch h), fun n e => by cases e; rw [List.length_cons] at hi; omega, fun _ h => (nomatch h)⟩
  | l :: ls, r :: rs, index, hi, h => by
    rw [List.length_cons] at hi
    have ih := listLoop_fits hp ls rs (index + 1) (by omega) h.2
    have hx : (PathEl.idx index).Fits := by show index < 2 ^ 63; omega
    unfold listLoop
    dsimp only
    split
    · exact ih
    · split
      · exact ⟨ih.1, ih.2.1, fun c hc => (List.mem_cons.1 hc).elim (fun e => by subst e; exact ⟨fits_snoc hp hx, h.1⟩) (ih.2.2 c)⟩
      · exact ⟨ih.1, ih.2.1, fun c hc => (List.mem_cons.1 hc).elim (fun e => by subst e; exact ⟨fits_snoc hp hx, h.1⟩) (ih.2.2 c)⟩
      · exact ⟨fun c hc => (List.mem_cons.1 hc).elim (fun e => by subst e; exact hx) (ih.1 c), ih.2⟩

theorem compare_fits {c : Comparison} (h : c.Fits) : (∀ o, c.compare.1 = some o → o.Fits) ∧ ∀ c' ∈ c.compare.2, c'.Fits := by
  cases c with
  | dict path left right =>
    refine ⟨fun o ho => ?_, dictLoop_fits h.1 left h.2⟩
    simp only [Comparison.compare, dictCompare] at ho
    split at ho
    · cases ho
      exact ⟨h.1, fun _ hd => (nomatch hd), fun _ hd => (nomatch hd)⟩
    · cases ho
  | list path left right =>
    have hl := listLoop_fits h.1 left right 0 (by rw [Nat.zero_add]; exact h.2.1) h.2.2
    refine ⟨fun o ho => ?_, hl.2.2⟩
    simp only [Comparison.compare, listCompare] at ho
    split at ho
    · cases ho
      refine ⟨h.1, fun cs hd => ?_, hl.2.1⟩
      rw [nonEmpty_some hd]; exact hl.1
    · cases ho

theorem bfs_fits : ∀ (fuel : Nat) (q : List Comparison), (∀ c ∈ q, c.Fits) → ∀ o ∈ bfs fuel q, o.Fits
  | 0, _, _, _, h => by cases h
  | _ + 1, [], _, _, h => by cases h
  | fuel + 1, c :: q, hq, o, ho => by
    rw [bfs] at ho
    have hc := compare_fits (hq c (List.mem_cons_self ..))
    rcases List.mem_append.1 ho with h | h
    · exact hc.1 o (Option.mem_toList.1 h)
    · exact bfs_fits fuel _ (fun c' hc' => (List.mem_append.1 hc').elim (fun h => hq c' (List.mem_cons_of_mem _ h)) (hc.2 c')) o h

theorem diffDict_fits {a b : Dict} {ops : List DiffOp} (ha : ShortListsDict a) (h : diffDict a b = .ok ops) : ∀ o ∈ ops, o.Fits := by
  unfold diffDict diff at h
  split at h
  · cases h; exact fun _ h => (nomatch h)
  · cases h
    exact bfs_fits _ _ (fun c hc => by
      rw [List.mem_singleton] at hc
      subst hc
      exact ⟨fun _ h => (nomatch h), ha⟩)

theorem computeChanges_fits {mf : Option PyStr} {a b a' : Dict} {ops : List DiffOp} (ha : ShortListsDict a)
    (h : computeChanges mf a b = .ok (a', ops)) : ∀ o ∈ ops, o.Fits := by
  have plain : ∀ {a b a' : Dict} {ops}, ShortListsDict a →
      (do .ok (a, ← diffDict a b) : Except PyErr (Dict × List DiffOp)) = .ok (a', ops) → ∀ o ∈ ops, o.Fits := by
    intro a b a' ops ha h
    cases hd : diffDict a b with
    | error e => rw [hd] at h; cases h
    | ok x => rw [hd] at h; cases h; exact diffDict_fits ha hd
  unfold computeChanges at h
  cases mf with
  | none => exact plain ha h
  | some m =>
    dsimp only at h
    split at h
    · rename_i nv ev h1 h2
      have ha' : ShortListsDict (aerase m a ++ [(m, nv)]) := shortListsDict_iff.2 fun kv hk =>
        (List.mem_append.1 hk).elim (fun h => shortListsDict_iff.1 ha kv (mem_of_mem_aerase h))
          (fun h => by rw [List.mem_singleton.1 h]; exact shortListsDict_iff.1 ha _ (aget_mem h1))
      cases hd : diffDict (aerase m a) (aerase m b) with
      | error e => simp only [hd, bind, Except.bind] at h; cases h
      | ok x =>
        simp only [hd, bind, Except.bind] at h
        split at h
        · cases h
          exact fun _ hm => nomatch hm
        · exact plain ha' h
    · exact plain ha h

/-! ## Collections -/

/-- The versions of a record are of a kind, and its diffs fit. -/
structure MongoRecord.HasFit (P : Int → Prop) (r : MongoRecord) : Prop where
  version : ∀ v, r.version = some v → P v
  diffs : ∀ vd ∈ r.diffs, P vd.1 ∧ ∀ o ∈ vd.2, o.Fits

/-- The same of a write operation. -/
def MongoOp.HasFit (P : Int → Prop) : MongoOp → Prop
  | .setDiff _ _ v changes => P v ∧ ∀ o ∈ changes, o.Fits
  | .revert _ _ v _ => P v
  | _ => True

/-- All documents of a collection. -/
def CollHas (P : Int → Prop) (c : Coll) : Prop := ∀ r ∈ c, r.HasFit P

variable {p : Int → Prop}

theorem CollHas.updateFirst {id : PyStr} {f : MongoRecord → MongoRecord} (hf : ∀ r, r.HasFit p → (f r).HasFit p) :
    ∀ {c : Coll}, CollHas p c → CollHas p (updateFirst id f c)
  | [], h => h
  | d :: r, h => by
    have hd := h d List.mem_cons_self
    have hr : CollHas p r := fun x hx => h x (List.mem_cons_of_mem _ hx)
    rw [Splitgill.updateFirst]
    split
    · exact fun x hx => (List.mem_cons.1 hx).elim (fun e => e ▸ hf d hd) (hr x)
    · exact fun x hx => (List.mem_cons.1 hx).elim (fun e => e ▸ hd) (hr.updateFirst hf x)

theorem CollHas.deleteFirst {id : PyStr} : ∀ {c : Coll}, CollHas p c → CollHas p (deleteFirst id c)
  | [], h => h
  | d :: r, h => by
    have hr : CollHas p r := fun x hx => h x (List.mem_cons_of_mem _ hx)
    rw [Splitgill.deleteFirst]
    split
    · exact hr
    · exact fun x hx => (List.mem_cons.1 hx).elim (fun e => e ▸ h d List.mem_cons_self) (hr.deleteFirst x)

theorem CollHas.applyOp {c : Coll} (h : CollHas p c) {o : MongoOp} (ho : o.HasFit p) : CollHas p (applyOp c o) := by
  cases o with
  | insert id data =>
    exact fun x hx => (List.mem_append.1 hx).elim (h x) (fun e => by
      rw [List.mem_singleton] at e
      subst e
      exact ⟨fun _ e => (nomatch e), fun _ hm => nomatch hm⟩)
  | setData id data =>
    refine h.updateFirst (fun r hr => ?_)
    exact ⟨hr.version, hr.diffs⟩
  | setDiff id data v changes =>
    refine h.updateFirst (fun r hr => ⟨fun _ e => (nomatch e), fun vd hm => ?_⟩)
    rcases mem_aset hm with e | hm
    · subst e; exact ho
    · exact hr.diffs vd hm
  | revert id data v all =>
    refine h.updateFirst (fun r hr => ?_)
    refine ⟨fun w e => by injection e with e; rw [← e]; exact ho, fun vd hm => ?_⟩
    dsimp only at hm
    split at hm
    · cases hm
    · exact hr.diffs vd (mem_of_mem_aerase hm)
  | delete id => exact h.deleteFirst

theorem CollHas.bulkWrite : ∀ {ops : List MongoOp} {c : Coll}, CollHas p c → (∀ o ∈ ops, o.HasFit p) → CollHas p (bulkWrite c ops)
  | [], _, h, _ => h
  | o :: ops, c, h, ho => by
    rw [Splitgill.bulkWrite, List.foldl_cons]
    exact CollHas.bulkWrite (ops := ops) (h.applyOp (ho o List.mem_cons_self)) (fun o hm => ho o (List.mem_cons_of_mem _ hm))

theorem revertRecord_has {r r' : MongoRecord} {o : MongoOp} (h : r.HasFit p) (hr : revertRecord r = .ok (some (r', o))) :
    r'.HasFit p ∧ o.HasFit p := by
  unfold revertRecord at hr
  split at hr
  · cases hr
  · split at hr
    · cases hr
    · split at hr
      · cases hr
      · rename_i ops hg
        split at hr
        · cases hr
        · rename_i data hd
          have := (h.diffs _ (aget_mem hg)).1
          cases hr
          exact ⟨⟨fun w e => by injection e with e; rw [← e]; exact this, fun vd hm => h.diffs vd (mem_of_mem_aerase hm)⟩, this⟩

theorem withData_has {op : MongoOp} {d : Dict} (ho : op.HasFit p) : (op.withData d).HasFit p := by
  cases op with
  | _ => exact ho

theorem opFor_has {U : Unicode} {mf : Option PyStr} {ex : Option MongoRecord} {r : Record} {o : MongoOp}
    (hex : ∀ d, ex = some d → d.HasFit p) (hr : ShortListsDict (prepareRecordData U r)) (h : opFor U mf ex r = .ok (some o)) : o.HasFit p := by
  cases ex with
  | none =>
    simp only [opFor] at h
    split at h
    · cases h
    · cases h; trivial
  | some d =>
    have hd := hex d rfl
    simp only [opFor, opForExisting] at h
    split at h
    · split at h
      · cases h; trivial
      · split at h
        · cases h
        · split at h
          · cases h
          · cases h; trivial
    · split at h
      · cases h
      · rename_i e1 rop hrr
        have key : e1.HasFit p ∧ ∀ op, rop = some op → op.HasFit p := by
          unfold revertIfPending at hrr
          split at hrr
          · cases hrr
          · rename_i x
            cases hrr
            have := revertRecord_has hd x
            exact ⟨this.1, fun op e => by cases e; exact this.2⟩
          · cases hrr
            exact ⟨hd, fun op e => nomatch e⟩
        unfold opForCommitted at h
        split at h
        · cases h
        · rename_i nd changes hc
          have hx := computeChanges_fits hr hc
          split at h
          · obtain ⟨op, h1, rfl⟩ := Option.map_eq_some_iff.1 (Except.ok.inj h)
            exact withData_has (key.2 op h1)
          · split at h
            · rename_i v hv
              cases h; exact ⟨key.1.version v hv, hx⟩
            · cases h

theorem chunkOps_has {U : Unicode} {mf : Option PyStr} {chunk : List Record} {c : Coll} {ops : List MongoOp} (hc : CollHas p c)
    (hr : ∀ r ∈ chunk, ShortListsDict (prepareRecordData U r)) (h : chunkOps U mf c chunk = .ok ops) : ∀ o ∈ ops, o.HasFit p := by
  intro o ho
  obtain ⟨r, hm, e⟩ := collectOps_mem h o ho
  exact opFor_has (fun d hd => hc d (lookupExisting_sub hd)) (hr r (recordsById_mem hm)) e

/-- Everything in the pipeline. -/
structure StateHas (p : Int → Prop) (s : IngestState) : Prop where
  coll : CollHas p s.coll
  buf : ∀ o ∈ s.buf, o.HasFit p
  written : ∀ o ∈ s.written.flatten, o.HasFit p

theorem StateHas.flush {s : IngestState} (h : StateHas p s) : StateHas p s.flush :=
  ⟨h.coll.bulkWrite h.buf, fun _ hm => (nomatch hm), fun o ho => by
    simp only [IngestState.flush, List.flatten_append, List.flatten_cons, List.flatten_nil, List.append_nil, List.mem_append] at ho
    exact ho.elim (h.written o) (h.buf o)⟩

theorem StateHas.feed {size : Nat} : ∀ {ops : List MongoOp} {s : IngestState}, StateHas p s → (∀ o ∈ ops, o.HasFit p) →
    StateHas p (ops.foldl (feedOp size) s)
  | [], _, h, _ => h
  | o :: ops, s, h, ho => by
    rw [List.foldl_cons]
    refine StateHas.feed ?_ (fun o hm => ho o (List.mem_cons_of_mem _ hm))
    have h' : StateHas p { s with buf := s.buf ++ [o] } := ⟨h.coll, fun x hx => (List.mem_append.1 hx).elim (h.buf x) (fun e => by
      rw [List.mem_singleton] at e
      subst e
      exact ho x List.mem_cons_self), h.written⟩
    unfold feedOp
    dsimp only
    split
    · exact h'
    · exact h'.flush

theorem ingestLoop_has {U : Unicode} {mf : Option PyStr} {size : Nat} : ∀ {chunks : List (List Record)} {s s' : IngestState},
    StateHas p s → (∀ ch ∈ chunks, ∀ r ∈ ch, ShortListsDict (prepareRecordData U r)) → ingestLoop U mf size s chunks = .ok s' →
    StateHas p s'
  | [], s, s', hs, _, h => by
    rw [ingestLoop] at h
    cases h
    split
    · exact hs
    · exact hs.flush
  | ch :: rest, s, s', hs, hr, h => by
    rw [ingestLoop] at h
    cases hc : chunkOps U mf s.coll ch with
    | error e => rw [hc] at h; cases h
    | ok ops =>
      rw [hc] at h
      exact ingestLoop_has (hs.feed (chunkOps_has hs.coll (hr ch List.mem_cons_self) hc)) (fun c hm => hr c (List.mem_cons_of_mem _ hm)) h

theorem ingestSized_has {U : Unicode} {mf : Option PyStr} {c : Coll} {rs : List Record} {s : IngestState} (hc : CollHas p c)
    (hr : ∀ r ∈ rs, ShortListsDict (prepareRecordData U r)) (h : ingestSized U mf 200 c rs = .ok s) : ∀ o ∈ s.written.flatten, o.HasFit p :=
  (ingestLoop_has ⟨hc, by simp, by simp⟩ (fun _ hch r hm => hr r (mem_partition (by decide) hch hm)) h).written

theorem rollbackOps_has : ∀ {c : Coll} {ops : List MongoOp}, CollHas p c → rollbackOps c = .ok ops → ∀ o ∈ ops, o.HasFit p
  | [], ops, _, h => by cases h; exact fun _ hm => nomatch hm
  | d :: c, ops, hc, h => by
    rw [rollbackOps] at h
    cases h1 : rollbackOp d with
    | error e => rw [h1] at h; cases h
    | ok op =>
      cases h2 : rollbackOps c with
      | error e => rw [h1, h2] at h; cases h
      | ok os =>
        rw [h1, h2] at h
        cases h
        intro o ho
        rcases List.mem_append.1 ho with ho | ho
        · rw [Option.mem_toList] at ho
          cases ho
          unfold rollbackOp at h1
          split at h1
          · cases h1
          · split at h1
            · cases h1; trivial
            · cases hr : revertRecord d with
              | error e => rw [hr] at h1; cases h1
              | ok x =>
                rw [hr] at h1
                cases x with
                | none => cases h1
                | some y =>
                  cases h1
                  exact (revertRecord_has (hc d List.mem_cons_self) hr).2
        · exact rollbackOps_has (fun x hx => hc x (List.mem_cons_of_mem _ hx)) h2 o ho

theorem CollHas.commitColl {c : Coll} (h : CollHas p c) {v : Int} (hv : p v) : CollHas p (commitColl v c) := by
  intro r hr
  obtain ⟨d, hd, e⟩ := List.mem_map.1 hr
  have := h d hd
  split at e <;> subst e
  · exact ⟨fun w e => by injection e with e; rw [← e]; exact hv, this.diffs⟩
  · exact this

theorem commit_has {db : PyStr} {clock : Int} {m : Mongo} (hp : p clock) (h : CollHas p (m.data db)) : CollHas p ((commit db clock m).2.data db) := by
  by_cases hl : db ∈ m.locks
  · rw [commit_locked hl]; exact h
  · rw [commit_eq hl]
    split
    · show CollHas p ((m.setData db _).data db)
      rw [setData_data]
      exact h.commitColl hp
    · exact h

/-- A call that does not write data. -/
theorem run_has {U : Unicode} {db : PyStr} {m : Mongo} {c : ApiCall} (hi : ∀ mf rs dc cl, c ≠ .ingest mf rs dc cl) (hr : c ≠ .rollbackRecords)
    (ht : ∀ t, c.clock? = some t → p t) (h : CollHas p (m.data db)) : CollHas p ((c.run U db m).2.data db) := by
  cases c with
  | ingest mf rs dc cl => exact absurd rfl (hi mf rs dc cl)
  | commit clock => exact commit_has (ht clock rfl) h
  | updateOptions o dc clock =>
    have hu : CollHas p ((updateOptionsNoCommit db o m).data db) := by rw [updateOptionsNoCommit_data]; exact h
    simp only [ApiCall.run, updateOptions]
    split
    · exact hu
    · split
      · rename_i hdc
        exact commit_has (ht clock (by simp [ApiCall.clock?, hdc])) hu
      · exact hu
  | rollbackOptions => exact h
  | rollbackRecords => exact absurd rfl hr

theorem runCalls_has {p : Int → Prop} {U : Unicode} {db : PyStr} : ∀ (calls : List ApiCall) (m : Mongo), CollHas p (m.data db) →
    (∀ r ∈ calls.flatMap ApiCall.stream, ShortListsDict (prepareRecordData U r)) → (∀ t ∈ calls.filterMap ApiCall.clock?, p t) →
    CollHas p ((runCalls U m (calls.map (fun c => (db, c)))).data db)
  | [], _, h, _, _ => h
  | c :: calls, m, h, hg, ht => by
    have ht' : ∀ t, c.clock? = some t → p t := fun t e => ht t (List.mem_filterMap.2 ⟨c, List.mem_cons_self, e⟩)
    have ht2 : ∀ t ∈ calls.filterMap ApiCall.clock?, p t := fun t h => by
      obtain ⟨x, hx, e⟩ := List.mem_filterMap.1 h
      exact ht t (List.mem_filterMap.2 ⟨x, List.mem_cons_of_mem _ hx, e⟩)
    have h2 := fun r (hr : r ∈ calls.flatMap ApiCall.stream) => hg r (by rw [List.flatMap_cons]; exact List.mem_append_right _ hr)
    refine runCalls_has calls ((c.run U db m).2) ?_ h2 ht2
    cases c with
    | ingest mf rs dc cl =>
      have h3 : ∀ r ∈ rs, ShortListsDict (prepareRecordData U r) := fun r hr => hg r (by rw [List.flatMap_cons]; exact List.mem_append_left _ hr)
      have key : ∀ c', ingest U mf (m.data db) rs = .ok c' → CollHas p ((m.setData db c').data db) := by
        intro c' hc'
        have : (m.setData db c').data db = c' := by simp [Mongo.setData]
        rw [this]
        unfold ingest at hc'
        cases hs : ingestSized U mf 200 (m.data db) rs with
        | error e => rw [hs] at hc'; cases hc'
        | ok s =>
          rw [hs] at hc'
          cases hc'
          rw [ingestSized_coll hs]
          exact h.bulkWrite (ingestSized_has h h3 hs)
      simp only [ApiCall.run]
      split
      · exact h
      · rename_i c' hc'
        split
        · rename_i hdc
          exact commit_has (ht' cl (by simp [ApiCall.clock?, hdc])) (key _ hc')
        · exact key _ hc'
    | rollbackRecords =>
      simp only [ApiCall.run]
      split
      · exact h
      · rename_i c' hc'
        have : (m.setData db c').data db = c' := by simp [Mongo.setData]
        rw [this]
        unfold rollbackRecords at hc'
        split at hc'
        · split at hc'
          · cases hc'
          · rename_i ops ho
            cases hc'
            rw [foldl_bulkWrite, partition_flatten (by decide)]
            exact h.bulkWrite (rollbackOps_has h ho)
        · cases hc'
          exact h
    | commit cl => exact run_has (by simp) (by simp) ht' h
    | updateOptions o dc cl => exact run_has (by simp) (by simp) ht' h
    | rollbackOptions => exact run_has (by simp) (by simp) ht' h

end Splitgill
