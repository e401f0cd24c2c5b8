import Verif.Proof.Bson
import Verif.Proof.Procs
import Verif.Proof.World3
import Verif.Proof.Mapping2
/-!
# Only what MongoDB can encode is stored
-/

namespace Splitgill

variable {p : Value → Prop}

mutual
theorem encodable_iff : ∀ v : Value, encodable v = true ↔ AllLeaves Int64 v
  | .none => by simp [encodable, AllLeaves, Int64]
  | .bool b => by simp [encodable, AllLeaves, Int64]
  | .int i => by simp [encodable, AllLeaves, Int64]
  | .float f => by simp [encodable, AllLeaves, Int64]
  | .str s => by simp [encodable, AllLeaves, Int64]
  | .list l => by rw [encodable, AllLeaves]; exact encodableList_iff l
  | .dict d => by rw [encodable, AllLeaves]; exact encodableDict_iff d
theorem encodableList_iff : ∀ l : List Value, encodableList l = true ↔ AllLeavesList Int64 l
  | [] => by simp [encodableList, AllLeavesList]
  | v :: r => by rw [encodableList, Bool.and_eq_true, AllLeavesList, encodable_iff v, encodableList_iff r]
theorem encodableDict_iff : ∀ d : Dict, encodableDict d = true ↔ AllLeavesDict Int64 d
  | [] => by simp [encodableDict, AllLeavesDict]
  | (k, v) :: r => by rw [encodableDict, Bool.and_eq_true, AllLeavesDict, encodable_iff v, encodableDict_iff r]
end

theorem DiffOp.encodable_iff (o : DiffOp) : o.encodable = true ↔ o.Leaves Int64 := by
  obtain ⟨path, dn, dd, dc, lc, ln, ld⟩ := o
  simp only [DiffOp.encodable, Bool.and_eq_true]
  constructor
  · rintro ⟨⟨⟨h1, h2⟩, h3⟩, h4⟩
    refine ⟨fun d e => ?_, fun d e => ?_, fun d e => ?_, fun d e => ?_⟩
    · dsimp only at e; subst e; exact (encodableDict_iff d).1 h1
    · dsimp only at e; subst e; exact (encodableDict_iff d).1 h2
    · dsimp only at e; subst e; exact fun c hc => (Splitgill.encodable_iff _).1 (List.all_eq_true.1 h3 c hc)
    · dsimp only at e; subst e; exact (encodableList_iff d).1 h4
  · rintro ⟨h1, h2, h3, h4⟩
    refine ⟨⟨⟨?_, ?_⟩, ?_⟩, ?_⟩
    · cases dn with
      | none => rfl
      | some d => exact (encodableDict_iff d).2 (h1 d rfl)
    · cases dc with
      | none => rfl
      | some d => exact (encodableDict_iff d).2 (h2 d rfl)
    · cases lc with
      | none => rfl
      | some d => exact List.all_eq_true.2 fun c hc => (Splitgill.encodable_iff _).2 (h3 d rfl c hc)
    · cases ln with
      | none => rfl
      | some d => exact (encodableList_iff d).2 (h4 d rfl)

/-- The values in a write operation. -/
def MongoOp.Leaves (p : Value → Prop) : MongoOp → Prop
  | .insert _ data => AllLeavesDict p data
  | .setData _ data => AllLeavesDict p data
  | .setDiff _ data _ changes => AllLeavesDict p data ∧ ∀ o ∈ changes, o.Leaves p
  | .revert _ data _ _ => AllLeavesDict p data
  | .delete _ => True

theorem MongoOp.encodable_iff (o : MongoOp) : o.encodable = true ↔ o.Leaves Int64 := by
  cases o with
  | insert id data => exact encodableDict_iff data
  | setData id data => exact encodableDict_iff data
  | setDiff id data v changes =>
    simp only [MongoOp.encodable, MongoOp.Leaves, Bool.and_eq_true, encodableDict_iff, List.all_eq_true, DiffOp.encodable_iff]
  | revert id data v all => exact encodableDict_iff data
  | delete id => simp [MongoOp.encodable, MongoOp.Leaves]

/-! ## Applying operations -/

/-- All documents of a collection. -/
def CollLeaves (p : Value → Prop) (c : Coll) : Prop := ∀ r ∈ c, r.Leaves p

theorem CollLeaves.updateFirst {id : PyStr} {f : MongoRecord → MongoRecord} (hf : ∀ r, r.Leaves p → (f r).Leaves p) :
    ∀ {c : Coll}, CollLeaves p c → CollLeaves p (updateFirst id f c)
  | [], h => h
  | d :: r, h => by
    have hd := h d List.mem_cons_self
    have hr : CollLeaves p r := fun x hx => h x (List.mem_cons_of_mem _ hx)
    rw [Splitgill.updateFirst]
    split
    · exact fun x hx => (List.mem_cons.1 hx).elim (fun e => e ▸ hf d hd) (hr x)
    · exact fun x hx => (List.mem_cons.1 hx).elim (fun e => e ▸ hd) (hr.updateFirst hf x)

theorem CollLeaves.deleteFirst {id : PyStr} : ∀ {c : Coll}, CollLeaves p c → CollLeaves p (deleteFirst id c)
  | [], h => h
  | d :: r, h => by
    have hr : CollLeaves p r := fun x hx => h x (List.mem_cons_of_mem _ hx)
    rw [Splitgill.deleteFirst]
    split
    · exact hr
    · exact fun x hx => (List.mem_cons.1 hx).elim (fun e => e ▸ h d List.mem_cons_self) (hr.deleteFirst x)

theorem CollLeaves.applyOp {c : Coll} (h : CollLeaves p c) {o : MongoOp} (ho : o.Leaves p) : CollLeaves p (applyOp c o) := by
  cases o with
  | insert id data =>
    exact fun x hx => (List.mem_append.1 hx).elim (h x) (fun e => by
      rw [List.mem_singleton] at e
      subst e
      exact ⟨ho, fun _ hm => nomatch hm⟩)
  | setData id data =>
    refine h.updateFirst (fun r hr => ?_)
    exact ⟨ho, hr.diffs⟩
  | setDiff id data v changes =>
    refine h.updateFirst (fun r hr => ⟨ho.1, fun vd hm => ?_⟩)
    rcases mem_aset hm with e | hm
    · subst e; exact ho.2
    · exact hr.diffs vd hm
  | revert id data v all =>
    refine h.updateFirst (fun r hr => ?_)
    refine ⟨ho, fun vd hm => ?_⟩
    dsimp only at hm
    split at hm
    · cases hm
    · exact hr.diffs vd (mem_of_mem_aerase hm)
  | delete id => exact h.deleteFirst

theorem CollLeaves.bulkWrite : ∀ {ops : List MongoOp} {c : Coll}, CollLeaves p c → (∀ o ∈ ops, o.Leaves p) → CollLeaves p (bulkWrite c ops)
  | [], _, h, _ => h
  | o :: ops, c, h, ho => by
    rw [Splitgill.bulkWrite, List.foldl_cons]
    exact CollLeaves.bulkWrite (ops := ops) (h.applyOp (ho o List.mem_cons_self)) (fun o hm => ho o (List.mem_cons_of_mem _ hm))

/-! ## Making operations -/

theorem revertRecord_leaves {r r' : MongoRecord} {o : MongoOp} (h : r.Leaves p) (hr : revertRecord r = .ok (some (r', o))) :
    r'.Leaves p ∧ o.Leaves p := by
  unfold revertRecord at hr
  split at hr
  · cases hr
  · split at hr
    · cases hr
    · split at hr
      · cases hr
      · rename_i ops hg
        split at hr
        · cases hr
        · rename_i data hd
          have := patchDict_leaves (h.diffs _ (aget_mem hg)) h.data hd
          cases hr
          exact ⟨⟨this, fun vd hm => h.diffs vd (mem_of_mem_aerase hm)⟩, this⟩

theorem computeChanges_leaves {mf : Option PyStr} {a b a' : Dict} {ops : List DiffOp} (ha : AllLeavesDict p a) (hb : AllLeavesDict p b)
    (h : computeChanges mf a b = .ok (a', ops)) : AllLeavesDict p a' ∧ ∀ o ∈ ops, o.Leaves p := by
  have plain : ∀ {a b a' : Dict} {ops}, AllLeavesDict p a → AllLeavesDict p b →
      (do .ok (a, ← diffDict a b) : Except PyErr (Dict × List DiffOp)) = .ok (a', ops) → AllLeavesDict p a' ∧ ∀ o ∈ ops, o.Leaves p := by
    intro a b a' ops ha hb h
    cases hd : diffDict a b with
    | error e => rw [hd] at h; cases h
    | ok x => rw [hd] at h; cases h; exact ⟨ha, diffDict_leaves hb hd⟩
  unfold computeChanges at h
  cases mf with
  | none => exact plain ha hb h
  | some m =>
    dsimp only at h
    split at h
    · rename_i nv ev h1 h2
      have ha' : AllLeavesDict p (aerase m a ++ [(m, nv)]) := (ha.aerase m).append ⟨ha.of_get h1, trivial⟩
      have hb' : AllLeavesDict p (aerase m b ++ [(m, ev)]) := (hb.aerase m).append ⟨hb.of_get h2, trivial⟩
      cases hd : diffDict (aerase m a) (aerase m b) with
      | error e => simp only [hd, bind, Except.bind] at h; cases h
      | ok x =>
        simp only [hd, bind, Except.bind] at h
        split at h
        · cases h
          exact ⟨ha', fun _ hm => nomatch hm⟩
        · exact plain ha' hb' h
    · exact plain ha hb h

theorem putBack_leaves {mf : Option PyStr} {a b : Dict} (hb : AllLeavesDict p b) : AllLeavesDict p (putBack mf a b) := by
  unfold putBack
  split
  · exact hb
  · split
    · rename_i h2
      exact (hb.aerase _).append ⟨hb.of_get h2, trivial⟩
    · exact hb

theorem withData_leaves {op : MongoOp} {d : Dict} (ho : op.Leaves p) (hd : AllLeavesDict p d) : (op.withData d).Leaves p := by
  cases op with
  | revert id x v all => exact hd
  | _ => exact ho

theorem opFor_leaves {U : Unicode} {mf : Option PyStr} {ex : Option MongoRecord} {r : Record} {o : MongoOp}
    (hex : ∀ d, ex = some d → d.Leaves p) (hr : AllLeavesDict p (prepareRecordData U r)) (h : opFor U mf ex r = .ok (some o)) : o.Leaves p := by
  cases ex with
  | none =>
    simp only [opFor] at h
    split at h
    · cases h
    · cases h; exact hr
  | some d =>
    have hd := hex d rfl
    simp only [opFor, opForExisting] at h
    split at h
    · split at h
      · cases h; trivial
      · split at h
        · cases h
        · split at h
          · cases h
          · cases h; exact hr
    · split at h
      · cases h
      · rename_i e1 rop hrr
        have key : e1.Leaves p ∧ ∀ op, rop = some op → op.Leaves p := by
          unfold revertIfPending at hrr
          split at hrr
          · cases hrr
          · rename_i x
            cases hrr
            have := revertRecord_leaves hd x
            exact ⟨this.1, fun op e => by cases e; exact this.2⟩
          · cases hrr
            exact ⟨hd, fun op e => nomatch e⟩
        unfold opForCommitted at h
        split at h
        · cases h
        · rename_i nd changes hc
          have hx := computeChanges_leaves hr key.1.data hc
          split at h
          · obtain ⟨op, h1, rfl⟩ := Option.map_eq_some_iff.1 (Except.ok.inj h)
            exact withData_leaves (key.2 op h1) (putBack_leaves key.1.data)
          · split at h
            · cases h; exact hx
            · cases h

theorem lookupExisting_sub {c : Coll} {id : PyStr} {d : MongoRecord} (h : lookupExisting c id = some d) : d ∈ c := by
  unfold lookupExisting at h
  have : ∀ (c : Coll) (acc : Option MongoRecord), c.foldl (fun acc d => if d.id = id then some d else acc) acc = some d → acc = some d ∨ d ∈ c := by
    intro c
    induction c with
    | nil => intro acc h; exact .inl h
    | cons x c ih =>
      intro acc h
      rw [List.foldl_cons] at h
      rcases ih _ h with h | h
      · split at h
        · cases h; exact .inr List.mem_cons_self
        · exact .inl h
      · exact .inr (List.mem_cons_of_mem _ h)
  rcases this c none h with h | h
  · cases h
  · exact h

theorem chunkOps_leaves {U : Unicode} {mf : Option PyStr} {chunk : List Record} {c : Coll} {ops : List MongoOp} (hc : CollLeaves p c)
    (hr : ∀ r ∈ chunk, AllLeavesDict p (prepareRecordData U r)) (h : chunkOps U mf c chunk = .ok ops) : ∀ o ∈ ops, o.Leaves p := by
  intro o ho
  obtain ⟨r, hm, e⟩ := collectOps_mem h o ho
  exact opFor_leaves (fun d hd => hc d (lookupExisting_sub hd)) (hr r (recordsById_mem hm)) e

/-- Everything in the pipeline. -/
structure StateLeaves (p : Value → Prop) (s : IngestState) : Prop where
  coll : CollLeaves p s.coll
  buf : ∀ o ∈ s.buf, o.Leaves p
  written : ∀ o ∈ s.written.flatten, o.Leaves p

theorem StateLeaves.flush {s : IngestState} (h : StateLeaves p s) : StateLeaves p s.flush :=
  ⟨h.coll.bulkWrite h.buf, fun _ hm => (nomatch hm), fun o ho => by
    simp only [IngestState.flush, List.flatten_append, List.flatten_cons, List.flatten_nil, List.append_nil, List.mem_append] at ho
    exact ho.elim (h.written o) (h.buf o)⟩

theorem StateLeaves.feed {size : Nat} : ∀ {ops : List MongoOp} {s : IngestState}, StateLeaves p s → (∀ o ∈ ops, o.Leaves p) →
    StateLeaves p (ops.foldl (feedOp size) s)
  | [], _, h, _ => h
  | o :: ops, s, h, ho => by
    rw [List.foldl_cons]
    refine StateLeaves.feed ?_ (fun o hm => ho o (List.mem_cons_of_mem _ hm))
    have h' : StateLeaves p { s with buf := s.buf ++ [o] } := ⟨h.coll, fun x hx => (List.mem_append.1 hx).elim (h.buf x) (fun e => by
      rw [List.mem_singleton] at e
      subst e
      exact ho x List.mem_cons_self), h.written⟩
    unfold feedOp
    dsimp only
    split
    · exact h'
    · exact h'.flush

theorem ingestLoop_leaves {U : Unicode} {mf : Option PyStr} {size : Nat} : ∀ {chunks : List (List Record)} {s s' : IngestState},
    StateLeaves p s → (∀ ch ∈ chunks, ∀ r ∈ ch, AllLeavesDict p (prepareRecordData U r)) → ingestLoop U mf size s chunks = .ok s' →
    StateLeaves p s'
  | [], s, s', hs, _, h => by
    rw [ingestLoop] at h
    cases h
    split
    · exact hs
    · exact hs.flush
  | ch :: rest, s, s', hs, hr, h => by
    rw [ingestLoop] at h
    cases hc : chunkOps U mf s.coll ch with
    | error e => rw [hc] at h; cases h
    | ok ops =>
      rw [hc] at h
      exact ingestLoop_leaves (hs.feed (chunkOps_leaves hs.coll (hr ch List.mem_cons_self) hc)) (fun c hm => hr c (List.mem_cons_of_mem _ hm)) h

/-- The collection is that after the writes. -/
theorem ingestLoop_coll {U : Unicode} {mf : Option PyStr} {size : Nat} {c : Coll} : ∀ {chunks : List (List Record)} {s s' : IngestState},
    s.coll = bulkWrite c s.written.flatten → ingestLoop U mf size s chunks = .ok s' → s'.coll = bulkWrite c s'.written.flatten
  | [], s, s', hs, h => by
    rw [ingestLoop] at h
    cases h
    split
    · exact hs
    · simp only [IngestState.flush, List.flatten_append, List.flatten_cons, List.flatten_nil, List.append_nil, bulkWrite_append, hs]
  | ch :: rest, s, s', hs, h => by
    rw [ingestLoop] at h
    cases hc : chunkOps U mf s.coll ch with
    | error e => rw [hc] at h; cases h
    | ok ops =>
      rw [hc] at h
      exact ingestLoop_coll (feedOps_spec size c ops s hs).1 h

theorem ingestSized_coll {U : Unicode} {mf : Option PyStr} {size : Nat} {c : Coll} {rs : List Record} {s : IngestState}
    (h : ingestSized U mf size c rs = .ok s) : s.coll = bulkWrite c s.written.flatten := ingestLoop_coll rfl h

theorem mem_partition {α : Type} {l : List α} {n : Nat} {ch : List α} (hn : 1 ≤ n) (h : ch ∈ partition l n) {x : α} (hx : x ∈ ch) : x ∈ l := by
  have := partition_flatten hn l
  rw [← this]
  exact List.mem_flatten.2 ⟨ch, h, hx⟩

theorem ingestSized_leaves {U : Unicode} {mf : Option PyStr} {c : Coll} {rs : List Record} {s : IngestState} (hc : CollLeaves p c)
    (hr : ∀ r ∈ rs, AllLeavesDict p (prepareRecordData U r)) (h : ingestSized U mf 200 c rs = .ok s) : ∀ o ∈ s.written.flatten, o.Leaves p :=
  (ingestLoop_leaves ⟨hc, by simp, by simp⟩ (fun _ hch r hm => hr r (mem_partition (by decide) hch hm)) h).written

/-! ## Writing -/

theorem writeLists_ok {sent : Nat} : ∀ {lists : List (List MongoOp)} {c : Coll}, (∀ o ∈ lists.flatten, o.encodable = true) →
    writeLists sent c lists = (lists.foldl bulkWrite c, true)
  | [], _, _ => rfl
  | ops :: rest, c, h => by
    rw [writeLists, if_pos, List.foldl_cons]
    · exact writeLists_ok (fun o ho => h o (by simp only [List.flatten_cons, List.mem_append]; exact .inr ho))
    · exact List.all_eq_true.2 fun o ho => h o (by simp only [List.flatten_cons, List.mem_append]; exact .inl ho)

theorem foldl_bulkWrite : ∀ (lists : List (List MongoOp)) (c : Coll), lists.foldl bulkWrite c = bulkWrite c lists.flatten
  | [], _ => rfl
  | ops :: rest, c => by rw [List.foldl_cons, foldl_bulkWrite rest, List.flatten_cons, bulkWrite_append]

theorem mem_takeWhile {α : Type} {f : α → Bool} {x : α} : ∀ {l : List α}, x ∈ l.takeWhile f → f x = true
  | a :: l, h => by
    rw [List.takeWhile_cons] at h
    split at h
    · rename_i ha
      exact (List.mem_cons.1 h).elim (fun e => e ▸ ha) mem_takeWhile
    · cases h

theorem take_prefix {α : Type} {n : Nat} {w t l rest : List α} (h : w ++ t = l) : w.take n = (l ++ rest).take (min n w.length) := by
  subst h
  rw [List.append_assoc, List.take_append_of_le_length (Nat.min_le_right ..), List.take_eq_take_min]

theorem writeLists_spec (sent : Nat) : ∀ (lists : List (List MongoOp)) (c : Coll),
    ((writeLists sent c lists).2 = true ↔ ∀ o ∈ lists.flatten, o.encodable = true) ∧
    ∃ n, (writeLists sent c lists).1 = bulkWrite c (lists.flatten.take n) ∧ ∀ o ∈ lists.flatten.take n, o.encodable = true
  | [], c => ⟨by simp [writeLists], 0, rfl, fun _ hm => nomatch hm⟩
  | ops :: rest, c => by
    rw [writeLists]
    split
    · rename_i h
      rw [List.all_eq_true] at h
      obtain ⟨h1, n, h2, h3⟩ := writeLists_spec sent rest (bulkWrite c ops)
      refine ⟨?_, ops.length + n, ?_, ?_⟩
      · rw [h1]
        simp only [List.flatten_cons, List.mem_append]
        exact ⟨fun g o ho => ho.elim (h o) (g o), fun g o ho => g o (.inr ho)⟩
      · rw [h2, List.flatten_cons, List.take_length_add_append, bulkWrite_append]
      · intro o ho
        rw [List.flatten_cons, List.take_length_add_append, List.mem_append] at ho
        exact ho.elim (h o) (h3 o)
    · rename_i h
      refine ⟨⟨fun g => (nomatch g), fun g => absurd (List.all_eq_true.2 fun o ho => g o (by
        simp only [List.flatten_cons, List.mem_append]; exact .inl ho)) h⟩, ?_⟩
      obtain ⟨t, ht⟩ := List.takeWhile_prefix (l := ops) MongoOp.encodable
      refine ⟨min sent (ops.takeWhile MongoOp.encodable).length, ?_, ?_⟩
      · dsimp only
        congr 1
        rw [List.flatten_cons]
        exact take_prefix ht
      · intro o ho
        have : o ∈ ops.takeWhile MongoOp.encodable := by
          rw [List.flatten_cons, ← take_prefix ht] at ho
          exact List.mem_of_mem_take ho
        exact mem_takeWhile this

theorem rollbackOps_leaves : ∀ {c : Coll} {ops : List MongoOp}, CollLeaves p c → rollbackOps c = .ok ops → ∀ o ∈ ops, o.Leaves p
  | [], ops, _, h => by cases h; exact fun _ hm => nomatch hm
  | d :: c, ops, hc, h => by
    rw [rollbackOps] at h
    cases h1 : rollbackOp d with
    | error e => rw [h1] at h; cases h
    | ok op =>
      cases h2 : rollbackOps c with
      | error e => rw [h1, h2] at h; cases h
      | ok os =>
        rw [h1, h2] at h
        cases h
        intro o ho
        rcases List.mem_append.1 ho with ho | ho
        · rw [Option.mem_toList] at ho
          cases ho
          unfold rollbackOp at h1
          split at h1
          · cases h1
          · split at h1
            · cases h1; trivial
            · cases hr : revertRecord d with
              | error e => rw [hr] at h1; cases h1
              | ok x =>
                rw [hr] at h1
                cases x with
                | none => cases h1
                | some y =>
                  cases h1
                  exact (revertRecord_leaves (hc d List.mem_cons_self) hr).2
        · exact rollbackOps_leaves (fun x hx => hc x (List.mem_cons_of_mem _ hx)) h2 o ho

theorem CollLeaves.commitColl {c : Coll} (h : CollLeaves p c) (v : Int) : CollLeaves p (commitColl v c) := by
  intro r hr
  obtain ⟨d, hd, e⟩ := List.mem_map.1 hr
  have := h d hd
  split at e <;> subst e
  · exact ⟨this.data, this.diffs⟩
  · exact this

theorem commit_leaves {db : PyStr} {clock : Int} {m : Mongo} (h : CollLeaves p (m.data db)) : CollLeaves p ((commit db clock m).2.data db) := by
  by_cases hl : db ∈ m.locks
  · rw [commit_locked hl]; exact h
  · rw [commit_eq hl]
    split
    · show CollLeaves p ((m.setData db _).data db)
      rw [setData_data]
      exact h.commitColl clock
    · exact h

theorem updateOptionsNoCommit_data (db : PyStr) (o : ParsingOptions) (m : Mongo) : (updateOptionsNoCommit db o m).data = m.data := by
  unfold updateOptionsNoCommit
  dsimp only
  split <;> split <;> rfl

/-- A call that does not write data. -/
theorem run_leaves {U : Unicode} {db : PyStr} {m : Mongo} {c : ApiCall} (hi : ∀ mf rs dc cl, c ≠ .ingest mf rs dc cl) (hr : c ≠ .rollbackRecords)
    (h : CollLeaves p (m.data db)) : CollLeaves p ((c.run U db m).2.data db) := by
  cases c with
  | ingest mf rs dc cl => exact absurd rfl (hi mf rs dc cl)
  | commit clock => exact commit_leaves h
  | updateOptions o dc clock =>
    have hu : CollLeaves p ((updateOptionsNoCommit db o m).data db) := by rw [updateOptionsNoCommit_data]; exact h
    simp only [ApiCall.run, updateOptions]
    split
    · exact hu
    · split
      · exact commit_leaves hu
      · exact hu
  | rollbackOptions => exact h
  | rollbackRecords => exact absurd rfl hr

/-- What a call does, with documents that are storable: it does what it does without the limit, or it raises and is as a call that was
stopped. -/
theorem store_spec (U : Unicode) (db : PyStr) (sent : Nat) {m : Mongo} (hm : CollLeaves Int64 (m.data db)) (c : ApiCall) :
    CollLeaves Int64 ((c.store U db sent m).2.data db) ∧
    ∃ st, StoredAs c st ∧ (c.store U db sent m).2 = st.run U db m ∧
      ((c.store U db sent m).1 ≠ .error .overflow → st = .call c ∧ ∀ ret, (c.store U db sent m).1 = .ok ret ↔ (c.run U db m).1 = .ok ret) := by
  have other : ∀ c : ApiCall, (∀ mf rs dc cl, c ≠ .ingest mf rs dc cl) → c ≠ .rollbackRecords →
      c.store U db sent m = (match c.run U db m with | (.ok v, m) => (.ok v, m) | (.error e, m) => (.error (.api e), m)) →
      CollLeaves Int64 ((c.store U db sent m).2.data db) ∧ ∃ st, StoredAs c st ∧ (c.store U db sent m).2 = st.run U db m ∧
      ((c.store U db sent m).1 ≠ .error .overflow → st = .call c ∧ ∀ ret, (c.store U db sent m).1 = .ok ret ↔ (c.run U db m).1 = .ok ret) := by
    intro c h1 h2 e
    have h3 : (c.store U db sent m).2 = (c.run U db m).2 := by
      rw [e]; rcases c.run U db m with ⟨_ | _, _⟩ <;> rfl
    refine ⟨by rw [h3]; exact run_leaves h1 h2 hm, .call c, .inl rfl, h3, fun _ => ⟨rfl, fun ret => ?_⟩⟩
    rw [e]
    rcases c.run U db m with ⟨_ | _, _⟩
    · exact ⟨fun h => (nomatch h), fun h => (nomatch h)⟩
    · exact ⟨fun h => by cases h; rfl, fun h => by cases h; rfl⟩
  cases c with
  | ingest mf rs dc clock =>
    cases hs : ingestSized U mf 200 (m.data db) rs with
    | error e =>
      have e1 : ApiCall.store U db sent m (.ingest mf rs dc clock) = (.error (.api (.py e)), m) := by simp only [ApiCall.store, hs]
      have e2 : ApiCall.run U db m (.ingest mf rs dc clock) = (.error (.py e), m) := by
        simp only [ApiCall.run, Splitgill.ingest, hs, bind, Except.bind]
      refine ⟨by rw [e1]; exact hm, .call _, .inl rfl, by rw [e1, Step.run, e2], fun _ => ⟨rfl, fun ret => ?_⟩⟩
      rw [e1, e2]
      exact ⟨fun h => (nomatch h), fun h => (nomatch h)⟩
    | ok s =>
      obtain ⟨h1, n, h2, h3⟩ := writeLists_spec sent s.written (m.data db)
      have hl : CollLeaves Int64 (writeLists sent (m.data db) s.written).1 := by
        rw [h2]; exact hm.bulkWrite fun o ho => (MongoOp.encodable_iff o).1 (h3 o ho)
      cases hw : writeLists sent (m.data db) s.written with
      | mk c b =>
        rw [hw] at h1 h2 hl
        cases b with
        | false =>
          have e1 : ApiCall.store U db sent m (.ingest mf rs dc clock) = (.error .overflow, m.setData db c) := by
            simp only [ApiCall.store, hs, hw]
          refine ⟨by rw [e1]; show CollLeaves Int64 ((m.setData db c).data db); rw [setData_data]; exact hl,
            .ingestStops mf rs n, .inr ⟨mf, rs, dc, clock, n, rfl, rfl⟩, ?_, fun h => absurd (by rw [e1]) h⟩
          rw [e1]
          simp only [Step.run, Splitgill.ingestCrash, hs, bind, Except.bind]
          rw [← h2]
        | true =>
          have hall := h1.1 rfl
          have hc : c = s.coll := by
            have := writeLists_ok (sent := sent) (c := m.data db) hall
            rw [hw] at this
            rw [ingestSized_coll hs, ← foldl_bulkWrite]
            exact congrArg Prod.fst this
          have e2 : Splitgill.ingest U mf (m.data db) rs = .ok c := by
            simp only [Splitgill.ingest, hs, bind, Except.bind, hc]
          have hl' : CollLeaves Int64 ((m.setData db c).data db) := by rw [setData_data]; exact hl
          cases dc with
          | false =>
            have e1 : ApiCall.store U db sent m (.ingest mf rs false clock) = (.ok none, m.setData db c) := by
              simp only [ApiCall.store, hs, hw, Bool.false_eq_true, if_false]
            have e3 : ApiCall.run U db m (.ingest mf rs false clock) = (.ok none, m.setData db c) := by
              simp only [ApiCall.run, e2, Bool.false_eq_true, if_false]
            refine ⟨by rw [e1]; exact hl', .call _, .inl rfl, by rw [e1, Step.run, e3], fun _ => ⟨rfl, fun ret => ?_⟩⟩
            rw [e1, e3]
            exact ⟨fun h => by cases h; rfl, fun h => by cases h; rfl⟩
          | true =>
            have e1 : ApiCall.store U db sent m (.ingest mf rs true clock) =
                match Splitgill.commit db clock (m.setData db c) with | (.ok v, m) => (.ok v, m) | (.error e, m) => (.error (.api e), m) := by
              simp only [ApiCall.store, hs, hw, if_true]
              rcases Splitgill.commit db clock (m.setData db c) with ⟨_ | _, _⟩ <;> rfl
            have e3 : ApiCall.run U db m (.ingest mf rs true clock) = Splitgill.commit db clock (m.setData db c) := by
              simp only [ApiCall.run, e2, if_true]
            have h5 : (ApiCall.store U db sent m (.ingest mf rs true clock)).2 = (Splitgill.commit db clock (m.setData db c)).2 := by
              rw [e1]; rcases Splitgill.commit db clock (m.setData db c) with ⟨_ | _, _⟩ <;> rfl
            refine ⟨by rw [h5]; exact commit_leaves hl', .call _, .inl rfl, by rw [h5, Step.run, e3], fun _ => ⟨rfl, fun ret => ?_⟩⟩
            rw [e1, e3]
            rcases Splitgill.commit db clock (m.setData db c) with ⟨_ | _, _⟩
            · exact ⟨fun h => (nomatch h), fun h => (nomatch h)⟩
            · exact ⟨fun h => by cases h; rfl, fun h => by cases h; rfl⟩
  | rollbackRecords =>
    by_cases hu : hasUncommittedData (m.data db) = true
    · cases ho : rollbackOps (m.data db) with
      | error e =>
        have e1 : ApiCall.store U db sent m .rollbackRecords = (.error (.api (.py e)), m) := by simp only [ApiCall.store, hu, if_true, ho]
        have e2 : ApiCall.run U db m .rollbackRecords = (.error (.py e), m) := by
          simp only [ApiCall.run, Splitgill.rollbackRecords, hu, if_true, ho]
        refine ⟨by rw [e1]; exact hm, .call _, .inl rfl, by rw [e1, Step.run, e2], fun _ => ⟨rfl, fun ret => ?_⟩⟩
        rw [e1, e2]
        exact ⟨fun h => (nomatch h), fun h => (nomatch h)⟩
      | ok ops =>
        have hle := rollbackOps_leaves hm ho
        have hfl : (partition ops 200).flatten = ops := partition_flatten (by decide) ops
        have hall : ∀ o ∈ (partition ops 200).flatten, o.encodable = true := fun o h => (MongoOp.encodable_iff o).2 (hle o (hfl ▸ h))
        have hw := writeLists_ok (sent := sent) (c := m.data db) hall
        have e1 : ApiCall.store U db sent m .rollbackRecords = (.ok none, m.setData db ((partition ops 200).foldl bulkWrite (m.data db))) := by
          simp only [ApiCall.store, hu, if_true, ho, hw]
        have e2 : ApiCall.run U db m .rollbackRecords = (.ok none, m.setData db ((partition ops 200).foldl bulkWrite (m.data db))) := by
          simp only [ApiCall.run, Splitgill.rollbackRecords, hu, if_true, ho]
        refine ⟨?_, .call _, .inl rfl, by rw [e1, Step.run, e2], fun _ => ⟨rfl, fun ret => ?_⟩⟩
        · rw [e1]
          show CollLeaves Int64 ((m.setData db _).data db)
          rw [setData_data, foldl_bulkWrite, hfl]
          exact hm.bulkWrite hle
        · rw [e1, e2]
          exact ⟨fun h => by cases h; rfl, fun h => by cases h; rfl⟩
    · have e1 : ApiCall.store U db sent m .rollbackRecords = (.ok none, m) := by simp only [ApiCall.store, hu, Bool.false_eq_true, if_false]
      have e2 : ApiCall.run U db m .rollbackRecords = (.ok none, m.setData db (m.data db)) := by
        simp only [ApiCall.run, Splitgill.rollbackRecords, hu, Bool.false_eq_true, if_false]
      refine ⟨by rw [e1]; exact hm, .call _, .inl rfl, by rw [e1, Step.run, e2, setData_self], fun _ => ⟨rfl, fun ret => ?_⟩⟩
      rw [e1, e2]
      exact ⟨fun h => by cases h; rfl, fun h => by cases h; rfl⟩
  | commit clock => exact other _ (fun _ _ _ _ h => nomatch h) (fun h => nomatch h) rfl
  | updateOptions o dc clock => exact other _ (fun _ _ _ _ h => nomatch h) (fun h => nomatch h) rfl
  | rollbackOptions => exact other _ (fun _ _ _ _ h => nomatch h) (fun h => nomatch h) rfl

end Splitgill
