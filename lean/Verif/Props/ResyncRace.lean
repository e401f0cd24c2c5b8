import Verif.Proof.Resync3
import Verif.Props.SyncRace2
/-!
# C121: resyncs while others ingest and commit

`b` is a resync, with the calls before it and those that others make while it runs. `es` are the indices before it: whatever earlier syncs,
disturbed, interrupted or wrong, left there (`C121_tidy`). `es'` are the indices after it; `es0` those after one sync, into new indices and
with nobody writing, of the database as it was when the resync started. Records are read one after the other, each as it is in any of the
states during the resync.
-/

namespace Splitgill.Props
open Splitgill

/-- C121 in full: whatever others do during a `sync(resync=True)`, afterwards searches at the versions up to its start find what was
committed at its start, of every record that was not deleted and had nothing uncommitted then. -/
def C121_full : Prop :=
  ∀ (E : ParseEnv) (U : Unicode) (maxDocs : Nat) (db : PyStr) (b : BusySync) (es es' es0 : ES (Option ParsedData)),
    E.IgnoresOrder → U.Sane → Orderly b.calls → (∃ v, IsVersion (afterCalls U db b.before) db v) →
    (∀ sel, Scanned db (b.long U db []).during sel (b.cursor sel)) → TidyLatest es →
    resyncOver (realParser E) maxDocs db (afterCalls U db b.before) b.cursor es = .ok es' →
    sync (realParser E) maxDocs db false (afterCalls U db b.before) [] = .ok es0 →
    ∀ id, (∃ r ∈ (afterCalls U db b.before).data db, r.id = id ∧ r.version ≠ none) →
      ¬ DeletedNow (histOf ((afterCalls U db b.before).data db) id) →
      NoPunsAmong U ((b.calls.flatMap ApiCall.stream).filter (fun r => decide (r.id = id))) →
      ∀ t v, (b.before.filterMap ApiCall.clock?).getLast? = some t → v ≤ t → foundData es' v id = foundData es0 v id

/-- `a` and `b`, at 1, and both changed at 2. -/
def exRepair : List ApiCall := [.ingest none [exRec ['a'] 1, exRec ['b'] 1] true 1, .ingest none [exRec ['a'] 2, exRec ['b'] 2] true 2]

/-- Someone changes `a` while the resync runs, and it is read after that. -/
def exRepairLost : BusySync where
  before := exRepair
  meanwhile := [.ingest none [exRec ['a'] 3] false 3]
  cursor sel := ((exDbOf (exRepair ++ [.ingest none [exRec ['a'] 3] false 3])).data ['x']).filter sel

/-- The indices after a sync of the database at 2. -/
def exRepairEs : ES (Option ParsedData) :=
  match sync (realParser exEnv') 10 ['x'] false (exDbOf exRepair) [] with
  | .ok es => es
  | .error _ => []

set_option maxRecDepth 100000 in
theorem exRepair_ok : Orderly exRepairLost.calls ∧ (∃ v, IsVersion (afterCalls asciiU ['x'] exRepairLost.before) ['x'] v) ∧
    (∀ sel, Scanned ['x'] (exRepairLost.long asciiU ['x'] []).during sel (exRepairLost.cursor sel)) := by
  refine ⟨⟨by decide, ?_⟩, ⟨1, .inl (by decide)⟩, fun sel => ?_⟩
  · intro c hc
    simp [exRepairLost, BusySync.calls, exRepair] at hc
    rcases hc with rfl | rfl | rfl <;> unfold NoSpan <;> decide
  · refine scanned_picks ?_ ?_ ?_ ?_ sel
    · have : ∀ m ∈ (exRepairLost.long asciiU ['x'] []).during, ((m.data ['x']).map MongoRecord.id).Nodup := by decide +kernel
      exact this
    · decide
    · exact fun r hr => ⟨_, by simp [LongSync.during, BusySync.long, statesOf, exRepairLost]; exact .inr rfl, hr⟩
    · exact ⟨_, by simp [LongSync.during, BusySync.long, statesOf, exRepairLost]; exact .inr rfl, fun r hr => List.mem_map_of_mem hr⟩

theorem exRepair_tidy : TidyLatest exRepairEs := by
  have h : LatestOk exRepairEs ∧ ∀ x ∈ exRepairEs.docs .latest, x.1 = some x.2.id ∧ x.2.version = x.2.gte ∧ x.2.lt = none ∧ x.2.next = none :=
    ⟨⟨by decide +kernel, by decide +kernel, by decide +kernel⟩, by decide +kernel⟩
  exact ⟨h.1, fun id d hd => by
    obtain ⟨h1, h2⟩ := h.2 _ hd
    exact ⟨(Option.some.inj h1).symm, h2⟩⟩

set_option maxRecDepth 100000 in
/-- **C121 does not hold in full**: the resync deletes all archives, and does not read `a`, which has uncommitted changes when the cursor
comes to it: so the data of `a` at 1, which was in the archives before, is found no longer. -/
theorem C121_refuted : ¬ C121_full := by
  intro h
  obtain ⟨h1, h2, h3⟩ := exRepair_ok
  have e : (match resyncOver (realParser exEnv') 10 ['x'] (afterCalls asciiU ['x'] exRepairLost.before) exRepairLost.cursor exRepairEs,
      sync (realParser exEnv') 10 ['x'] false (afterCalls asciiU ['x'] exRepairLost.before) [] with
    | .ok es', .ok es0 => decide (foundData es' 1 ['a'] = [] ∧ (foundData es0 1 ['a']).length = 1)
    | _, _ => false) = true := by decide +kernel
  cases he : resyncOver (realParser exEnv') 10 ['x'] (afterCalls asciiU ['x'] exRepairLost.before) exRepairLost.cursor exRepairEs with
  | error x => rw [he] at e; cases e
  | ok es' =>
    cases h0 : sync (realParser exEnv') 10 ['x'] false (afterCalls asciiU ['x'] exRepairLost.before) [] with
    | error x => rw [he, h0] at e; cases e
    | ok es0 =>
      rw [he, h0] at e
      simp only [decide_eq_true_eq] at e
      have := h exEnv' asciiU 10 ['x'] exRepairLost exRepairEs es' es0 exEnv'_order asciiU_sane h1 h2 h3 exRepair_tidy he h0 ['a']
        (by decide) (by
          rintro ⟨v, hv⟩
          have : ((histOf ((afterCalls asciiU ['x'] exRepairLost.before).data ['x']) ['a']).head?.map (fun x => x.2.isEmpty)) = some false := by decide
          rw [hv] at this
          cases this) (by apply noPuns_of_flat <;> decide +kernel) 2 1 (by decide) (by decide)
      rw [e.1] at this
      rw [← this] at e
      exact absurd e.2 (by decide)

/-- **C121**: the resync succeeds whatever others do. Of every record that it reads, though perhaps with changes that others committed
meanwhile, searches at the versions up to the start of the resync find what was committed then: the same version and data. Missing: records
that it does not read, because they have uncommitted changes when the cursor comes to them, see `C121_refuted`, and deleted records, see
C32. -/
theorem C121_partial (E : ParseEnv) (hE : E.IgnoresOrder) (U : Unicode) (hU : U.Sane) (maxDocs : Nat) (db : PyStr) (b : BusySync)
    (ho : Orderly b.calls) (hv : ∃ v, IsVersion (afterCalls U db b.before) db v)
    (hr : ∀ sel, Scanned db (b.long U db []).during sel (b.cursor sel)) (es : ES (Option ParsedData)) (he : TidyLatest es) :
    ∃ es' es0, resyncOver (realParser E) maxDocs db (afterCalls U db b.before) b.cursor es = .ok es' ∧
      sync (realParser E) maxDocs db false (afterCalls U db b.before) [] = .ok es0 ∧
      ∀ id, ReadRecord U db b id → ∀ t v, (b.before.filterMap ApiCall.clock?).getLast? = some t → v ≤ t →
        foundData es' v id = foundData es0 v id := by
  have hq := BusySync.busy ho hv hr
  have hm := hq.dbOk _ (List.mem_cons_self : (b.long U db []).start ∈ (b.long U db []).during)
  obtain ⟨es0, h0, _⟩ := C30_first_sync (realParser E) maxDocs db _ hm
  cases hd : hasData db (b.long U db []).start with
  | false =>
    refine ⟨es, es0, ?_, h0, fun id h => ?_⟩
    · unfold resyncOver
      rw [← BusySync.start_eq, hd]; rfl
    · obtain ⟨r, hr, _, hv⟩ := h.committed
      have : hasData db (b.long U db []).start = true := List.any_eq_true.2 ⟨r, hr, Option.isSome_iff_ne_none.2 hv⟩
      rw [hd] at this; cases this
  | true =>
    obtain ⟨es', _, _, h1, _⟩ := resyncOver_effect hq (realParser E) maxDocs he hd
    refine ⟨es', es0, h1, h0, fun id h t v ht hvt => ?_⟩
    have hR := realParser_respects (E := E) hE (fun _ => placesOf U _ h.noPuns id)
    have hX : ∀ a b o, DEq ((classFor id (placesOf U _ h.noPuns id) id).named) a b → (realParser E).parse a o = (realParser E).parse b o := by
      rw [classFor_self]
      exact fun a b o => hR.named id a b o
    have hf : ∀ c ∈ b.calls, Fits (fun i => (classFor id (placesOf U _ h.noPuns id) i).named) U c.stream := fun c hc =>
      fits_classFor hU id h.noPuns (fun r hr => List.mem_flatMap.2 ⟨c, hc, hr⟩)
    exact resyncOver_grown hq he h1 h0 h.committed h.read h.notDeleted (BusySync.laterFor hX hf ho hv ht) hvt

/-- `a` is changed and that is committed at 3 while the resync runs, and it is read after that; `b` is read before. -/
def exRepairRead : BusySync where
  before := exRepair
  meanwhile := [.ingest none [exRec ['a'] 3] false 3, .commit 3]
  cursor sel := (((exDbOf (exRepair ++ [.ingest none [exRec ['a'] 3] false 3, .commit 3])).data ['x']).filter (fun r => decide (r.id = ['a'])) ++
    ((exDbOf exRepair).data ['x']).filter (fun r => decide (r.id = ['b']))).filter sel

set_option maxRecDepth 100000 in
theorem exRepairRead_ok : Orderly exRepairRead.calls ∧ (∃ v, IsVersion (afterCalls asciiU ['x'] exRepairRead.before) ['x'] v) ∧
    (∀ sel, Scanned ['x'] (exRepairRead.long asciiU ['x'] []).during sel (exRepairRead.cursor sel)) := by
  refine ⟨⟨by decide, ?_⟩, ⟨1, .inl (by decide)⟩, fun sel => ?_⟩
  · intro c hc
    simp [exRepairRead, BusySync.calls, exRepair] at hc
    rcases hc with rfl | rfl | rfl | rfl <;> unfold NoSpan <;> decide
  · refine scanned_picks ?_ ?_ ?_ ?_ sel
    · have : ∀ m ∈ (exRepairRead.long asciiU ['x'] []).during, ((m.data ['x']).map MongoRecord.id).Nodup := by decide +kernel
      exact this
    · decide
    · intro r hr
      rcases List.mem_append.1 hr with hr | hr
      · exact ⟨exDbOf (exRepair ++ [.ingest none [exRec ['a'] 3] false 3, .commit 3]),
          by simp [LongSync.during, BusySync.long, statesOf, exRepairRead]; exact .inr (.inr rfl), (List.mem_filter.1 hr).1⟩
      · exact ⟨exDbOf exRepair, List.mem_cons_self, (List.mem_filter.1 hr).1⟩
    · exact ⟨exDbOf exRepair, List.mem_cons_self, by decide⟩

set_option maxRecDepth 100000 in
/-- The conditions hold for `a` and `b`, with indices whose archives are lost: before, `a` and `b` are not found at 1, afterwards they are. -/
example : TidyLatest exRepairEs.deleteArcs ∧ ReadRecord asciiU ['x'] exRepairRead ['a'] ∧ CommittedUntouched asciiU ['x'] exRepairRead ['b'] ∧
    ¬ DeletedNow (histOf ((afterCalls asciiU ['x'] exRepairRead.before).data ['x']) ['b']) ∧
    (exRepairRead.before.filterMap ApiCall.clock?).getLast? = some 2 ∧
    (foundData exRepairEs.deleteArcs 1 ['a']).isEmpty ∧ (foundData exRepairEs.deleteArcs 1 ['b']).isEmpty ∧
    (match resyncOver (realParser exEnv') 10 ['x'] (afterCalls asciiU ['x'] exRepairRead.before) exRepairRead.cursor exRepairEs.deleteArcs with
      | .ok es' => decide ((foundData es' 1 ['a']).map (fun d => d.2.map (fun p => rebuildData p.parsed)) =
          [some [("_id".toList, .str ['a']), (['x'], .int 1)]] ∧
          (foundData es' 2 ['a']).map (fun d => d.2.map (fun p => rebuildData p.parsed)) = [some [("_id".toList, .str ['a']), (['x'], .int 2)]] ∧
          (foundData es' 3 ['a']).map (fun d => d.2.map (fun p => rebuildData p.parsed)) = [some [("_id".toList, .str ['a']), (['x'], .int 3)]] ∧
          (foundData es' 1 ['b']).map Prod.fst = [1] ∧ (foundData es' 2 ['b']).map Prod.fst = [2])
      | .error _ => false) = true := by
  have hnd : ∀ m ∈ (exRepairRead.long asciiU ['x'] []).during, ∀ id ∈ [['a'], ['b']],
      ((histOf (m.data ['x']) id).head?.map (fun x => x.2.isEmpty)) = some false := by decide +kernel
  have hnd' : ∀ m ∈ (exRepairRead.long asciiU ['x'] []).during, ∀ id ∈ [['a'], ['b']], ¬ DeletedNow (histOf (m.data ['x']) id) := by
    rintro m hm id hid ⟨v, hv⟩
    have := hnd m hm id hid
    rw [hv] at this
    cases this
  refine ⟨exRepair_tidy.deleteArcs, ⟨by decide, by decide +kernel, fun m hm => hnd' m hm _ (by simp), by apply noPuns_of_flat <;> decide +kernel⟩,
    ⟨by decide, by decide⟩, hnd' _ List.mem_cons_self _ (by simp), by decide, by decide +kernel, by decide +kernel, by decide +kernel⟩

/-- **C121** for records that nobody ingests during the resync and that are not deleted: every search and every query, at every version, finds
the same as if nobody had disturbed the resync and the indices had been new. -/
theorem C121_each {P : Type} (X : Parser P) (U : Unicode) (maxDocs : Nat) (db : PyStr) (b : BusySync)
    (ho : Orderly b.calls) (hv : ∃ v, IsVersion (afterCalls U db b.before) db v)
    (hr : ∀ sel, Scanned db (b.long U db []).during sel (b.cursor sel)) (es : ES P) (he : TidyLatest es)
    (hd : ∃ r ∈ (afterCalls U db b.before).data db, r.version ≠ none) :
    ∃ es' es0, resyncOver X maxDocs db (afterCalls U db b.before) b.cursor es = .ok es' ∧
      sync X maxDocs db false (afterCalls U db b.before) [] = .ok es0 ∧
      ∀ id, CommittedUntouched U db b id → ¬ DeletedNow (histOf ((afterCalls U db b.before).data db) id) →
        ∀ v, foundFor es' (.version v) id = foundFor es0 (.version v) id := by
  have hq := BusySync.busy ho hv hr
  have hm := hq.dbOk _ (List.mem_cons_self : (b.long U db []).start ∈ (b.long U db []).during)
  obtain ⟨es0, h0, _⟩ := C30_first_sync X maxDocs db _ hm
  have hd : hasData db (b.long U db []).start = true := by
    obtain ⟨r, h1, h2⟩ := hd
    exact List.any_eq_true.2 ⟨r, h1, Option.isSome_iff_ne_none.2 h2⟩
  obtain ⟨es', _, _, h1, _⟩ := resyncOver_effect hq X maxDocs he hd
  refine ⟨es', es0, h1, h0, fun id h hnd v => ?_⟩
  obtain ⟨g1, g2⟩ := BusySync.untouched hq h
  exact resyncOver_same hq he hd h1 h0 g2 g1 (.inl ⟨hm.hist_ne h.committed, hnd⟩) v

/-- **C121** for `resync_arcs()`: it succeeds whatever others do, and leaves the latest index as it is. Of every record that nobody ingests
meanwhile, and that the latest index has as it should, every search finds the same as if the indices had been new. -/
theorem C121_arcs {P : Type} (X : Parser P) (U : Unicode) (maxDocs : Nat) (db : PyStr) (b : BusySync)
    (ho : Orderly b.calls) (hv : ∃ v, IsVersion (afterCalls U db b.before) db v)
    (hr : ∀ sel, Scanned db (b.long U db []).during sel (b.cursor sel)) (es : ES P) (he : TidyLatest es) :
    ∃ es' es0, resyncArcsOver X maxDocs db (afterCalls U db b.before) b.cursor es = .ok es' ∧
      sync X maxDocs db false (afterCalls U db b.before) [] = .ok es0 ∧ es'.docs .latest = es.docs .latest ∧
      ∀ id, CommittedUntouched U db b id → (∀ d, (some id, d) ∈ es.docs .latest ↔ (some id, d) ∈ es0.docs .latest) →
        ∀ v, foundFor es' (.version v) id = foundFor es0 (.version v) id := by
  have hq := BusySync.busy ho hv hr
  have hm := hq.dbOk _ (List.mem_cons_self : (b.long U db []).start ∈ (b.long U db []).during)
  obtain ⟨es0, t0, k1, k2, _, k4⟩ := first_sync_each hm X maxDocs
  obtain ⟨es', m, g1, g2, g3, g4, g5⟩ := resyncArcsOver_effect hq X maxDocs es
  refine ⟨es', es0, g1, k1, g3, fun id h hl v => ?_⟩
  obtain ⟨hp, hs⟩ := BusySync.untouched hq h
  obtain ⟨hp', hD⟩ := g2.same (X := X) hq hs hp
  have hok : TidyLatest es' := by
    have g1' := g1
    unfold resyncArcsOver at g1'
    dsimp only at g1'
    split at g1'
    · cases g1'
    · rename_i ops arc' hg
      cases g1'
      exact he.deleteArcs.applyOps (fun op hop => generateOps_tidy hg op (List.mem_filter.1 hop).1)
  obtain ⟨t, hs'⟩ := sound_of hok.ok (fun id d hd => hok.latestOf hd) g4
  have hlat : es'.latestOf id = es0.latestOf id := by
    have e1 : es'.latestOf id = es.latestOf id := by unfold ES.latestOf; rw [g3]
    rw [e1]
    apply Option.ext
    intro d
    have a1 := aget_iff_mem (k := some id) (v := d) he.ok.nodup
    have a2 := aget_iff_mem (k := some id) (v := d) k2.ok.nodup
    exact a1.trans ((hl d).trans a2.symm)
  have hh : HoldsFor es' id (recDocs X (committedOptionsOf db (b.long U db []).start) ((b.long U db []).start.data db) id) := by
    refine ⟨hlat.trans (k4 id hp).latest, ?_⟩
    rw [← hD]
    exact g5 id hp'
  exact perm_le_one (hh.found hs' (hm.good X id) v) ((k4 id hp).found k2 (hm.good X id) v) (hm.found_le X id v)

/-- The condition on the latest index holds for indices whose archives are lost. -/
example : sync (realParser exEnv') 10 ['x'] false (afterCalls asciiU ['x'] exRepairRead.before) [] = .ok exRepairEs ∧
    (∀ d, (some ['b'], d) ∈ exRepairEs.deleteArcs.docs .latest ↔ (some ['b'], d) ∈ exRepairEs.docs .latest) ∧
    ((exRepairEs.docs .latest).map Prod.fst).contains (some ['b']) = true ∧ exRepairEs.archived.length = 2 ∧
    exRepairEs.deleteArcs.archived = [] := by
  refine ⟨?_, fun d => by rw [deleteArcs_docs], by decide +kernel, by decide +kernel, deleteArcs_archived _⟩
  have e : exRepairRead.before = exRepair := rfl
  rw [e]
  unfold exRepairEs
  have hok : (sync (realParser exEnv') 10 ['x'] false (exDbOf exRepair) []).toOption.isSome = true := by decide +kernel
  change sync (realParser exEnv') 10 ['x'] false (exDbOf exRepair) [] = _
  cases h : sync (realParser exEnv') 10 ['x'] false (exDbOf exRepair) [] with
  | ok es => rfl
  | error x => rw [h] at hok; cases hok

/-- **C121** (the condition): new indices are tidy, and any operations that syncs make - all of them or some, in any order, of any sync, from
any records and options - and deleting the archives leave them so. -/
theorem C121_tidy {P : Type} (X : Parser P) (maxDocs : Nat) :
    TidyLatest ([] : ES P) ∧
    ∀ es : ES P, TidyLatest es → TidyLatest es.deleteArcs ∧
      ∀ opts after arc records ops arc', generateOps X maxDocs opts after arc records = .ok (ops, arc') →
        ∀ l : List (BulkOp P), (∀ op ∈ l, op ∈ ops) → TidyLatest (es.applyOps l) :=
  ⟨⟨latestOk_nil, fun _ _ h => nomatch h⟩, fun _ he => ⟨he.deleteArcs, fun _ _ _ _ _ _ hg _ hs =>
    he.applyOps (fun op hop => generateOps_tidy hg op (hs op hop))⟩⟩

/-- **C121** (the model): when nobody writes, `resyncOver` and `resyncArcsOver` are `sync(resync=True)` and `resync_arcs()`. -/
theorem C121_alone {P : Type} (X : Parser P) (maxDocs : Nat) (db : PyStr) (m : Mongo) (es : ES P) :
    resyncOver X maxDocs db m (fun sel => (m.data db).filter sel) es = sync X maxDocs db true m es ∧
    resyncArcsOver X maxDocs db m (fun sel => (m.data db).filter sel) es = resyncArcs X maxDocs db m es := by
  refine ⟨?_, rfl⟩
  unfold resyncOver sync syncOps
  cases hasData db m with
  | false => rfl
  | true =>
    have : syncScope db true m es = .ok (some (fun r => r.version.isSome, none)) := rfl
    simp only [this, Bool.not_true, Bool.false_eq_true, if_false, if_true]
    cases generateOps X maxDocs (committedOptionsOf db m) none es.deleteArcs.arcStatus ((m.data db).filter (fun r => r.version.isSome)) with
    | error e => rfl
    | ok x => rfl

end Splitgill.Props
