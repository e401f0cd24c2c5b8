import Verif.Proof.Resync
import Verif.Props.World
import Verif.Props.Index
/-!
# C30-C35, C40: syncing

`X` is any parser and `maxDocs` any limit for archive indices; `[]` are indices that do not exist yet. Databases
are any that satisfy `DbOk`, see `Verif.Props.Life` for those that API calls make.
-/

namespace Splitgill.Props
open Splitgill

/-! ## Databases for examples -/

/-- A database after calls on it. -/
def exDbOf (calls : List ApiCall) : Mongo := runCalls asciiU Mongo.empty (calls.map (fun c => (['x'], c)))

/-- `a` and `b` at 1. -/
def exCalls1 : List ApiCall := [.ingest none [exRec ['a'] 1, exRec ['b'] 5] true 1]

/-- Then `a` changed at 2, `b` deleted at 3 and new options at 4. -/
def exCalls2 : List ApiCall :=
  exCalls1 ++ [.ingest none [exRec ['a'] 2] true 2, .ingest none [exDel ['b']] true 3, .updateOptions (exOpts 20) true 4]

/-! ## C30 -/

/-- **C30** a sync into empty indices succeeds, and the indices hold exactly the documents of the record
versions of every record without uncommitted changes. -/
theorem C30_first_sync {P : Type} (X : Parser P) (maxDocs : Nat) (db : PyStr) (m : Mongo) (hm : DbOk db m) :
    ∃ es, sync X maxDocs db false m [] = .ok es ∧ LatestOk es ∧
      IndexesRecords X db m ((m.data db).filter (fun r => r.version.isSome)) es := by
  obtain ⟨es, h1, h2⟩ := first_sync hm X maxDocs
  exact ⟨es, h1, h2.ok, h2.indexes hm⟩

set_option maxRecDepth 100000 in
/-- Two records, one changed and one deleted: three archived documents and one in the latest index. -/
example : DbOk ['x'] (exDbOf exCalls2) ∧
    (match sync exParser 2 ['x'] false (exDbOf exCalls2) [] with
      | .ok es => ((es.docs .latest).map (fun x => (x.1, x.2.gte, x.2.lt)),
          es.archived.map (fun d => (d.id, d.gte, d.lt)), es.arcs)
      | .error _ => ([], [], [])) =
      ([(some ['a'], 4, none)], [(['a'], 1, some 2), (['a'], 2, some 4), (['b'], 1, some 3)], [0, 1]) :=
  ⟨dbOk_of_check (by decide), by decide⟩

/-! ## C31 -/

/-- C31 in full: syncing a database at several times gives the same indices as one sync at the end. -/
def C31_full : Prop :=
  ∀ (P : Type) (X : Parser P) (maxDocs : Nat) (db : PyStr) (ms : List Mongo) (m : Mongo),
    Timeline X db (fun _ _ => True) (ms ++ [m]) → (∀ m' ∈ ms ++ [m], NoPending db m') →
    ∃ es es0, runSyncs X maxDocs db [] (ms ++ [m]) = .ok es ∧ sync X maxDocs db false m [] = .ok es0 ∧
      SameIndices es es0

/-- `a` at 1; then changed at 2 and deleted at 3. -/
def exUpdateDelete : List ApiCall := [.ingest none [exRec ['a'] 1] true 1]
def exUpdateDelete' : List ApiCall :=
  exUpdateDelete ++ [.ingest none [exRec ['a'] 2] true 2, .ingest none [exDel ['a']] true 3]

set_option maxRecDepth 100000 in
/-- **C31 does not hold in full**: a record that is changed and then deleted between two syncs stays in the
latest index (as it was at the first sync). -/
theorem C31_refuted : ¬ C31_full := by
  intro h
  obtain ⟨es, es0, h1, h2, h3⟩ := h _ exParser 10 ['x'] [exDbOf exUpdateDelete] (exDbOf exUpdateDelete')
    ⟨dbOk_of_check (by decide), ⟨1, later_of_check _ (by decide), trivial⟩, dbOk_of_check (by decide)⟩ (by
      have : ∀ m' ∈ [exDbOf exUpdateDelete, exDbOf exUpdateDelete'], ∀ r ∈ m'.data ['x'], r.version ≠ none := by decide
      exact this)
  have e1 : (match runSyncs exParser 10 ['x'] [] [exDbOf exUpdateDelete, exDbOf exUpdateDelete'] with
    | .ok es => (es.docs .latest).length | .error _ => 0) = 1 := by decide
  have e2 : (match sync exParser 10 ['x'] false (exDbOf exUpdateDelete') [] with
    | .ok es => (es.docs .latest).length | .error _ => 1) = 0 := by decide
  simp only [List.singleton_append] at h1
  rw [h1] at e1
  rw [h2] at e2
  dsimp only at e1 e2
  rw [List.length_eq_zero_iff] at e2
  cases hd : es.docs .latest with
  | nil => rw [hd] at e1; cases e1
  | cons x l =>
    have := (h3.latest x).1 (by rw [hd]; exact List.mem_cons_self)
    rw [e2] at this; cases this

/-- **C31**, when no record is changed and then deleted between two syncs (`NoUpdateDelete`): the syncs succeed,
the indices are those of one sync at the end, and hold the documents of all records. Missing: such
records, see `C31_refuted`. -/
theorem C31_incremental_partial {P : Type} (X : Parser P) (maxDocs : Nat) (db : PyStr) (ms : List Mongo) (m : Mongo)
    (ht : Timeline X db (NoUpdateDelete db) (ms ++ [m])) (hp : ∀ m' ∈ ms ++ [m], NoPending db m') :
    ∃ es es0, runSyncs X maxDocs db [] (ms ++ [m]) = .ok es ∧ sync X maxDocs db false m [] = .ok es0 ∧
      SameIndices es es0 ∧ LatestOk es ∧ IndexesRecords X db m (m.data db) es := by
  have hm : DbOk db m := ht.dbOk m (by simp)
  have hpm : NoPending db m := hp m (by simp)
  obtain ⟨es0, h1, h2⟩ := sync_first hm X maxDocs (hpm.old none)
  -- the condition on pending changes along the timeline
  have hext : ∀ l : List Mongo, (∀ m' ∈ l, NoPending db m') → Timeline X db (NoUpdateDelete db) l →
      Timeline X db (fun t m => NoUpdateDelete db t m ∧ NoPending db m) l := by
    intro l
    induction l with
    | nil => intro _ _; trivial
    | cons a l ih =>
      intro hn h
      cases l with
      | nil => exact h
      | cons b l =>
        obtain ⟨h1, ⟨t, h2, h3⟩, h4⟩ := h
        exact ⟨h1, ⟨t, h2, h3, hn b (by simp)⟩, ih (fun x hx => hn x (List.mem_cons_of_mem _ hx)) h4⟩
  have ht' := hext _ hp ht
  obtain ⟨a, l, hl⟩ : ∃ a l, ms ++ [m] = a :: l := by
    cases ms with
    | nil => exact ⟨m, [], rfl⟩
    | cons a l => exact ⟨a, l ++ [m], rfl⟩
  have hlast : (a :: l).getLast (by simp) = m := by simp [← hl]
  rw [hl] at ht' hp ⊢
  obtain ⟨es, h3, h4⟩ := runSyncs_all (X := X) (db := db) (fun t m h => ⟨h.1, h.2.old _⟩) maxDocs a l ht'
    ((hp a List.mem_cons_self).old none)
  rw [hlast] at h4
  exact ⟨es, es0, h3, h1, h4.same h2, h4.ok, h4.indexes hm⟩

set_option maxRecDepth 100000 in
/-- The hypotheses hold for two syncs with a change, a change of options and a deletion in between. -/
example : Timeline exParser ['x'] (NoUpdateDelete ['x']) ([exDbOf exCalls1] ++ [exDbOf exCalls2]) ∧
    (∀ m' ∈ [exDbOf exCalls1] ++ [exDbOf exCalls2], NoPending ['x'] m') := by
  have h2 : DbOk ['x'] (exDbOf exCalls2) := dbOk_of_check (by decide)
  refine ⟨⟨dbOk_of_check (by decide), ⟨1, later_of_check _ (by decide), ?_⟩, h2⟩, ?_⟩
  · exact noUpdateDelete_of_check h2 (by decide)
  · have : ∀ m' ∈ [exDbOf exCalls1] ++ [exDbOf exCalls2], ∀ r ∈ m'.data ['x'], r.version ≠ none := by decide
    exact this

/-! ## C32 -/

/-- C32 in full: `sync(resync=True)` makes the indices those of a first sync, whatever was in them. -/
def C32_full : Prop :=
  ∀ (P : Type) (X : Parser P) (maxDocs : Nat) (db : PyStr) (m : Mongo) (es : ES P), DbOk db m → LatestOk es →
    ∃ es' es0, sync X maxDocs db true m es = .ok es' ∧ sync X maxDocs db false m [] = .ok es0 ∧ SameIndices es' es0

/-- `a` at 1, synced, then deleted at 2. -/
def exDelete : List ApiCall := [.ingest none [exRec ['a'] 1] true 1, .ingest none [exDel ['a']] true 2]

/-- The indices after syncing `a` at 1. -/
def exSynced (calls : List ApiCall) : ES (Dict × ParsingOptions) :=
  match sync exParser 10 ['x'] false (exDbOf calls) [] with
  | .ok es => es
  | .error _ => []

set_option maxRecDepth 100000 in
/-- **C32 does not hold in full**: a record that has been deleted since it was synced stays in the latest index. -/
theorem C32_refuted : ¬ C32_full := by
  intro h
  obtain ⟨es, es0, h1, h2, h3⟩ := h _ exParser 10 ['x'] (exDbOf exDelete) (exSynced exUpdateDelete)
    (dbOk_of_check (by decide)) ⟨by decide, by decide, by decide⟩
  have e1 : (match sync exParser 10 ['x'] true (exDbOf exDelete) (exSynced exUpdateDelete) with
    | .ok es => (es.docs .latest).length | .error _ => 0) = 1 := by decide
  have e2 : (match sync exParser 10 ['x'] false (exDbOf exDelete) [] with
    | .ok es => (es.docs .latest).length | .error _ => 1) = 0 := by decide
  rw [h1] at e1
  rw [h2] at e2
  dsimp only at e1 e2
  rw [List.length_eq_zero_iff] at e2
  cases hd : es.docs .latest with
  | nil => rw [hd] at e1; cases e1
  | cons x l =>
    have := (h3.latest x).1 (by rw [hd]; exact List.mem_cons_self)
    rw [e2] at this; cases this

/-- **C32**, what holds for any indices: `sync(resync=True)` succeeds; the archives become those of a first sync; the
latest index has the documents that a first sync puts there and, missing for the full property, what it had
before for records that a first sync puts nothing there for. -/
theorem C32_resync_partial {P : Type} (X : Parser P) (maxDocs : Nat) (db : PyStr) (m : Mongo) (es : ES P)
    (hm : DbOk db m) (hok : LatestOk es) (hd : hasData db m = true) :
    ∃ es' es0, sync X maxDocs db true m es = .ok es' ∧ sync X maxDocs db false m [] = .ok es0 ∧
      es'.archived.Perm es0.archived ∧
      ∀ id d, (some id, d) ∈ es'.docs .latest ↔
        (some id, d) ∈ es0.docs .latest ∨ ((some id, d) ∈ es.docs .latest ∧ some id ∉ (es0.docs .latest).map Prod.fst) := by
  obtain ⟨es0, h1, h2⟩ := first_sync hm X maxDocs
  obtain ⟨es', h3, h4, h5, h6⟩ := resync_effect hm X maxDocs hd hok h2
  refine ⟨es', es0, h3, h1, h5, fun id d => ?_⟩
  have h6 := h6 id
  unfold ES.latestOf at h6
  rw [← aget_iff_mem h4.nodup, ← aget_iff_mem h2.ok.nodup, ← aget_iff_mem hok.nodup, h6]
  change _ ↔ _ ∨ (_ ∧ some id ∉ akeys (es0.docs .latest))
  rw [← aget_eq_none_iff]
  cases aget (some id) (es0.docs .latest) <;> simp

/-- **C32** when every document in the latest index is of a record that exists now and has no uncommitted changes.
Missing: documents of other records, see `C32_refuted`; databases without committed data, where nothing is done. -/
theorem C32_existing_partial {P : Type} (X : Parser P) (maxDocs : Nat) (db : PyStr) (m : Mongo) (es : ES P)
    (hm : DbOk db m) (hok : LatestOk es) (hd : hasData db m = true)
    (hl : ∀ id, some id ∈ (es.docs .latest).map Prod.fst → ∃ r ∈ m.data db, r.id = id ∧ r.version ≠ none ∧
      ¬ DeletedNow (histOf (m.data db) id)) :
    ∃ es' es0, sync X maxDocs db true m es = .ok es' ∧ sync X maxDocs db false m [] = .ok es0 ∧ SameIndices es' es0 := by
  obtain ⟨es0, h1, h2⟩ := first_sync hm X maxDocs
  obtain ⟨es', h3, h4, h5, h6⟩ := resync_effect hm X maxDocs hd hok h2
  refine ⟨es', es0, h3, h1, ?_, h5⟩
  have hlat : ∀ id, es'.latestOf id = es0.latestOf id := by
    intro id
    rw [h6 id]
    cases ho : es0.latestOf id with
    | some d => rfl
    | none =>
      by_contra hne
      rw [Option.none_or] at hne
      have hmem : some id ∈ akeys (es.docs .latest) := by
        by_contra hn
        exact hne (aget_eq_none_iff.2 hn)
      obtain ⟨r, hr, rfl, hv, hnd⟩ := hl id hmem
      have hr' : r ∈ (m.data db).filter (fun r => r.version.isSome) :=
        List.mem_filter.2 ⟨hr, by cases hvv : r.version with | none => exact absurd hvv hv | some _ => rfl⟩
      rw [h2.latest r hr'] at ho
      have hne' : histOf (m.data db) r.id ≠ [] := by
        obtain ⟨v, hvv⟩ := Option.ne_none_iff_exists'.1 hv
        obtain ⟨_, d, hd⟩ := hm.head hr hvv
        intro he; rw [he] at hd; cases hd
      exact hnd (hm.deletedNow X hne' ho)
  rintro ⟨k, d⟩
  cases k with
  | none =>
    exact ⟨fun hm => absurd (List.mem_map_of_mem hm) h4.hasId, fun hm => absurd (List.mem_map_of_mem hm) h2.ok.hasId⟩
  | some id =>
    rw [← aget_iff_mem h4.nodup, ← aget_iff_mem h2.ok.nodup]
    have := hlat id
    unfold ES.latestOf at this
    rw [this]

set_option maxRecDepth 100000 in
/-- The hypotheses hold for the indices of an older database, with the record changed since. -/
example : DbOk ['x'] (exDbOf exCalls2) ∧ LatestOk (exSynced exUpdateDelete) ∧ hasData ['x'] (exDbOf exCalls2) = true ∧
    (exSynced exUpdateDelete).docs .latest ≠ [] ∧
    ∀ id, some id ∈ ((exSynced exUpdateDelete).docs .latest).map Prod.fst → ∃ r ∈ (exDbOf exCalls2).data ['x'],
      r.id = id ∧ r.version ≠ none ∧ ¬ DeletedNow (histOf ((exDbOf exCalls2).data ['x']) id) := by
  refine ⟨dbOk_of_check (by decide), ⟨by decide, by decide, by decide⟩, by decide, by decide, ?_⟩
  intro id hid
  have : ((exSynced exUpdateDelete).docs .latest).map Prod.fst = [some ['a']] := by decide
  rw [this, List.mem_singleton] at hid
  cases hid
  refine ⟨((exDbOf exCalls2).data ['x']).head (by decide), by decide, by decide, by decide, ?_⟩
  rintro ⟨v, hv⟩
  have : ((histOf ((exDbOf exCalls2).data ['x']) ['a']).head?.map (fun x => x.2.isEmpty)) = some false := by decide
  rw [hv] at this
  cases this

/-! ## C33 -/

/-- **C33** `resync_arcs()` succeeds, does not touch the latest index, and makes the archives those of a first sync,
whatever was in the indices. -/
theorem C33_resync_arcs {P : Type} (X : Parser P) (maxDocs : Nat) (db : PyStr) (m : Mongo) (es : ES P) (hm : DbOk db m) :
    ∃ es' es0, resyncArcs X maxDocs db m es = .ok es' ∧ sync X maxDocs db false m [] = .ok es0 ∧
      es'.docs .latest = es.docs .latest ∧ es'.archived.Perm es0.archived := by
  obtain ⟨es0, h1, h2⟩ := first_sync hm X maxDocs
  obtain ⟨es', h3, h4, h5⟩ := resyncArcs_effect hm X maxDocs es h2
  exact ⟨es', es0, h3, h1, h4, h5⟩

set_option maxRecDepth 100000 in
/-- The archives of an older sync replaced. -/
example : DbOk ['x'] (exDbOf exCalls2) ∧
    (match resyncArcs exParser 2 ['x'] (exDbOf exCalls2) (exSynced exUpdateDelete') with
      | .ok es => ((es.docs .latest).map (fun x => (x.1, x.2.gte, x.2.lt)), es.archived.map (fun d => (d.id, d.gte, d.lt)))
      | .error _ => ([], [])) =
      ([], [(['a'], 1, some 2), (['a'], 2, some 4), (['b'], 1, some 3)]) ∧
    (exSynced exUpdateDelete').archived.map (fun d => (d.id, d.gte, d.lt)) = [(['a'], 1, some 2), (['a'], 2, some 3)] :=
  ⟨dbOk_of_check (by decide), by decide, by decide⟩

/-! ## C34 -/

/-- **C34** after a sync (of any kind, into any indices), another sync has nothing to write. -/
theorem C34_sync_twice {P : Type} (X : Parser P) (maxDocs : Nat) (db : PyStr) (m : Mongo) (resync : Bool) (es es' : ES P)
    (hm : DbOk db m) (hok : LatestOk es) (hs : sync X maxDocs db resync m es = .ok es') :
    syncOps X maxDocs db false m es' = .ok (es', []) ∧ sync X maxDocs db false m es' = .ok es' := by
  have h := sync_twice hm X maxDocs hok hs
  exact ⟨h, by simp [sync, h, ES.applyOps]⟩

set_option maxRecDepth 100000 in
/-- A sync that writes something. -/
example : DbOk ['x'] (exDbOf exCalls2) ∧ LatestOk (exSynced exUpdateDelete) ∧
    (∃ es', sync exParser 10 ['x'] false (exDbOf exCalls2) (exSynced exUpdateDelete) = .ok es' ∧
      es'.archived.length = 3) := by
  refine ⟨dbOk_of_check (by decide), ⟨by decide, by decide, by decide⟩, ?_⟩
  have h : (match sync exParser 10 ['x'] false (exDbOf exCalls2) (exSynced exUpdateDelete) with
    | .ok es => es.archived.length | .error _ => 0) = 3 := by decide
  cases hs : sync exParser 10 ['x'] false (exDbOf exCalls2) (exSynced exUpdateDelete) with
  | ok es => rw [hs] at h; exact ⟨es, rfl, h⟩
  | error e => rw [hs] at h; cases h

/-! ## C35 -/

/-- C35 in full: records with uncommitted changes at the time of a sync do not matter, all committed versions are in
the indices after it. (`NoUpdateDelete`: but see `C31_refuted`.) -/
def C35_full : Prop :=
  ∀ (P : Type) (X : Parser P) (maxDocs : Nat) (db : PyStr) (ms : List Mongo) (m : Mongo),
    Timeline X db (NoUpdateDelete db) (ms ++ [m]) →
    ∃ es, runSyncs X maxDocs db [] (ms ++ [m]) = .ok es ∧ IndexesRecords X db m (m.data db) es

/-- `a` at 1; then `a` and `b` at 2, and a change of `a` that is not committed; then that is committed at 3. -/
def exPending1 : List ApiCall := [.ingest none [exRec ['a'] 1] true 1]
def exPending2 : List ApiCall :=
  exPending1 ++ [.ingest none [exRec ['a'] 2, exRec ['b'] 5] true 2, .ingest none [exRec ['a'] 3] false 3]
def exPending3 : List ApiCall := exPending2 ++ [.commit 3]

set_option maxRecDepth 100000 in
/-- **C35 does not hold in full**: the data of `a` at 1 is never written to the indices. -/
theorem C35_refuted : ¬ C35_full := by
  intro h
  have ok2 : DbOk ['x'] (exDbOf exPending2) := dbOk_of_check (by decide)
  have ok3 : DbOk ['x'] (exDbOf exPending3) := dbOk_of_check (by decide)
  obtain ⟨es, h1, h2⟩ := h _ exParser 10 ['x'] [exDbOf exPending1, exDbOf exPending2] (exDbOf exPending3)
    ⟨dbOk_of_check (by decide), ⟨1, later_of_check _ (by decide), noUpdateDelete_of_check ok2 (by decide)⟩, ok2,
      ⟨2, later_of_check _ (by decide), noUpdateDelete_of_check ok3 (by decide)⟩, ok3⟩
  have e : (match runSyncs exParser 10 ['x'] [] [exDbOf exPending1, exDbOf exPending2, exDbOf exPending3] with
    | .ok es => ((es.docs .latest).map Prod.snd ++ es.archived).all (fun d =>
        !(decide (d.gte ≤ 1)))
    | .error _ => false) = true := by decide
  simp only [List.cons_append, List.nil_append] at h1
  rw [h1] at e
  simp only [List.all_eq_true] at e
  obtain ⟨r, hr, hid⟩ : ∃ r ∈ (exDbOf exPending3).data ['x'], r.id = ['a'] :=
    ⟨((exDbOf exPending3).data ['x']).head (by decide), by decide, by decide⟩
  obtain ⟨d, ⟨hc, _⟩, hd⟩ := h2.find hr (v := 1) (by
    rw [hid]; exact (aliveB_iff (ok3.desc _) 1).1 (by decide))
  have := e d (by
    rcases hd with hd | hd
    · exact List.mem_append_left _ (List.mem_map_of_mem hd)
    · exact List.mem_append_right _ hd)
  simp only [Bool.not_eq_true', decide_eq_false_iff_not] at this
  exact this hc

/-- **C35**, when the records with uncommitted changes at a sync have no committed version, of their own or of the
options, since the sync before. Missing: such records, see `C35_refuted`. -/
theorem C35_pending_partial {P : Type} (X : Parser P) (maxDocs : Nat) (db : PyStr) (first : Mongo) (ms : List Mongo)
    (ht : Timeline X db (fun t m => NoUpdateDelete db t m ∧ PendingOld db (some t) m) (first :: ms))
    (hp : PendingOld db none first) :
    ∃ es, runSyncs X maxDocs db [] (first :: ms) = .ok es ∧ LatestOk es ∧
      IndexesRecords X db ((first :: ms).getLast (by simp)) (((first :: ms).getLast (by simp)).data db) es := by
  obtain ⟨es, h1, h2⟩ := runSyncs_all (X := X) (db := db) (fun t m h => h) maxDocs first ms ht hp
  exact ⟨es, h1, h2.ok, h2.indexes (ht.dbOk _ (List.getLast_mem _))⟩

/-- `b` changed and committed; and a change of `a` that is not committed. -/
def exPendingOk : List ApiCall := exCalls1 ++ [.ingest none [exRec ['b'] 6] true 2, .ingest none [exRec ['a'] 2] false 3]

set_option maxRecDepth 100000 in
/-- A record that was synced, and has an uncommitted change at the next sync. -/
example : Timeline exParser ['x'] (fun t m => NoUpdateDelete ['x'] t m ∧ PendingOld ['x'] (some t) m)
      [exDbOf exCalls1, exDbOf exPendingOk] ∧ PendingOld ['x'] none (exDbOf exCalls1) ∧
    ∃ r ∈ (exDbOf exPendingOk).data ['x'], r.version = none := by
  have h2 : DbOk ['x'] (exDbOf exPendingOk) := dbOk_of_check (by decide)
  refine ⟨⟨dbOk_of_check (by decide), ⟨1, later_of_check _ (by decide), noUpdateDelete_of_check h2 (by decide), ?_⟩, h2⟩,
    ?_, by decide⟩
  · intro r hr hv _
    refine ⟨1, rfl, ?_, by decide⟩
    have : ∀ r ∈ (exDbOf exPendingOk).data ['x'], r.version = none →
      ∀ w ∈ (histOf ((exDbOf exPendingOk).data ['x']) r.id).map Prod.fst, w ≤ 1 := by decide
    exact this r hr hv
  · intro r hr hv _
    have : ∀ r ∈ (exDbOf exCalls1).data ['x'], r.version ≠ none := by decide
    exact absurd hv (this r hr)

/-! ## C40 -/

/-- **C40** (the indices) syncs of any kind keep archives filled as they should be: numbered from 0
without gaps, none empty or with more documents than the limit, all but the last one full. -/
theorem C40_archives {P : Type} (X : Parser P) (maxDocs : Nat) (h1 : 1 ≤ maxDocs) (db : PyStr) (m : Mongo) (es : ES P) :
    ArcsFilled maxDocs ([] : ES P) ∧
    (∀ resync es', ArcsFilled maxDocs es → sync X maxDocs db resync m es = .ok es' → ArcsFilled maxDocs es') ∧
    (∀ es', resyncArcs X maxDocs db m es = .ok es' → ArcsFilled maxDocs es') :=
  ⟨⟨by simp [ES.arcs], by simp [ES.arcs]⟩, fun _ _ h hs => h.sync h1 hs, fun _ hs => ArcsFilled.resyncArcs h1 hs⟩

/-- **C40** (the operations) for any records, options and status of the archives with at most the limit of documents in
the current one: the archives that documents go to start with the current one and never go down; none
gets over the limit; all before the last one are full. -/
theorem C40_operations {P : Type} (X : Parser P) (maxDocs : Nat) (h1 : 1 ≤ maxDocs) (opts : List (Int × ParsingOptions))
    (after : Option Int) (current count : Nat) (hc : count ≤ maxDocs) (rs : List MongoRecord) (ops : List (BulkOp P))
    (arc' : Nat × Nat) (hg : generateOps X maxDocs opts after (current, count) rs = .ok (ops, arc')) :
    let used := ops.filterMap (fun op => match op with | .index (.arc n) _ _ => some n | _ => none)
    let before := fun k => if k = current then count else 0
    used.Pairwise (· ≤ ·) ∧ (∀ k ∈ used, current ≤ k) ∧ (∀ k, k ∈ used → before k + used.count k ≤ maxDocs) ∧
      (∀ k ∈ used, ∀ j, current ≤ j → j < k → before j + used.count j = maxDocs) := by
  have h := generateOps_filled h1 (by exact hc) hg
  exact ⟨h.ordered, fun k hk => (h.range k hk).1, fun k _ => h.max k,
    fun k hk j hj hjk => h.full j hj (Nat.lt_of_lt_of_le hjk (h.range k hk).2)⟩

set_option maxRecDepth 100000 in
/-- Three documents, with two per archive and one already there. -/
example : (match generateOps exParser 2 [(1, exOpts 10)] none (4, 1) ((exDbOf exCalls2).data ['x']) with
    | .ok (ops, arc) => (arcsUsed ops, arc)
    | .error _ => ([], (0, 0))) = ([4, 5], (5, 1)) ∧
    (match generateOps exParser 1 (committedOptionsOf ['x'] (exDbOf exCalls2)) none (4, 1) ((exDbOf exCalls2).data ['x']) with
    | .ok (ops, arc) => (arcsUsed ops, arc)
    | .error _ => ([], (0, 0))) = ([5, 6, 7], (7, 1)) := by decide

end Splitgill.Props
