import Verif.Proof.Sync6
import Verif.Props.Sync
import Verif.Proof.Life
/-!
# Properties of syncs that run while others write
-/

namespace Splitgill.Props
open Splitgill

/-! ## C74 -/

/-- C74 in full: whatever others write and commit during a sync, once it and another sync, that nobody disturbs, have
returned, all committed versions are in the indices. `before` are the databases at earlier syncs, that nobody
disturbed. (`NoUpdateDelete` and `PendingOld`: but see `C31_refuted` and `C35_refuted`.) -/
def C74_full : Prop :=
  ∀ (P : Type) (X : Parser P) (maxDocs : Nat) (db : PyStr) (before : List Mongo) (s : LongSync) (m : Mongo)
    (es0 es1 es2 : ES P),
    Timeline X db (fun t m => NoUpdateDelete db t m ∧ PendingOld db (some t) m) (before ++ s.during ++ [m]) →
    (∀ m ∈ (before ++ s.during).head?, PendingOld db none m) →
    (∀ sel, Scanned db s.during sel (s.cursor sel)) →
    runSyncs X maxDocs db [] before = .ok es0 →
    syncOver X maxDocs db s.start s.cursor es0 = .ok es1 →
    sync X maxDocs db false m es1 = .ok es2 →
    IndexesRecords X db m (m.data db) es2

/-- `c` at 1. -/
def exLost1 : List ApiCall := [.ingest none [exRec ['c'] 1] true 1]
/-- Then `c` at 2, and new records `a` and `b`, not committed. -/
def exLost2 : List ApiCall := exLost1 ++ [.ingest none [exRec ['c'] 2] true 2, .ingest none [exRec ['a'] 1, exRec ['b'] 1] false 3]
/-- Then those are committed at 3. -/
def exLost3 : List ApiCall := exLost2 ++ [.commit 3]

/-- A sync that reads `a` before the commit, and the others after it. -/
def exLostSync : LongSync where
  start := exDbOf exLost2
  others := [exDbOf exLost3]
  cursor sel := (((exDbOf exLost2).data ['x']).filter (fun r => decide (r.id = ['a'])) ++
    ((exDbOf exLost3).data ['x']).filter (fun r => decide (r.id ≠ ['a']))).filter sel

set_option maxRecDepth 100000 in
theorem exLostSync_scanned (sel : MongoRecord → Bool) :
    Scanned ['x'] exLostSync.during sel (exLostSync.cursor sel) := by
  apply scanned_picks
  · intro m hm
    simp only [LongSync.during, exLostSync, List.mem_cons, List.not_mem_nil, or_false] at hm
    rcases hm with rfl | rfl <;> decide
  · decide
  · intro r hr
    rcases List.mem_append.1 hr with hr | hr
    · exact ⟨_, List.mem_cons_self, (List.mem_filter.1 hr).1⟩
    · exact ⟨exDbOf exLost3, by simp [LongSync.during, exLostSync], (List.mem_filter.1 hr).1⟩
  · exact ⟨exDbOf exLost2, List.mem_cons_self, by decide⟩

theorem pendingOld_of_noPending {db : PyStr} {m : Mongo} {t : Option Int}
    (h : ∀ r ∈ m.data db, r.version ≠ none) : PendingOld db t m :=
  fun r hr hv => absurd hv (h r hr)

set_option maxRecDepth 100000 in
/-- **C74 does not hold in full**: `a` is never written to the indices. The sync does not see it when it reads it, and
leaves the indices at version 3, because of `b`; so the next sync has nothing to do. -/
theorem C74_refuted : ¬ C74_full := by
  intro h
  have ok2 : DbOk ['x'] (exDbOf exLost2) := dbOk_of_check (by decide)
  have ok3 : DbOk ['x'] (exDbOf exLost3) := dbOk_of_check (by decide)
  have np3 : ∀ r ∈ (exDbOf exLost3).data ['x'], r.version ≠ none := by decide
  have ht : Timeline exParser ['x'] (fun t m => NoUpdateDelete ['x'] t m ∧ PendingOld ['x'] (some t) m)
      ([exDbOf exLost1] ++ exLostSync.during ++ [exDbOf exLost3]) := by
    refine ⟨dbOk_of_check (by decide), ⟨1, later_of_check _ (by decide), noUpdateDelete_of_check ok2 (by decide), ?_⟩, ok2,
      ⟨2, later_of_check _ (by decide), noUpdateDelete_of_check ok3 (by decide), pendingOld_of_noPending np3⟩, ok3,
      ⟨3, later_of_check _ (by decide), noUpdateDelete_of_check ok3 (by decide), pendingOld_of_noPending np3⟩, ok3⟩
    intro r hr hv hne
    have : ∀ r ∈ (exDbOf exLost2).data ['x'], r.version = none → histOf ((exDbOf exLost2).data ['x']) r.id = [] := by decide
    exact absurd (this r hr hv) hne
  have e : (match runSyncs exParser 10 ['x'] [] [exDbOf exLost1] with
    | .ok es0 => match syncOver exParser 10 ['x'] exLostSync.start exLostSync.cursor es0 with
      | .ok es1 => match sync exParser 10 ['x'] false (exDbOf exLost3) es1 with
        | .ok es2 => ((es2.docs .latest).map Prod.snd ++ es2.archived).all (fun d => !(decide (d.id = ['a']))) &&
            decide (es2.version = some 3)
        | .error _ => false
      | .error _ => false
    | .error _ => false) = true := by decide +kernel
  cases h0 : runSyncs exParser 10 ['x'] [] [exDbOf exLost1] with
  | error err => rw [h0] at e; cases e
  | ok es0 =>
    rw [h0] at e
    dsimp only at e
    cases h1 : syncOver exParser 10 ['x'] exLostSync.start exLostSync.cursor es0 with
    | error err => rw [h1] at e; cases e
    | ok es1 =>
      rw [h1] at e
      dsimp only at e
      cases h2 : sync exParser 10 ['x'] false (exDbOf exLost3) es1 with
      | error err => rw [h2] at e; cases e
      | ok es2 =>
        rw [h2] at e
        simp only [Bool.and_eq_true, List.all_eq_true] at e
        have hi := h _ exParser 10 ['x'] [exDbOf exLost1] exLostSync (exDbOf exLost3) es0 es1 es2 ht (by
          intro m hm
          simp only [List.singleton_append, List.head?_cons, Option.mem_def, Option.some.injEq] at hm
          subst hm
          exact pendingOld_of_noPending (by decide)) exLostSync_scanned h0 h1 h2
        obtain ⟨r, hr, hid⟩ : ∃ r ∈ (exDbOf exLost3).data ['x'], r.id = ['a'] := by decide
        obtain ⟨docs, hd1, _, _, hd4, hd5⟩ := hi
        have hal : Alive (histOf ((exDbOf exLost3).data ['x']) r.id) 3 := by
          rw [hid]; exact (aliveB_iff (ok3.desc _) 3).1 (by decide)
        have hne : histOf ((exDbOf exLost3).data ['x']) r.id ≠ [] := by rw [hid]; decide
        obtain ⟨d, hd, hc⟩ := ((hd1 r hr hne).covered 3).2 hal
        have hdid := ((hd1 r hr hne).fields d hd).1
        have := e.1 d (by
          cases hlt : d.lt with
          | none => exact List.mem_append_left _ (List.mem_map.2 ⟨_, (hd4 _ _).2 ⟨r, hr, rfl, hd, hlt⟩, rfl⟩)
          | some f =>
            exact List.mem_append_right _
              (hd5.mem_iff.2 (List.mem_flatMap.2 ⟨r, hr, List.mem_filter.2 ⟨hd, by simp [hlt]⟩⟩)))
        simp only [Bool.not_eq_true', decide_eq_false_iff_not] at this
        exact this (hdid.trans hid)

/-- **C74**, when others only write uncommitted changes, or roll them back, during a sync: however its reads
interleave with theirs, the indices then hold exactly the versions that were committed when it started.
Missing: commits during a sync, see `C74_refuted`. -/
theorem C74_partial {P : Type} (X : Parser P) (maxDocs : Nat) (db : PyStr) (first : LongSync) (ss : List LongSync)
    (ht : QuietTimeline X db (first :: ss)) (hp : ∀ m ∈ first.during, PendingOld db none m) :
    ∃ es, runLongSyncs X maxDocs db [] (first :: ss) = .ok es ∧ LatestOk es ∧
      IndexesRecords X db ((first :: ss).getLast (by simp)).start (((first :: ss).getLast (by simp)).start.data db) es := by
  obtain ⟨es, h1, h2⟩ := runLongSyncs_quiet maxDocs first ss ht hp
  exact ⟨es, h1, h2.ok, h2.indexes ((ht.quiet _ (List.getLast_mem _)).dbOk _ List.mem_cons_self)⟩

/-- **C74** (the condition): calls that do not commit - ingests and options without committing, and rollbacks - leave the database
good and everything that is committed as it was. -/
theorem C74_uncommitted {P : Type} (X : Parser P) (hX : X.Respects) (U : Unicode) (db : PyStr) (a b : List ApiCall)
    (h : Orderly (a ++ b)) (hb : ∀ c ∈ b, c.clock? = none) (v : Int) (hv : IsVersion (afterCalls U db a) db v) :
    DbOk db (afterCalls U db (a ++ b)) ∧ SameCommitted X db (afterCalls U db a) (afterCalls U db (a ++ b)) := by
  have hq : ∀ c ∈ a ++ b, Fits (fun _ => plainClass) U c.stream := fun c _ => fits_plain U c.stream
  obtain ⟨t, _, hl⟩ := life_later hX.plain hq h hv
  obtain ⟨w, hw⟩ := hl.isVersion (life_dbOk h.left hv)
  exact ⟨life_dbOk h hw, life_same hX.plain hq h hb hv⟩

/-- A new record `c` at 2. -/
def exQuiet1 : List ApiCall := exCalls1 ++ [.ingest none [exRec ['c'] 2] true 2]
/-- Then a change of `b`, and a new record `d`, not committed. -/
def exQuiet2 : List ApiCall := exQuiet1 ++ [.ingest none [exRec ['b'] 2, exRec ['d'] 2] false 3]
/-- Then that is undone. -/
def exQuiet3 : List ApiCall := exQuiet2 ++ [.rollbackRecords]

/-- A sync that reads `a` at first, `b` when it has uncommitted changes, and `c` at the end. -/
def exQuietSync : LongSync where
  start := exDbOf exQuiet1
  others := [exDbOf exQuiet2, exDbOf exQuiet3]
  cursor sel := (((exDbOf exQuiet1).data ['x']).filter (fun r => decide (r.id = ['a'])) ++
    ((exDbOf exQuiet2).data ['x']).filter (fun r => decide (r.id = ['b'])) ++
    ((exDbOf exQuiet3).data ['x']).filter (fun r => decide (r.id = ['c']))).filter sel

/-- A sync that nobody disturbs. -/
def exCalmSync (calls : List ApiCall) : LongSync where
  start := exDbOf calls
  others := []
  cursor sel := ((exDbOf calls).data ['x']).filter sel

set_option maxRecDepth 100000 in
/-- Two syncs, the second one disturbed by an ingest and a rollback. -/
example : QuietTimeline exParser ['x'] [exCalmSync exCalls1, exQuietSync] ∧
    (∀ m ∈ (exCalmSync exCalls1).during, PendingOld ['x'] none m) ∧
    (∃ r ∈ exQuietSync.cursor (fun _ => true), r.version = none) ∧
    exQuietSync.cursor (newerThan 1) ≠ [] := by
  have ok1 : DbOk ['x'] (exDbOf exCalls1) := dbOk_of_check (by decide)
  have okq1 : DbOk ['x'] (exDbOf exQuiet1) := dbOk_of_check (by decide)
  have okq2 : DbOk ['x'] (exDbOf exQuiet2) := dbOk_of_check (by decide)
  have okq3 : DbOk ['x'] (exDbOf exQuiet3) := dbOk_of_check (by decide)
  have mem1 : ∀ m ∈ (exCalmSync exCalls1).during, m = exDbOf exCalls1 := by
    intro m hm
    simpa [LongSync.during, exCalmSync] using hm
  have memq : ∀ m ∈ exQuietSync.during, m = exDbOf exQuiet1 ∨ m = exDbOf exQuiet2 ∨ m = exDbOf exQuiet3 := by
    intro m hm
    simpa [LongSync.during, exQuietSync] using hm
  refine ⟨⟨⟨?_, ?_, ?_⟩, ⟨1, later_of_check _ (by decide), noUpdateDelete_of_check okq1 (by decide), ?_⟩, ?_, ?_, ?_⟩, ?_,
    by decide, by decide⟩
  · intro m hm; rw [mem1 m hm]; exact ok1
  · intro m hm; rw [mem1 m hm]; exact sameCommitted_of_check _ (by decide)
  · intro sel
    exact scanned_picks (fun m hm => by rw [mem1 m hm]; exact ok1.nodup) ok1.nodup
      (fun r hr => ⟨_, List.mem_cons_self, hr⟩) ⟨_, List.mem_cons_self, fun r hr => List.mem_map_of_mem hr⟩ sel
  · intro m hm
    rcases memq m hm with rfl | rfl | rfl <;> exact pendingOld_of_check (by decide)
  · intro m hm
    rcases memq m hm with rfl | rfl | rfl
    · exact okq1
    · exact okq2
    · exact okq3
  · intro m hm
    rcases memq m hm with rfl | rfl | rfl <;> exact sameCommitted_of_check _ (by decide)
  · intro sel
    apply scanned_picks
    · intro m hm
      rcases memq m hm with rfl | rfl | rfl
      · exact okq1.nodup
      · exact okq2.nodup
      · exact okq3.nodup
    · decide
    · intro r hr
      rcases List.mem_append.1 hr with hr | hr
      · rcases List.mem_append.1 hr with hr | hr
        · exact ⟨exDbOf exQuiet1, by simp [LongSync.during, exQuietSync], (List.mem_filter.1 hr).1⟩
        · exact ⟨exDbOf exQuiet2, by simp [LongSync.during, exQuietSync], (List.mem_filter.1 hr).1⟩
      · exact ⟨exDbOf exQuiet3, by simp [LongSync.during, exQuietSync], (List.mem_filter.1 hr).1⟩
    · exact ⟨exDbOf exQuiet1, by simp [LongSync.during, exQuietSync], by decide⟩
  · intro m hm
    rw [mem1 m hm]
    exact pendingOld_of_noPending (by decide)

set_option maxRecDepth 100000 in
/-- The calls during the second of these syncs. -/
example : Orderly (exQuiet1 ++ [.ingest none [exRec ['b'] 2, exRec ['d'] 2] false 3, .rollbackRecords]) ∧
    (∀ c ∈ [ApiCall.ingest none [exRec ['b'] 2, exRec ['d'] 2] false 3, .rollbackRecords], c.clock? = none) ∧
    IsVersion (afterCalls asciiU ['x'] exQuiet1) ['x'] 2 :=
  ⟨⟨by decide, by
    intro c hc
    simp [exQuiet1, exCalls1] at hc
    rcases hc with rfl | rfl | rfl | rfl <;> unfold NoSpan <;> decide⟩, by decide, .inl (by decide)⟩

end Splitgill.Props
