import Verif.Proof.SyncRace3
import Verif.Props.SyncRace
import Verif.Props.EndToEnd
/-!
# C74: records that nobody ingests while a sync runs

`bs ++ [b]` are syncs, with the calls before each and those that others make while it runs, commits among them. `es` are the indices
after all of them, `es0` those after one sync, into new indices and with nobody writing, of the database as it was when the last one
started. Calls change the documents one after the other, and each cursor reads each document from any of the states: so a commit can be
seen for some records and not for others.
-/

namespace Splitgill.Props
open Splitgill

/-- **C74** when others commit: all syncs succeed, and of every record that nobody ingests during a sync every search and every query finds
the same as if nobody had disturbed them, although others commit meanwhile. -/
theorem C74_each (E : ParseEnv) (hE : E.IgnoresOrder) (U : Unicode) (hU : U.Sane) (maxDocs : Nat) (db : PyStr)
    (bs : List BusySync) (b : BusySync) (ho : Orderly ((bs ++ [b]).flatMap BusySync.calls))
    (hv : ∀ x ∈ (bs ++ [b]).head?, ∃ v, IsVersion (afterCalls U db x.before) db v) (hr : SyncsRead U db (bs ++ [b])) :
    ∃ es es0, runLongSyncs (realParser E) maxDocs db [] (longSyncs U db [] (bs ++ [b])) = .ok es ∧
      sync (realParser E) maxDocs db false (afterCalls U db (bs.flatMap BusySync.calls ++ b.before)) [] = .ok es0 ∧
      ∀ id, UndisturbedRecord U db (bs ++ [b]) id → ∀ v, foundFor es (.version v) id = foundFor es0 (.version v) id ∧
        ∀ (Q : QueryEnv) (q : EsQuery),
          id ∈ foundIds (es.searchFor Q (.version v) q) ↔ id ∈ foundIds (es0.searchFor Q (.version v) q) := by
  have hdb := longSyncs_dbOk (U := U) (db := db) (bs ++ [b]) [] (by rw [List.nil_append]; exact ho) (by simpa using hv)
  have hmem : b.long U db ([] ++ bs.flatMap BusySync.calls) ∈ longSyncs U db [] (bs ++ [b]) := by rw [longSyncs_snoc]; simp
  have hm : DbOk db (afterCalls U db (bs.flatMap BusySync.calls ++ b.before)) := by
    have := hdb _ hmem _ List.mem_cons_self
    simpa [BusySync.long] using this
  obtain ⟨es, h1, _⟩ := runLongSyncs_ok (db := db) (realParser E) maxDocs _ [] (fun l hl => ⟨hdb l hl, hr.cursors l hl⟩) latestOk_nil
  obtain ⟨es0, h0, _⟩ := C30_first_sync (realParser E) maxDocs db _ hm
  refine ⟨es, es0, h1, h0, fun id h v => ?_⟩
  have := undisturbed_same hE hU maxDocs ho hv hr h h1 h0 v
  exact ⟨this, mem_searchFor this⟩

/-- **C74** in terms of the calls: every search at every version finds what remains of the data of such a record as of the version (C47),
with all types, and nothing if the record did not exist at it when the last sync started. -/
theorem C74_data (E : ParseEnv) (hE : E.IgnoresOrder) (hS : E.ScalarHints) (U : Unicode) (hU : U.Sane) (maxDocs : Nat) (db : PyStr)
    (bs : List BusySync) (b : BusySync) (ho : Orderly ((bs ++ [b]).flatMap BusySync.calls))
    (hv : ∀ x ∈ (bs ++ [b]).head?, ∃ v, IsVersion (afterCalls U db x.before) db v) (hr : SyncsRead U db (bs ++ [b])) :
    ∃ es, runLongSyncs (realParser E) maxDocs db [] (longSyncs U db [] (bs ++ [b])) = .ok es ∧
      ∀ id, UndisturbedRecord U db (bs ++ [b]) id → ∀ v,
        (∀ a, AsOf (ingested U db (bs.flatMap BusySync.calls ++ b.before) id).committed v a → a ≠ [] →
          ∃ d p, foundFor es (.version v) id = [d] ∧ d.parsed = some p ∧
            strictEq (.dict (rebuildData p.parsed)) (.dict (remainsDict a)) = true ∧
            (Rebuildable (.dict a) → strictEq (.dict (rebuildData p.parsed)) (.dict a) = true)) ∧
        (¬ Alive (ingested U db (bs.flatMap BusySync.calls ++ b.before) id).committed v → foundFor es (.version v) id = []) := by
  obtain ⟨es, es0, h1, h0, h⟩ := C74_each E hE U hU maxDocs db bs b ho hv hr
  have hdb := longSyncs_dbOk (U := U) (db := db) (bs ++ [b]) [] (by rw [List.nil_append]; exact ho) (by simpa using hv)
  have hmem : b.long U db ([] ++ bs.flatMap BusySync.calls) ∈ longSyncs U db [] (bs ++ [b]) := by rw [longSyncs_snoc]; simp
  have hst : (b.long U db ([] ++ bs.flatMap BusySync.calls)).start = afterCalls U db (bs.flatMap BusySync.calls ++ b.before) := by
    simp [BusySync.long]
  have hm : DbOk db (afterCalls U db (bs.flatMap BusySync.calls ++ b.before)) := by
    rw [← hst]
    exact hdb _ hmem _ List.mem_cons_self
  have hcalls : (bs ++ [b]).flatMap BusySync.calls = (bs.flatMap BusySync.calls ++ b.before) ++ b.meanwhile := by simp [BusySync.calls]
  obtain ⟨es0', h0', h2, h3⟩ := C30_first_sync (realParser E) maxDocs db _ hm
  rw [h0] at h0'; cases h0'
  refine ⟨es, h1, fun id hq v => ?_⟩
  rw [(h id hq v).1]
  have hp := hq.noPending _ hmem
  rw [hst] at hp
  have ho' := ho
  rw [hcalls] at ho'
  have hli := (life (K := fun i => (classFor id (placesOf U _ hq.noPuns id) i).named) (U := U) (db := db)
    (calls := bs.flatMap BusySync.calls ++ b.before) (fun c hc => fits_classFor hU id hq.noPuns (fun r hr => List.mem_flatMap.2
      ⟨c, by rw [hcalls]; exact List.mem_append_left _ hc, hr⟩)) ho'.left).toLifeInv
  refine ⟨fun a ha hne => ?_, fun hna => hli.finds_nothing hm h2 h3 (.inl hna)⟩
  obtain ⟨d, p, b, g1, g2, g3, _, g4⟩ := hli.first_sync (K := classFor id (placesOf U _ hq.noPuns id)) hE hS hm h2 h3 ha hne
    (hli.noPendingOf hp)
  rw [classFor_self] at g3 g4
  have g5 := SE.trans (g4 (fun x y hx hy => hx.2.noPun hy.2)) (remainsDict_congr knowsEmpty_strict rfl g3.vr)
  refine ⟨d, p, g1, g2, g5.2.2, fun hr => ?_⟩
  have := (remains_iff _).2 hr
  rw [remains, Value.dict.injEq] at this
  rw [← this]
  exact g5.2.2

/-- The syncs of `C74_refuted`: `c` is committed and synced; then `c` is changed and `a` and `b` are ingested, and those are committed while
the second sync runs. -/
def exLostSyncs : List BusySync := [⟨exLost1, [], fun sel => ((exDbOf exLost1).data ['x']).filter sel⟩]
def exLostLast : BusySync :=
  ⟨[.ingest none [exRec ['c'] 2] true 2, .ingest none [exRec ['a'] 1, exRec ['b'] 1] false 3], [.commit 3], exLostSync.cursor⟩

set_option maxRecDepth 100000 in
/-- The conditions hold for `c` (not for `a`, which is never written to the indices), and searches at 1 and 2 find `c` with different data,
although `b`, which is committed at 3, is in the indices. -/
example : Orderly ((exLostSyncs ++ [exLostLast]).flatMap BusySync.calls) ∧
    (∀ x ∈ (exLostSyncs ++ [exLostLast]).head?, ∃ v, IsVersion (afterCalls asciiU ['x'] x.before) ['x'] v) ∧
    SyncsRead asciiU ['x'] (exLostSyncs ++ [exLostLast]) ∧ UndisturbedRecord asciiU ['x'] (exLostSyncs ++ [exLostLast]) ['c'] ∧
    ¬ UndisturbedRecord asciiU ['x'] (exLostSyncs ++ [exLostLast]) ['a'] ∧
    (match runLongSyncs (realParser exEnv') 10 ['x'] [] (longSyncs asciiU ['x'] [] (exLostSyncs ++ [exLostLast])) with
      | .ok es => decide ((foundFor es (.version 1) ['c']).map (fun d => d.parsed.map (fun p => rebuildData p.parsed)) =
          [some [("_id".toList, .str ['c']), (['x'], .int 1)]] ∧
          (foundFor es (.version 2) ['c']).map (fun d => d.parsed.map (fun p => rebuildData p.parsed)) =
          [some [("_id".toList, .str ['c']), (['x'], .int 2)]] ∧
          (foundFor es (.version 3) ['b']).length = 1 ∧ foundFor es (.version 3) ['a'] = [])
      | .error _ => false) = true := by
  refine ⟨⟨by decide, ?_⟩, ?_, ⟨?_, ?_⟩, ⟨by decide, ?_, ⟨?_, trivial⟩, ?_⟩, ?_, by decide +kernel⟩
  · intro c hc
    simp [exLostSyncs, exLostLast, BusySync.calls, exLost1] at hc
    rcases hc with rfl | rfl | rfl | rfl <;> unfold NoSpan <;> decide
  · intro x hx
    cases hx
    exact ⟨1, .inl (by decide)⟩
  · intro l hl sel
    simp only [exLostSyncs, List.singleton_append, longSyncs, List.mem_cons, List.not_mem_nil, or_false] at hl
    rcases hl with rfl | rfl
    · refine scanned_picks ?_ ?_ ?_ ?_ sel
      · intro m hm
        have : m = afterCalls asciiU ['x'] exLost1 := by simpa [LongSync.during, BusySync.long, statesOf] using hm
        subst this
        decide
      · decide
      · exact fun r hr => ⟨_, List.mem_cons_self, hr⟩
      · exact ⟨_, List.mem_cons_self, fun r hr => List.mem_map_of_mem hr⟩
    · exact exLostSync_scanned sel
  · intro l hl m hm
    simp only [exLostSyncs, List.singleton_append, longSyncs, List.mem_cons, List.not_mem_nil, or_false] at hl
    rcases hl with rfl | rfl
    · have : m = afterCalls asciiU ['x'] exLost1 := by simpa [LongSync.during, BusySync.long, statesOf] using hm
      subst this
      rfl
    · have : m = afterCalls asciiU ['x'] exLost2 ∨ m = afterCalls asciiU ['x'] exLost3 := by
        simpa [LongSync.during, BusySync.long, statesOf, exLostLast, BusySync.calls, exLost2, exLost3] using hm
      rcases this with rfl | rfl <;> decide
  · have : ∀ l ∈ longSyncs asciiU ['x'] [] (exLostSyncs ++ [exLostLast]), ∀ r ∈ l.start.data ['x'], r.id = ['c'] → r.version ≠ none := by
      decide +kernel
    exact this
  · intro t ht
    have ok : DbOk ['x'] (exDbOf exLost2) := dbOk_of_check (by decide)
    have e : t = 1 := by
      have : (([] ++ (exLostSyncs.head (by decide)).calls).filterMap ApiCall.clock?).getLast? = some 1 := by decide
      exact Option.some.inj (ht.symm.trans this)
    subst e
    exact noUpdateDelete_of_check ok (by decide) ['c']
  · apply noPuns_of_flat <;> decide +kernel
  · intro h
    have := h.noPending (exLostLast.long asciiU ['x'] (exLostSyncs.flatMap BusySync.calls)) (by
      simp [exLostSyncs, longSyncs])
    have h2 : ∃ r ∈ (exLostLast.long asciiU ['x'] (exLostSyncs.flatMap BusySync.calls)).start.data ['x'], r.id = ['a'] ∧ r.version = none := by
      decide +kernel
    obtain ⟨r, h3, h4, h5⟩ := h2
    exact this r h3 h4 h5

end Splitgill.Props
