import Verif.Props.SyncRace2
import Verif.Props.NowEach
/-!
# C74 for all kinds of queries about single records
-/

namespace Splitgill.Props
open Splitgill

/-- **C74** for all kinds of queries: while syncs run, others may write and commit. A record for which the conditions hold is found just if it has what
is asked for, at all versions and without one, in its history when the last sync started. -/
theorem C74_answers (E : ParseEnv) (hE : E.IgnoresOrder) (hS : E.ScalarHints) (U : Unicode) (hU : U.Sane) (maxDocs : Nat) (db : PyStr)
    (bs : List BusySync) (b : BusySync) (ho : Orderly ((bs ++ [b]).flatMap BusySync.calls))
    (hv : ∀ x ∈ (bs ++ [b]).head?, ∃ v, IsVersion (afterCalls U db x.before) db v) (hr : SyncsRead U db (bs ++ [b])) :
    ∃ es, runLongSyncs (realParser E) maxDocs db [] (longSyncs U db [] (bs ++ [b])) = .ok es ∧
      ∀ id, UndisturbedRecord U db (bs ++ [b]) id →
        AnswersAbout E (ingested U db (bs.flatMap BusySync.calls ++ b.before))
          (committedOptionsOf db (afterCalls U db (bs.flatMap BusySync.calls ++ b.before))) es id := by
  obtain ⟨es, es0, h1, h0, h⟩ := C74_each E hE U hU maxDocs db bs b ho hv hr
  have hdb := longSyncs_dbOk (U := U) (db := db) (bs ++ [b]) [] (by rw [List.nil_append]; exact ho) (by simpa using hv)
  have hmem : b.long U db ([] ++ bs.flatMap BusySync.calls) ∈ longSyncs U db [] (bs ++ [b]) := by rw [longSyncs_snoc]; simp
  have hst : (b.long U db ([] ++ bs.flatMap BusySync.calls)).start = afterCalls U db (bs.flatMap BusySync.calls ++ b.before) := by
    simp [BusySync.long]
  have hm : DbOk db (afterCalls U db (bs.flatMap BusySync.calls ++ b.before)) := by
    rw [← hst]
    exact hdb _ hmem _ List.mem_cons_self
  have hcalls : (bs ++ [b]).flatMap BusySync.calls = (bs.flatMap BusySync.calls ++ b.before) ++ b.meanwhile := by simp [BusySync.calls]
  obtain ⟨es1, h1', hok⟩ := runLongSyncs_ok (db := db) (realParser E) maxDocs _ [] (fun l hl => ⟨hdb l hl, hr.cursors l hl⟩) latestOk_nil
  rw [h1] at h1'; cases h1'
  obtain ⟨es0', h0', h2, h3⟩ := C30_first_sync (realParser E) maxDocs db _ hm
  rw [h0] at h0'; cases h0'
  refine ⟨es, h1, fun id hq => ?_⟩
  have ho' := ho
  rw [hcalls] at ho'
  have hli := (life (K := fun i => (classFor id (placesOf U _ hq.noPuns id) i).named) (U := U) (db := db)
    (calls := bs.flatMap BusySync.calls ++ b.before) (fun c hc => fits_classFor hU id hq.noPuns (fun r hr => List.mem_flatMap.2
      ⟨c, by rw [hcalls]; exact List.mem_append_left _ hc, hr⟩)) ho'.left).toLifeInv
  exact answersAbout_of hE hS hli hm h2 h3 (T := placesOf U _ hq.noPuns id) (by rw [classFor_self]) hok (h id hq)

set_option maxRecDepth 100000 in
/-- `c` of C74's example, for which the conditions hold (shown there), has `2` now and had `1` before. -/
example : (match runLongSyncs (realParser exEnv') 10 ['x'] [] (longSyncs asciiU ['x'] [] (exLostSyncs ++ [exLostLast])),
        (Asked.number (.int 1)).query exQuery ['x'], (Asked.number (.int 2)).query exQuery ['x'] with
      | .ok es, .ok q, .ok q' => decide (¬ ['c'] ∈ foundIds (es.searchFor exQuery .latest q) ∧
          ['c'] ∈ foundIds (es.searchFor exQuery .latest q') ∧ ['c'] ∈ foundIds (es.searchFor exQuery (.version 1) q) ∧
          ['c'] ∈ foundIds (es.searchFor exQuery .latest (.match_ (matchQuery ['2'] (some ['x']) true))) ∧
          ['c'] ∈ foundIds (es.searchFor exQuery .latest (.exists_ (existsQuery ['x']))))
      | _, _, _ => false) = true := by decide +kernel

end Splitgill.Props
