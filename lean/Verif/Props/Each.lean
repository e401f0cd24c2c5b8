import Verif.Proof.Each2
import Verif.Props.EndToEnd
import Verif.Props.Filter
/-!
# C90: what happens to other records does not matter

`es` are the indices after calls with syncs between them, `es0` those after one sync at the end. The conditions (`QuietRecord`) are on the
record alone: others may be changed and deleted between syncs, have uncommitted data at syncs, and have `True` for `1`.
-/

namespace Splitgill.Props
open Splitgill

/-- **C90**: all syncs succeed, and of every such record every search and every query finds the same as after one sync of
everything into new indices. -/
theorem C90_each (E : ParseEnv) (hE : E.IgnoresOrder) (U : Unicode) (hU : U.Sane) (maxDocs : Nat) (db : PyStr)
    (first : List ApiCall) (parts : List (List ApiCall)) (ho : Orderly (first ++ parts.flatten))
    (hv : ∃ v, IsVersion (afterCalls U db first) db v) :
    ∃ es es0, runSyncs (realParser E) maxDocs db [] (statesOf U db first parts) = .ok es ∧
      sync (realParser E) maxDocs db false (afterCalls U db (first ++ parts.flatten)) [] = .ok es0 ∧
      ∀ id, QuietRecord U db first parts id → ∀ v, foundFor es (.version v) id = foundFor es0 (.version v) id ∧
        ∀ (Q : QueryEnv) (q : EsQuery),
          id ∈ foundIds (es.searchFor Q (.version v) q) ↔ id ∈ foundIds (es0.searchFor Q (.version v) q) := by
  have hms := life_dbOks parts first ho hv
  obtain ⟨ms, hl⟩ := statesOf_getLast U db parts first
  have hm := hms _ (by rw [hl]; simp : afterCalls U db (first ++ parts.flatten) ∈ statesOf U db first parts)
  obtain ⟨es, h1, _⟩ := runSyncs_ok (realParser E) maxDocs _ [] hms latestOk_nil
  obtain ⟨es0, h0, _⟩ := C30_first_sync (realParser E) maxDocs db _ hm
  refine ⟨es, es0, h1, h0, fun id h v => ?_⟩
  have := quiet_same hE hU maxDocs ho hv h h1 h0 v
  exact ⟨this, mem_searchFor this⟩

/-- **C90** in terms of the calls: every search at every version finds what remains of the data of the record as of the version
(C47), with all types, and nothing if the record does not exist at it. -/
theorem C90_data (E : ParseEnv) (hE : E.IgnoresOrder) (hS : E.ScalarHints) (U : Unicode) (hU : U.Sane) (maxDocs : Nat) (db : PyStr)
    (first : List ApiCall) (parts : List (List ApiCall)) (ho : Orderly (first ++ parts.flatten))
    (hv : ∃ v, IsVersion (afterCalls U db first) db v) :
    ∃ es, runSyncs (realParser E) maxDocs db [] (statesOf U db first parts) = .ok es ∧
      ∀ id, QuietRecord U db first parts id → ∀ v,
        (∀ a, AsOf (ingested U db (first ++ parts.flatten) id).committed v a → a ≠ [] →
          ∃ d p, foundFor es (.version v) id = [d] ∧ d.parsed = some p ∧
            strictEq (.dict (rebuildData p.parsed)) (.dict (remainsDict a)) = true ∧
            (Rebuildable (.dict a) → strictEq (.dict (rebuildData p.parsed)) (.dict a) = true)) ∧
        (¬ Alive (ingested U db (first ++ parts.flatten) id).committed v → foundFor es (.version v) id = []) := by
  obtain ⟨es, es0, h1, h0, h⟩ := C90_each E hE U hU maxDocs db first parts ho hv
  obtain ⟨ms, hl⟩ := statesOf_getLast U db parts first
  have hlast : afterCalls U db (first ++ parts.flatten) ∈ statesOf U db first parts := by rw [hl]; simp
  have hm := life_dbOks parts first ho hv _ hlast
  obtain ⟨es0', h0', h2, h3⟩ := C30_first_sync (realParser E) maxDocs db _ hm
  rw [h0] at h0'; cases h0'
  refine ⟨es, h1, fun id hq v => ?_⟩
  rw [(h id hq v).1]
  have hli := (life (K := fun i => (classFor id (placesOf U _ hq.noPuns id) i).named) (U := U) (db := db)
    (fun c hc => fits_classFor hU id hq.noPuns (fun r hr => List.mem_flatMap.2 ⟨c, hc, hr⟩)) ho).toLifeInv
  refine ⟨fun a ha hne => ?_, fun hna => hli.finds_nothing hm h2 h3 (.inl hna)⟩
  obtain ⟨d, p, b, g1, g2, g3, _, g4⟩ := hli.first_sync (K := classFor id (placesOf U _ hq.noPuns id)) hE hS hm h2 h3 ha hne
    (hli.noPendingOf (hq.noPending _ hlast))
  rw [classFor_self] at g3 g4
  have g5 := SE.trans (g4 (fun x y hx hy => hx.2.noPun hy.2)) (remainsDict_congr knowsEmpty_strict rfl g3.vr)
  refine ⟨d, p, g1, g2, g5.2.2, fun hr => ?_⟩
  have := (remains_iff _).2 hr
  rw [remains, Value.dict.injEq] at this
  rw [← this]
  exact g5.2.2

/-- **C90** for queries: a term or range query finds the record at `v` exactly if its data as of `v` has a value in the field for which
what was asked holds (C77). -/
theorem C90_queries (E : ParseEnv) (hE : E.IgnoresOrder) (hS : E.ScalarHints) (U : Unicode) (hU : U.Sane) (maxDocs : Nat) (db : PyStr)
    (first : List ApiCall) (parts : List (List ApiCall)) (ho : Orderly (first ++ parts.flatten))
    (hv : ∃ v, IsVersion (afterCalls U db first) db v)
    (hk : ∀ x ∈ committedOptionsOf db (afterCalls U db (first ++ parts.flatten)), 0 ≤ x.2.keywordLength) :
    ∃ es, runSyncs (realParser E) maxDocs db [] (statesOf U db first parts) = .ok es ∧
      ∀ id, QuietRecord U db first parts id → ∀ (Q : QueryEnv) (field : PyStr) (k : Asked), k.Bounded → ∃ q, k.query Q field = .ok q ∧
        ∀ v, id ∈ foundIds (es.searchFor Q (.version v) q) ↔
          HoldsAsOf (ingested U db (first ++ parts.flatten)) (committedOptionsOf db (afterCalls U db (first ++ parts.flatten))) v id
            (fun a o => HasInField a field (k.holds Q E o)) := by
  obtain ⟨es, es0, h1, h0, h⟩ := C90_each E hE U hU maxDocs db first parts ho hv
  obtain ⟨ms, hl⟩ := statesOf_getLast U db parts first
  have hm := life_dbOks parts first ho hv _ (by rw [hl]; simp : afterCalls U db (first ++ parts.flatten) ∈ statesOf U db first parts)
  obtain ⟨es0', h0', h2, h3⟩ := C30_first_sync (realParser E) maxDocs db _ hm
  rw [h0] at h0'; cases h0'
  refine ⟨es, h1, fun id hq Q field k hb => ?_⟩
  have hli := (life (K := fun i => (classFor id (placesOf U _ hq.noPuns id) i).named) (U := U) (db := db)
    (fun c hc => fits_classFor hU id hq.noPuns (fun r hr => List.mem_flatMap.2 ⟨c, hc, hr⟩)) ho).toLifeInv
  obtain ⟨q, g1, g2⟩ := hli.asked_at hE hS hm h2 h3 (id := id) (T := placesOf U _ hq.noPuns id) (by rw [classFor_self]) hk Q field k hb
  exact ⟨q, g1, fun v => ((h id hq v).2 Q q).trans (g2 v)⟩

/-- Three records … -/
def exBusy1 : List ApiCall :=
  [.ingest none [exRec ['a'] 1, ⟨['b'], [(.str ['x'], .bool true)]⟩, exRec ['c'] 1] true 1]
/-- … of which, between two syncs, `a` is changed and deleted and then has uncommitted data, `b` gets `1` for what was `True`, and `c` is
changed. -/
def exBusy2 : List (List ApiCall) :=
  [[.ingest none [exRec ['a'] 2, exRec ['b'] 1] true 2, .ingest none [exDel ['a'], exRec ['c'] 2] true 3, .ingest none [exRec ['a'] 4] false 4]]

set_option maxRecDepth 100000 in
/-- The conditions hold for `c` in these calls and not for `a`, and searches find `c` once, with the data of the version. -/
example : Orderly (exBusy1 ++ exBusy2.flatten) ∧ (∃ v, IsVersion (afterCalls asciiU ['x'] exBusy1) ['x'] v) ∧
    QuietRecord asciiU ['x'] exBusy1 exBusy2 ['c'] ∧ ¬ QuietRecord asciiU ['x'] exBusy1 exBusy2 ['a'] ∧
    (match runSyncs (realParser exEnv') 10 ['x'] [] (statesOf asciiU ['x'] exBusy1 exBusy2) with
      | .ok es => decide ((foundFor es (.version 1) ['c']).map (fun d => d.parsed.map (fun p => rebuildData p.parsed)) =
          [some [("_id".toList, .str ['c']), (['x'], .int 1)]] ∧ (foundFor es (.version 3) ['c']).length = 1)
      | .error _ => false) = true := by
  refine ⟨⟨by decide, ?_⟩, ⟨1, .inr ⟨(afterCalls asciiU ['x'] exBusy1).options.head (by decide), by decide, by decide, by decide⟩⟩,
    ⟨?_, ⟨?_, trivial⟩, ?_⟩, ?_, by decide +kernel⟩
  · intro c hc
    simp [exBusy1, exBusy2] at hc
    rcases hc with rfl | rfl | rfl | rfl <;> unfold NoSpan <;> decide
  · have : ∀ m ∈ statesOf asciiU ['x'] exBusy1 exBusy2, ∀ r ∈ m.data ['x'], r.id = ['c'] → r.version ≠ none := by decide +kernel
    exact this
  · intro t _ _ hd
    obtain ⟨w, hw⟩ := hd
    have : (histOf ((afterCalls asciiU ['x'] (exBusy1 ++ exBusy2.flatten)).data ['x']) ['c']).head? =
      some (3, [(['x'], .int 2), ("_id".toList, .str ['c'])]) := by decide +kernel
    rw [show exBusy1 ++ exBusy2.flatten = exBusy1 ++ exBusy2.head (by decide) by rfl] at this
    have h2 := hw.symm.trans this
    cases h2
  · apply noPuns_of_flat <;> decide +kernel
  · intro h
    have : ∃ m ∈ statesOf asciiU ['x'] exBusy1 exBusy2, ∃ r ∈ m.data ['x'], r.id = ['a'] ∧ r.version = none := by decide +kernel
    obtain ⟨m, hm, r, hr, h1, h2⟩ := this
    exact h.noPending m hm r hr h1 h2

end Splitgill.Props
