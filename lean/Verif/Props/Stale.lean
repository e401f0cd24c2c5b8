import Verif.Proof.Stale
import Verif.Props.Each
/-!
# C92: what is found of records that were changed and then deleted between syncs

`es` are the indices after calls with syncs between them, `es0` those after one sync at the end. C31 and C89 show that a record that is changed
and then deleted between two syncs leaves a document in the latest index. Here is all that this can do.
-/

namespace Splitgill.Props
open Splitgill

/-- **C92**: of every record (with nothing uncommitted at the syncs and without equal data of different types), every search finds all that
it should, once, and at most one document more: that which the latest index had at an earlier sync after which the record was changed and
deleted, and not created again before any later sync. A record that exists now has no such document. -/
theorem C92_search (E : ParseEnv) (hE : E.IgnoresOrder) (U : Unicode) (hU : U.Sane) (maxDocs : Nat) (db : PyStr)
    (first : List ApiCall) (parts : List (List ApiCall)) (ho : Orderly (first ++ parts.flatten))
    (hv : ∃ v, IsVersion (afterCalls U db first) db v) :
    ∃ es es0, runSyncs (realParser E) maxDocs db [] (statesOf U db first parts) = .ok es ∧
      sync (realParser E) maxDocs db false (afterCalls U db (first ++ parts.flatten)) [] = .ok es0 ∧
      ∀ id, CalmRecord U db first parts id → ∃ left : Option (Doc (Option ParsedData)),
        (∀ v, (foundFor es (.version v) id).Perm (foundFor es0 (.version v) id ++ left.toList.filter (fun d => d.inRange v)) ∧
          (foundFor es0 (.version v) id).length ≤ 1) ∧
        foundFor es .latest id = foundFor es0 .latest id ++ left.toList ∧
        ∀ x, left = some x → ¬ ExistsNow db id (afterCalls U db (first ++ parts.flatten)) ∧
          LeftBehind E U maxDocs db first parts id x := by
  have hms := life_dbOks parts first ho hv
  obtain ⟨ms, hl⟩ := statesOf_getLast U db parts first
  have hm := hms _ (by rw [hl]; simp : afterCalls U db (first ++ parts.flatten) ∈ statesOf U db first parts)
  obtain ⟨es, h1, _⟩ := runSyncs_ok (realParser E) maxDocs _ [] hms latestOk_nil
  obtain ⟨es0, h0, _⟩ := C30_first_sync (realParser E) maxDocs db _ hm
  exact ⟨es, es0, h1, h0, fun id h => calm_found hE hU maxDocs ho hv h h1 h0⟩

/-- **C92** for queries: every query finds every record it should, whatever was deleted between syncs; and what it finds of records that
exist now is exact, at all versions. -/
theorem C92_queries (E : ParseEnv) (hE : E.IgnoresOrder) (U : Unicode) (hU : U.Sane) (maxDocs : Nat) (db : PyStr)
    (first : List ApiCall) (parts : List (List ApiCall)) (ho : Orderly (first ++ parts.flatten))
    (hv : ∃ v, IsVersion (afterCalls U db first) db v) :
    ∃ es es0, runSyncs (realParser E) maxDocs db [] (statesOf U db first parts) = .ok es ∧
      sync (realParser E) maxDocs db false (afterCalls U db (first ++ parts.flatten)) [] = .ok es0 ∧
      ∀ id, CalmRecord U db first parts id → ∀ v,
        (∀ (Q : QueryEnv) (q : EsQuery),
          id ∈ foundIds (es0.searchFor Q (.version v) q) → id ∈ foundIds (es.searchFor Q (.version v) q)) ∧
        (ExistsNow db id (afterCalls U db (first ++ parts.flatten)) →
          foundFor es (.version v) id = foundFor es0 (.version v) id ∧ foundFor es .latest id = foundFor es0 .latest id ∧
          ∀ (Q : QueryEnv) (q : EsQuery),
            id ∈ foundIds (es.searchFor Q (.version v) q) ↔ id ∈ foundIds (es0.searchFor Q (.version v) q)) := by
  obtain ⟨es, es0, h1, h0, h⟩ := C92_search E hE U hU maxDocs db first parts ho hv
  refine ⟨es, es0, h1, h0, fun id hc v => ?_⟩
  obtain ⟨left, g1, g2, g3⟩ := h id hc
  refine ⟨fun Q q hm => ?_, fun hex => ?_⟩
  · unfold foundIds ES.searchFor at hm ⊢
    obtain ⟨d, hd, hid⟩ := List.mem_map.1 hm
    obtain ⟨k1, k2⟩ := List.mem_filter.1 hd
    have := (g1 v).1.mem_iff.2 (List.mem_append_left _ (mem_found_iff.2 ⟨k1, hid⟩))
    obtain ⟨k3, k4⟩ := mem_found_iff.1 this
    exact List.mem_map.2 ⟨d, List.mem_filter.2 ⟨k3, k2⟩, k4⟩
  · have hnone : left = none := by
      cases left with
      | none => rfl
      | some x => exact absurd hex (g3 x rfl).1
    subst hnone
    obtain ⟨g1, hle⟩ := g1 v
    rw [Option.toList_none, List.filter_nil, List.append_nil] at g1
    rw [Option.toList_none, List.append_nil] at g2
    have e := perm_le_one g1 (.refl _) hle
    exact ⟨e, g2, mem_searchFor e⟩

/-- **C92** in terms of the calls: of a record that exists now, every search at every version finds what remains of its data as of the
version, with all types, and nothing at versions at which it did not exist. It may have been changed and deleted between any syncs. -/
theorem C92_data (E : ParseEnv) (hE : E.IgnoresOrder) (hS : E.ScalarHints) (U : Unicode) (hU : U.Sane) (maxDocs : Nat) (db : PyStr)
    (first : List ApiCall) (parts : List (List ApiCall)) (ho : Orderly (first ++ parts.flatten))
    (hv : ∃ v, IsVersion (afterCalls U db first) db v) :
    ∃ es, runSyncs (realParser E) maxDocs db [] (statesOf U db first parts) = .ok es ∧
      ∀ id, CalmRecord U db first parts id → ExistsNow db id (afterCalls U db (first ++ parts.flatten)) → ∀ v,
        (∀ a, AsOf (ingested U db (first ++ parts.flatten) id).committed v a → a ≠ [] →
          ∃ d p, foundFor es (.version v) id = [d] ∧ d.parsed = some p ∧
            strictEq (.dict (rebuildData p.parsed)) (.dict (remainsDict a)) = true) ∧
        (¬ Alive (ingested U db (first ++ parts.flatten) id).committed v → foundFor es (.version v) id = []) := by
  obtain ⟨es, es0, h1, h0, h⟩ := C92_queries E hE U hU maxDocs db first parts ho hv
  obtain ⟨ms, hl⟩ := statesOf_getLast U db parts first
  have hlast : afterCalls U db (first ++ parts.flatten) ∈ statesOf U db first parts := by rw [hl]; simp
  have hm := life_dbOks parts first ho hv _ hlast
  obtain ⟨es0', h0', h2, h3⟩ := C30_first_sync (realParser E) maxDocs db _ hm
  rw [h0] at h0'; cases h0'
  refine ⟨es, h1, fun id hq hex v => ?_⟩
  rw [((h id hq v).2 hex).1]
  have hli := (life (K := fun i => (classFor id (placesOf U _ hq.noPuns id) i).named) (U := U) (db := db)
    (fun c hc => fits_classFor hU id hq.noPuns (fun r hr => List.mem_flatMap.2 ⟨c, hc, hr⟩)) ho).toLifeInv
  refine ⟨fun a ha hne => ?_, fun hna => hli.finds_nothing hm h2 h3 (.inl hna)⟩
  obtain ⟨d, p, b, g1, g2, g3, _, g4⟩ := hli.first_sync (K := classFor id (placesOf U _ hq.noPuns id)) hE hS hm h2 h3 ha hne
    (hli.noPendingOf (hq.noPending _ hlast))
  rw [classFor_self] at g3 g4
  have g5 := SE.trans (g4 (fun x y hx hy => hx.2.noPun hy.2)) (remainsDict_congr knowsEmpty_strict rfl g3.vr)
  exact ⟨d, p, g1, g2, g5.2.2⟩

/-- A record is made and synced, … -/
def exLeft1 : List ApiCall := [.ingest none [exRec ['a'] 1] true 1]
/-- … then changed and deleted, and synced, … -/
def exLeft2 : List ApiCall := [.ingest none [exRec ['a'] 2] true 2, .ingest none [exDel ['a']] true 3]
/-- … then made again, and synced. -/
def exLeft3 : List ApiCall := [.ingest none [exRec ['a'] 4] true 4]

set_option maxRecDepth 100000 in
/-- The record is calm. After the second sync its first document is left in the latest index: it is found twice at version 1, and at
version 3, where it is deleted. After the third sync nothing is left: it is found once at 1, 2 and 4, and not at 3. -/
example : Orderly (exLeft1 ++ [exLeft2, exLeft3].flatten) ∧ (∃ v, IsVersion (afterCalls asciiU ['x'] exLeft1) ['x'] v) ∧
    CalmRecord asciiU ['x'] exLeft1 [exLeft2, exLeft3] ['a'] ∧ ¬ QuietRecord asciiU ['x'] exLeft1 [exLeft2, exLeft3] ['a'] ∧
    ExistsNow ['x'] ['a'] (afterCalls asciiU ['x'] (exLeft1 ++ [exLeft2, exLeft3].flatten)) ∧
    (match runSyncs (realParser exEnv') 10 ['x'] [] (statesOf asciiU ['x'] exLeft1 [exLeft2]) with
      | .ok es => decide ([1, 2, 3].map (fun v => (foundFor es (.version v) ['a']).map (fun d => (d.gte, d.lt))) =
          [[(1, none), (1, some 2)], [(1, none), (2, some 3)], [(1, none)]])
      | .error _ => false) = true ∧
    (match runSyncs (realParser exEnv') 10 ['x'] [] (statesOf asciiU ['x'] exLeft1 [exLeft2, exLeft3]) with
      | .ok es => decide ([1, 2, 3, 4].map (fun v => (foundFor es (.version v) ['a']).map (fun d => (d.gte, d.lt))) =
          [[(1, some 2)], [(2, some 3)], [], [(4, none)]])
      | .error _ => false) = true := by
  refine ⟨⟨by decide, ?_⟩, ⟨1, .inr ⟨(afterCalls asciiU ['x'] exLeft1).options.head (by decide), by decide, by decide, by decide⟩⟩,
    ⟨?_, ?_⟩, ?_, ⟨4, [(['x'], .int 4), ("_id".toList, .str ['a'])], by decide +kernel, by decide⟩, by decide +kernel, by decide +kernel⟩
  · intro c hc
    simp [exLeft1, exLeft2, exLeft3] at hc
    rcases hc with rfl | rfl | rfl | rfl <;> unfold NoSpan <;> decide
  · have : ∀ m ∈ statesOf asciiU ['x'] exLeft1 [exLeft2, exLeft3], ∀ r ∈ m.data ['x'], r.id = ['a'] → r.version ≠ none := by decide +kernel
    exact this
  · apply noPuns_of_flat <;> decide +kernel
  · intro h
    have h1 := h.noUpdateDelete.1 1 (by decide)
    have hh : histOf ((afterCalls asciiU ['x'] (exLeft1 ++ exLeft2)).data ['x']) ['a'] =
      [(3, []), (2, [(['x'], .int 2), ("_id".toList, .str ['a'])]), (1, [(['x'], .int 1), ("_id".toList, .str ['a'])])] := by decide +kernel
    refine h1 ?_ ⟨3, by rw [hh]; rfl⟩ 2 (by decide) (.inl (by rw [hh]; decide)) ?_
    · rw [hh]
      refine ⟨[(['x'], .int 1), ("_id".toList, .str ['a'])], ⟨1, by simp, by decide, ?_⟩, by simp⟩
      intro w y hw hle
      simp at hw
      omega
    · rw [hh]
      refine ⟨[(['x'], .int 2), ("_id".toList, .str ['a'])], ⟨2, by simp, by decide, ?_⟩, by simp⟩
      intro w y hw hle
      simp at hw
      omega

end Splitgill.Props
