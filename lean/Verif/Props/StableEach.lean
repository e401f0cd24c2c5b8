import Verif.Props.NowEach
import Verif.Props.StableAll
/-!
# C89 for single records: other records may be as they like
-/

namespace Splitgill

/-- Two sets of indices say the same of a record at a version: searches find nothing in both or one document in both, with the same data; and the queries
that `term_query`, `range_query`, `match_query`, `exists_query` and `has_geo` make find it in both or in neither. -/
structure SameOfRecordAt (opts : List (Int × ParsingOptions)) (E : ParseEnv) (id : PyStr) (es es' : ES (Option ParsedData)) (v : Int) : Prop where
  data : foundFor es (.version v) id = [] ∧ foundFor es' (.version v) id = [] ∨
    ∃ d p d' p' a, foundFor es (.version v) id = [d] ∧ foundFor es' (.version v) id = [d'] ∧ d.parsed = some p ∧ d'.parsed = some p' ∧
      strictEq (.dict (rebuildData p.parsed)) a = true ∧ strictEq (.dict (rebuildData p'.parsed)) a = true
  asked : (∀ x ∈ opts, 0 ≤ x.2.keywordLength) → ∀ (Q : QueryEnv) (field : PyStr) (k : Asked), k.Bounded → ∃ q, k.query Q field = .ok q ∧
    (id ∈ foundIds (es.searchFor Q (.version v) q) ↔ id ∈ foundIds (es'.searchFor Q (.version v) q))
  text : ∀ (Q : QueryEnv) (query : PyStr) (field : Option PyStr) (every : Bool),
    id ∈ foundIds (es.searchFor Q (.version v) (.match_ (matchQuery query field every))) ↔
      id ∈ foundIds (es'.searchFor Q (.version v) (.match_ (matchQuery query field every)))
  values : E.PlacesHaveValues → ∀ (Q : QueryEnv) (field : PyStr), (∀ k ∈ splitDots field, FieldName k) →
    (id ∈ foundIds (es.searchFor Q (.version v) (.exists_ (existsQuery field))) ↔
      id ∈ foundIds (es'.searchFor Q (.version v) (.exists_ (existsQuery field))))
  places : ∀ (Q : QueryEnv), id ∈ foundIds (es.searchFor Q (.version v) (.exists_ hasGeo)) ↔
    id ∈ foundIds (es'.searchFor Q (.version v) (.exists_ hasGeo))

end Splitgill

namespace Splitgill.Props
open Splitgill

theorem _root_.Splitgill.QuietRecord.left {U : Unicode} {db : PyStr} {first : List ApiCall} {parts more : List (List ApiCall)} {id : PyStr}
    (h : QuietRecord U db first (parts ++ more) id) : QuietRecord U db first parts id where
  noPending m hm := h.noPending m (statesOf_left parts more first m hm)
  noUpdateDelete := h.noUpdateDelete.left
  noPuns := by
    have := h.noPuns
    rw [show first ++ (parts ++ more).flatten = (first ++ parts.flatten) ++ more.flatten by simp, List.flatMap_append, List.filter_append] at this
    exact this.left

/-- **C89** for a record that has nothing uncommitted at the syncs, is not changed and then deleted between two syncs, and is not given equal values of
different types, whatever happens to others: later calls and syncs do not change what searches and queries at an earlier version find of it. Missing:
other records, see `C89_refuted` and `C89_deleted_refuted`. -/
theorem C89_each_partial (E : ParseEnv) (hE : E.IgnoresOrder) (hS : E.ScalarHints) (U : Unicode) (hU : U.Sane) (maxDocs : Nat)
    (db : PyStr) (first : List ApiCall) (parts more : List (List ApiCall)) (ho : Orderly (first ++ (parts ++ more).flatten))
    (hopt : ∀ o ∈ (first ++ (parts ++ more).flatten).filterMap ApiCall.options?, OptionsOk o)
    (hv : ∃ v, IsVersion (afterCalls U db first) db v) :
    ∃ es es', runSyncs (realParser E) maxDocs db [] (statesOf U db first parts) = .ok es ∧
      runSyncs (realParser E) maxDocs db [] (statesOf U db first (parts ++ more)) = .ok es' ∧
      ∀ id, QuietRecord U db first (parts ++ more) id → ∀ v, AllAfter v more.flatten →
        SameOfRecordAt (committedOptionsOf db (afterCalls U db (first ++ (parts ++ more).flatten))) E id es es' v := by
  have e : first ++ (parts ++ more).flatten = (first ++ parts.flatten) ++ more.flatten := by simp
  have ho1 : Orderly (first ++ parts.flatten) := by rw [e] at ho; exact ho.left
  have hopt1 : ∀ o ∈ (first ++ parts.flatten).filterMap ApiCall.options?, OptionsOk o := fun o hm => hopt o (by
    rw [e, List.filterMap_append]; exact List.mem_append_left _ hm)
  obtain ⟨es, h1, h⟩ := C129_each E hE hS U hU maxDocs db first parts ho1 hv
  obtain ⟨es', h1', h'⟩ := C129_each E hE hS U hU maxDocs db first (parts ++ more) ho hv
  obtain ⟨_, h2, hd⟩ := C90_data E hE hS U hU maxDocs db first parts ho1 hv
  obtain ⟨_, h2', hd'⟩ := C90_data E hE hS U hU maxDocs db first (parts ++ more) ho hv
  rw [h1] at h2; cases h2
  rw [h1'] at h2'; cases h2'
  obtain ⟨ms, hl⟩ := statesOf_getLast U db parts first
  obtain ⟨ms', hl'⟩ := statesOf_getLast U db (parts ++ more) first
  have hlast : afterCalls U db (first ++ parts.flatten) ∈ statesOf U db first parts := by rw [hl]; simp
  have hlast' : afterCalls U db (first ++ (parts ++ more).flatten) ∈ statesOf U db first (parts ++ more) := by rw [hl']; simp
  have i1 := C79_indexed U db _ ho1.clock hopt1
  have i2 := C79_indexed U db _ ho.clock hopt
  have hne : (optionsGiven U db (first ++ parts.flatten)).committed ≠ [] := by
    rw [← i1]; exact (life_dbOks parts first ho1 hv _ hlast).options.nonempty
  have hc := ho.clock
  rw [e] at hc
  refine ⟨es, es', h1, h1', fun id hq v hv => ?_⟩
  have ha := fun d => asOf_stable (U := U) (db := db) (a := first ++ parts.flatten) hv id d
  have hof := fun o => effective_stable (U := U) (db := db) (a := first ++ parts.flatten) hc hne hv id o
  rw [← e] at ha hof
  rw [← i1, ← i2] at hof
  have ap : (ingested U db (first ++ parts.flatten) id).pending = none :=
    (life (K := fun _ => plainClass) (U := U) (db := db) (fun c _ => fits_plain U c.stream) ho1).toLifeInv.noPendingOf (hq.left.noPending _ hlast)
  have bp : (ingested U db (first ++ (parts ++ more).flatten) id).pending = none :=
    (life (K := fun _ => plainClass) (U := U) (db := db) (fun c _ => fits_plain U c.stream) ho).toLifeInv.noPendingOf (hq.noPending _ hlast')
  have hold : ∀ P, HoldsAsOf (ingested U db (first ++ parts.flatten)) (committedOptionsOf db (afterCalls U db (first ++ parts.flatten))) v id P ↔
      HoldsAsOf (ingested U db (first ++ (parts ++ more).flatten))
        (committedOptionsOf db (afterCalls U db (first ++ (parts ++ more).flatten))) v id P := by
    intro P
    unfold HoldsAsOf
    simp only [ap, bp, ha, hof]
  have hw := h id hq.left
  have hw' := h' id hq
  have hk1 : (∀ x ∈ committedOptionsOf db (afterCalls U db (first ++ (parts ++ more).flatten)), 0 ≤ x.2.keywordLength) →
      ∀ x ∈ committedOptionsOf db (afterCalls U db (first ++ parts.flatten)), 0 ≤ x.2.keywordLength := by
    intro hk x hx
    refine hk x ?_
    rw [i1] at hx
    rw [i2, e]
    exact (optionsGiven_adds U db _ _).sub x hx
  refine ⟨?_, fun hk Q field k hb => ?_, fun Q query field every => ?_, fun hP Q field hk => ?_, fun Q => ?_⟩
  · by_cases hal : Alive (ingested U db (first ++ parts.flatten) id).committed v
    · obtain ⟨a, has, hne⟩ := hal
      obtain ⟨d, p, g1, g2, g3, _⟩ := (hd id hq.left v).1 a has hne
      obtain ⟨d', p', g1', g2', g3', _⟩ := (hd' id hq v).1 a ((ha a).1 has) hne
      exact .inr ⟨d, p, d', p', _, g1, g1', g2, g2', g3, g3'⟩
    · exact .inl ⟨(hd id hq.left v).2 hal, (hd' id hq v).2 (fun ⟨a, has, hne⟩ => hal ⟨a, (ha a).2 has, hne⟩)⟩
  · obtain ⟨q, g1, g2⟩ := hw.asked (hk1 hk) Q field k hb
    obtain ⟨q', g1', g2'⟩ := hw'.asked hk Q field k hb
    rw [g1] at g1'; cases g1'
    exact ⟨q, g1, by rw [g2.atVersion, g2'.atVersion, hold]⟩
  · rw [(hw.text Q query field every).atVersion, (hw'.text Q query field every).atVersion, hold]
  · rw [(hw.values hP Q field hk).atVersion, (hw'.values hP Q field hk).atVersion, hold]
  · rw [(hw.places Q).atVersion, (hw'.places Q).atVersion, hold]

set_option maxRecDepth 100000 in
/-- `c` of C90's example, for which the conditions hold (shown there): the later calls change it at 3, and at 1 it is found with `1` before and
after them. -/
example : AllAfter 1 exBusy2.flatten ∧ (exBusy1 ++ ([] ++ exBusy2).flatten).filterMap ApiCall.options? = [] ∧
    (match runSyncs (realParser exEnv') 10 ['x'] [] (statesOf asciiU ['x'] exBusy1 []),
        runSyncs (realParser exEnv') 10 ['x'] [] (statesOf asciiU ['x'] exBusy1 ([] ++ exBusy2)), (Asked.number (.int 1)).query exQuery ['x'] with
      | .ok es, .ok es', .ok q => decide (['c'] ∈ foundIds (es.searchFor exQuery (.version 1) q) ∧ ['c'] ∈ foundIds (es'.searchFor exQuery (.version 1) q) ∧
          ¬ ['c'] ∈ foundIds (es'.searchFor exQuery (.version 3) q))
      | _, _, _ => false) = true := by
  refine ⟨?_, by decide, by decide +kernel⟩
  unfold AllAfter
  decide

end Splitgill.Props
