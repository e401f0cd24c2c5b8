import Verif.Props.Stale
import Verif.Proof.EachAsked
import Verif.Props.Ever
/-!
# C129 for single records: other records may be as they like
-/

namespace Splitgill.Props
open Splitgill

/-- From some version on, searching at a version is searching without one, in all indices that syncs make. -/
theorem latest_from {P : Type} {es : ES P} (hok : LatestOk es) : ∃ b, ∀ v, b ≤ v → found es (.version v) = found es .latest := by
  cases hv : es.version with
  | none =>
    have e0 := version_none.1 hv
    have e1 : found es .latest = [] := by
      have := all_perm hok.indices
      rw [e0] at this
      exact (List.append_eq_nil_iff.1 (List.nil_perm.1 this)).1
    refine ⟨0, fun v _ => ?_⟩
    rw [e1]
    unfold found ES.search
    rw [hv]
    simp [Search.run, e0]
  | some cur =>
    refine ⟨cur, fun v hle => ?_⟩
    unfold found ES.search
    rw [hv]
    simp only [if_pos hle]

/-- A query finds a record at a version just if `P` holds for its data and the options as of the version, and without a version just if it holds
for its newest data and options. -/
structure FindsJust (s : Store) (opts : List (Int × ParsingOptions)) (es : ES (Option ParsedData)) (id : PyStr) (Q : QueryEnv) (q : EsQuery)
    (P : Dict → ParsingOptions → Prop) : Prop where
  atVersion : ∀ v, id ∈ foundIds (es.searchFor Q (.version v) q) ↔ HoldsAsOf s opts v id P
  now : id ∈ foundIds (es.searchFor Q .latest q) ↔ HoldsNow s opts id P

/-- The queries that `term_query`, `range_query`, `match_query`, `exists_query` and `has_geo` make find the record `id` just if it has what they ask
for. -/
structure AnswersAbout (E : ParseEnv) (s : Store) (opts : List (Int × ParsingOptions)) (es : ES (Option ParsedData)) (id : PyStr) : Prop where
  /-- `term_query` and `range_query` -/
  asked : (∀ x ∈ opts, 0 ≤ x.2.keywordLength) → ∀ (Q : QueryEnv) (field : PyStr) (k : Asked), k.Bounded → ∃ q, k.query Q field = .ok q ∧
    FindsJust s opts es id Q q (fun a o => HasInField a field (k.holds Q E o))
  /-- `match_query` -/
  text : ∀ (Q : QueryEnv) (query : PyStr) (field : Option PyStr) (every : Bool),
    FindsJust s opts es id Q (.match_ (matchQuery query field every)) (fun a o => MatchesText Q.analyse every query (IsTextOf E o a field))
  /-- `exists_query` -/
  values : E.PlacesHaveValues → ∀ (Q : QueryEnv) (field : PyStr), (∀ k ∈ splitDots field, FieldName k) →
    FindsJust s opts es id Q (.exists_ (existsQuery field)) (fun a _ => ∃ p x, fieldPath p = field ∧ getAt p (.dict a) = some x ∧ HasValue x)
  /-- `has_geo` -/
  places : ∀ (Q : QueryEnv), FindsJust s opts es id Q (.exists_ hasGeo) (fun a o => ∃ p g, PlaceAt E o a p g)
  /-- Searches find it at most once. -/
  once : (∀ v, (foundFor es (.version v) id).length ≤ 1) ∧ (foundFor es .latest id).length ≤ 1

theorem findsJust_of {s : Store} {opts : List (Int × ParsingOptions)} {es : ES (Option ParsedData)} (hok : LatestOk es) {id : PyStr}
    {Q : QueryEnv} {q : EsQuery} {P : Dict → ParsingOptions → Prop}
    (h : ∀ v, id ∈ foundIds (es.searchFor Q (.version v) q) ↔ HoldsAsOf s opts v id P) : FindsJust s opts es id Q q P := by
  obtain ⟨b, hb⟩ := latest_from hok
  obtain ⟨v, hv⟩ := exists_bound (b :: ((s id).committed.map Prod.fst ++ opts.map Prod.fst))
  refine ⟨h, ?_⟩
  rw [← searchFor_same (hb v (hv b (by simp))), h v, holdsNow_iff (fun w hw => hv w (by simp [hw])) (fun w hw => hv w (by simp [hw]))]

/-- A record of which the indices `es` have what those of a first sync have. -/
theorem answersAbout_of {E : ParseEnv} (hE : E.IgnoresOrder) (hS : E.ScalarHints) {db : PyStr} {m : Mongo} {s : Store}
    {hi : Option Int} {K : PyStr → DataClass} (hli : LifeInv K db m s hi) (hm : DbOk db m) {es es0 : ES (Option ParsedData)}
    (h2 : LatestOk es0) (h3 : IndexesRecords (realParser E) db m ((m.data db).filter (fun r => r.version.isSome)) es0)
    {T : Places} {id : PyStr} (hK : K id = (strictClass T).named) (hok : LatestOk es)
    (h : ∀ v, foundFor es (.version v) id = foundFor es0 (.version v) id ∧ ∀ (Q : QueryEnv) (q : EsQuery),
      id ∈ foundIds (es.searchFor Q (.version v) q) ↔ id ∈ foundIds (es0.searchFor Q (.version v) q)) :
    AnswersAbout E s (committedOptionsOf db m) es id := by
  have once : ∀ v, (foundFor es (.version v) id).length ≤ 1 := by
    intro v
    rw [(h v).1]
    rcases hli.found_once_at hE hS hm h2 h3 hK v with e | ⟨d, e⟩ <;> rw [e] <;> simp
  constructor
  · intro hk Q field k hb
    obtain ⟨q, g1, g2⟩ := hli.asked_at hE hS hm h2 h3 hK hk Q field k hb
    exact ⟨q, g1, findsJust_of hok (fun v => ((h v).2 Q q).trans (g2 v))⟩
  · exact fun Q query field every => findsJust_of hok (fun v => ((h v).2 Q _).trans (hli.asked_text_at hE hS hm h2 h3 hK Q query field every v))
  · exact fun hP Q field hk => findsJust_of hok (fun v => ((h v).2 Q _).trans (hli.asked_exists_at hE hS hm h2 h3 hK hP Q field hk v))
  · exact fun Q => findsJust_of hok (fun v => ((h v).2 Q _).trans (hli.asked_geo_at hE hS hm h2 h3 hK Q v))
  · refine ⟨once, ?_⟩
    obtain ⟨b, hb⟩ := latest_from hok
    have := once b
    unfold foundFor at this ⊢
    rwa [hb b (Int.le_refl b)] at this

/-- **C90** for all kinds of queries, and **C129** for single records: a record that has nothing uncommitted at the syncs, is not changed and then
deleted between two syncs, and is not given equal values of different types is found, after any calls and syncs between them, just if it has what is
asked for, at all versions and without one, whatever happens to other records. -/
theorem C129_each (E : ParseEnv) (hE : E.IgnoresOrder) (hS : E.ScalarHints) (U : Unicode) (hU : U.Sane) (maxDocs : Nat) (db : PyStr)
    (first : List ApiCall) (parts : List (List ApiCall)) (ho : Orderly (first ++ parts.flatten))
    (hv : ∃ v, IsVersion (afterCalls U db first) db v) :
    ∃ es, runSyncs (realParser E) maxDocs db [] (statesOf U db first parts) = .ok es ∧
      ∀ id, QuietRecord U db first parts id →
        AnswersAbout E (ingested U db (first ++ parts.flatten)) (committedOptionsOf db (afterCalls U db (first ++ parts.flatten))) es id := by
  obtain ⟨es, es0, h1, h0, h⟩ := C90_each E hE U hU maxDocs db first parts ho hv
  obtain ⟨es', h1', hok⟩ := runSyncs_ok (realParser E) maxDocs _ [] (life_dbOks parts first ho hv) latestOk_nil
  rw [h1] at h1'; cases h1'
  obtain ⟨ms, hl⟩ := statesOf_getLast U db parts first
  have hm := life_dbOks parts first ho hv _ (by rw [hl]; simp : afterCalls U db (first ++ parts.flatten) ∈ statesOf U db first parts)
  obtain ⟨es0', h0', h2, h3⟩ := C30_first_sync (realParser E) maxDocs db _ hm
  rw [h0] at h0'; cases h0'
  refine ⟨es, h1, fun id hq => ?_⟩
  have hli := (life (K := fun i => (classFor id (placesOf U _ hq.noPuns id) i).named) (U := U) (db := db)
    (fun c hc => fits_classFor hU id hq.noPuns (fun r hr => List.mem_flatMap.2 ⟨c, hc, hr⟩)) ho).toLifeInv
  exact answersAbout_of hE hS hli hm h2 h3 (T := placesOf U _ hq.noPuns id) (by rw [classFor_self]) hok (h id hq)

/-- **C92** for all kinds of queries: a record that exists now, has nothing uncommitted at the syncs and is not given equal values of different types is
found just if it has what is asked for, at all versions and without one; it may have been changed and deleted between syncs in any way. -/
theorem C92_answers (E : ParseEnv) (hE : E.IgnoresOrder) (hS : E.ScalarHints) (U : Unicode) (hU : U.Sane) (maxDocs : Nat) (db : PyStr)
    (first : List ApiCall) (parts : List (List ApiCall)) (ho : Orderly (first ++ parts.flatten))
    (hv : ∃ v, IsVersion (afterCalls U db first) db v) :
    ∃ es, runSyncs (realParser E) maxDocs db [] (statesOf U db first parts) = .ok es ∧
      ∀ id, CalmRecord U db first parts id → ExistsNow db id (afterCalls U db (first ++ parts.flatten)) →
        AnswersAbout E (ingested U db (first ++ parts.flatten)) (committedOptionsOf db (afterCalls U db (first ++ parts.flatten))) es id := by
  obtain ⟨es, es0, h1, h0, h⟩ := C92_queries E hE U hU maxDocs db first parts ho hv
  obtain ⟨es', h1', hok⟩ := runSyncs_ok (realParser E) maxDocs _ [] (life_dbOks parts first ho hv) latestOk_nil
  rw [h1] at h1'; cases h1'
  obtain ⟨ms, hl⟩ := statesOf_getLast U db parts first
  have hm := life_dbOks parts first ho hv _ (by rw [hl]; simp : afterCalls U db (first ++ parts.flatten) ∈ statesOf U db first parts)
  obtain ⟨es0', h0', h2, h3⟩ := C30_first_sync (realParser E) maxDocs db _ hm
  rw [h0] at h0'; cases h0'
  refine ⟨es, h1, fun id hq hex => ?_⟩
  have hli := (life (K := fun i => (classFor id (placesOf U _ hq.noPuns id) i).named) (U := U) (db := db)
    (fun c hc => fits_classFor hU id hq.noPuns (fun r hr => List.mem_flatMap.2 ⟨c, hc, hr⟩)) ho).toLifeInv
  exact answersAbout_of hE hS hli hm h2 h3 (T := placesOf U _ hq.noPuns id) (by rw [classFor_self]) hok
    (fun v => ⟨((h id hq v).2 hex).1, ((h id hq v).2 hex).2.2⟩)

set_option maxRecDepth 100000 in
/-- `c` of C90's example, for which the conditions hold (shown there), has `2` now and had `1` before. -/
example : (match runSyncs (realParser exEnv') 10 ['x'] [] (statesOf asciiU ['x'] exBusy1 exBusy2), (Asked.number (.int 1)).query exQuery ['x'],
        (Asked.number (.int 2)).query exQuery ['x'] with
      | .ok es, .ok q, .ok q' => decide (¬ ['c'] ∈ foundIds (es.searchFor exQuery .latest q) ∧
          ['c'] ∈ foundIds (es.searchFor exQuery .latest q') ∧ ['c'] ∈ foundIds (es.searchFor exQuery (.version 1) q) ∧
          ['c'] ∈ foundIds (es.searchFor exQuery .latest (.match_ (matchQuery ['2'] (some ['x']) true))) ∧
          ¬ ['c'] ∈ foundIds (es.searchFor exQuery (.version 1) (.match_ (matchQuery ['2'] (some ['x']) true))) ∧
          ['c'] ∈ foundIds (es.searchFor exQuery .latest (.exists_ (existsQuery ['x']))) ∧
          ¬ ['c'] ∈ foundIds (es.searchFor exQuery .latest (.exists_ hasGeo)))
      | _, _, _ => false) = true := by decide +kernel

set_option maxRecDepth 100000 in
/-- The record of C92's example, for which the conditions hold (shown there), was `1` at 1, is deleted at 3 and is `4` now. -/
example : (match runSyncs (realParser exEnv') 10 ['x'] [] (statesOf asciiU ['x'] exLeft1 [exLeft2, exLeft3]),
        (Asked.number (.int 1)).query exQuery ['x'], (Asked.number (.int 4)).query exQuery ['x'] with
      | .ok es, .ok q, .ok q' => decide (foundIds (es.searchFor exQuery .latest q) = [] ∧ foundIds (es.searchFor exQuery .latest q') = [['a']] ∧
          foundIds (es.searchFor exQuery (.version 1) q) = [['a']] ∧
          foundIds (es.searchFor exQuery (.version 3) (.exists_ (existsQuery ['x']))) = [])
      | _, _, _ => false) = true := by decide +kernel

end Splitgill.Props
