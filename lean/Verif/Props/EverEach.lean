import Verif.Props.NowEach
/-!
# C130 for single records: other records may be as they like
-/

namespace Splitgill

/-- The documents of the record `id` that are found when all versions are searched: each is for some versions, searches at just these find it, no
two are for the same version, and none is there twice. -/
structure VersionsOf {P : Type} (es : ES P) (id : PyStr) : Prop where
  at_version : ∀ d v, d ∈ foundFor es (.version v) id ↔ d ∈ foundFor es .all id ∧ d.covers v
  some_version : ∀ d ∈ foundFor es .all id, d.covers d.version
  apart : ∀ d ∈ foundFor es .all id, ∀ d' ∈ foundFor es .all id, ∀ v, d.covers v → d'.covers v → d = d'
  once : (foundFor es .all id).Nodup

/-- A query on all versions finds documents of the record for just the versions for which `holds`. -/
def FindsEverOf (Q : QueryEnv) (es : ES (Option ParsedData)) (id : PyStr) (q : EsQuery) (holds : Int → Prop) : Prop :=
  (∀ v, holds v ↔ ∃ d ∈ es.searchFor Q .all q, d.id = id ∧ d.covers v) ∧ (id ∈ foundIds (es.searchFor Q .all q) ↔ ∃ v, holds v)

/-- The queries that `term_query`, `range_query`, `match_query`, `exists_query` and `has_geo` make, on all versions, find documents of the record for
just the versions at which it has what they ask for. -/
structure AnswersEverOf (E : ParseEnv) (s : Store) (opts : List (Int × ParsingOptions)) (es : ES (Option ParsedData)) (id : PyStr) : Prop where
  /-- `term_query` and `range_query` -/
  asked : (∀ x ∈ opts, 0 ≤ x.2.keywordLength) → ∀ (Q : QueryEnv) (field : PyStr) (k : Asked), k.Bounded → ∃ q, k.query Q field = .ok q ∧
    FindsEverOf Q es id q (fun v => HoldsAsOf s opts v id (fun a o => HasInField a field (k.holds Q E o)))
  /-- `match_query` -/
  text : ∀ (Q : QueryEnv) (query : PyStr) (field : Option PyStr) (every : Bool),
    FindsEverOf Q es id (.match_ (matchQuery query field every))
      (fun v => HoldsAsOf s opts v id (fun a o => MatchesText Q.analyse every query (IsTextOf E o a field)))
  /-- `exists_query` -/
  values : E.PlacesHaveValues → ∀ (Q : QueryEnv) (field : PyStr), (∀ k ∈ splitDots field, FieldName k) →
    FindsEverOf Q es id (.exists_ (existsQuery field))
      (fun v => HoldsAsOf s opts v id (fun a _ => ∃ p x, fieldPath p = field ∧ getAt p (.dict a) = some x ∧ HasValue x))
  /-- `has_geo` -/
  places : ∀ (Q : QueryEnv), FindsEverOf Q es id (.exists_ hasGeo) (fun v => HoldsAsOf s opts v id (fun a o => ∃ p g, PlaceAt E o a p g))

end Splitgill

namespace Splitgill.Props
open Splitgill

theorem holdsFor_all {P : Type} {es : ES P} {t : Int} (hs : SoundIndices t es) {id : PyStr} {D : List (Doc P)} (hg : GoodDocs D)
    (h : HoldsFor es id D) : (foundFor es .all id).Perm D := by
  show (es.all.filter (fun d => decide (d.id = id))).Perm D
  refine ((all_perm hs.ok.indices).filter _).trans ?_
  rw [List.filter_append]
  refine (List.Perm.append_right _ (List.Perm.of_eq (latest_filter hs id))).trans ?_
  rw [h.latest]
  exact (List.Perm.append_left _ h.archived).trans (openOf_perm hg)

theorem goodDocs_apart {P : Type} {D : List (Doc P)} (hg : GoodDocs D) :
    D.Nodup ∧ ∀ d ∈ D, ∀ d' ∈ D, ∀ v, d.covers v → d'.covers v → d = d' := by
  induction D with
  | nil => simp
  | cons x l ih =>
    obtain ⟨h1, h2⟩ := ih hg.tail
    have hp := (List.pairwise_cons.1 hg.pair).1
    have hx : ∀ d ∈ l, ∀ v, x.covers v → d.covers v → False := by
      intro d hd v hc hc'
      obtain ⟨e, he, hle⟩ := hp d hd
      have := hc.2 e he
      have := hc'.1
      omega
    have hself : ∀ d ∈ x :: l, d.covers d.gte := fun d hd => ⟨Int.le_refl _, fun e he => hg.range d hd e he⟩
    refine ⟨List.nodup_cons.2 ⟨fun hm => hx x hm x.gte (hself x (by simp)) (hself x (by simp)), h1⟩, ?_⟩
    intro d hd d' hd' v hc hc'
    rcases List.mem_cons.1 hd with e | k <;> rcases List.mem_cons.1 hd' with e' | k'
    · rw [e, e']
    · exact (hx d' k' v (e ▸ hc) hc').elim
    · exact (hx d k v (e' ▸ hc') hc).elim
    · exact h2 d k d' k' v hc hc'

theorem versionsOf_of {P : Type} {es : ES P} {t : Int} (hs : SoundIndices t es) {id : PyStr} {D : List (Doc P)} (hg : GoodDocs D)
    (h : HoldsFor es id D) : VersionsOf es id where
  at_version d v := by
    rw [(h.found hs hg v).mem_iff, (holdsFor_all hs hg h).mem_iff, List.mem_filter, inRange_iff]
  some_version d hd := by
    have hd := (holdsFor_all hs hg h).mem_iff.1 hd
    rw [(hg.fields d hd).1]
    exact ⟨Int.le_refl _, fun e he => hg.range d hd e he⟩
  apart d hd d' hd' := (goodDocs_apart hg).2 d ((holdsFor_all hs hg h).mem_iff.1 hd) d' ((holdsFor_all hs hg h).mem_iff.1 hd')
  once := (holdsFor_all hs hg h).nodup_iff.2 (goodDocs_apart hg).1

theorem quiet_versions {U : Unicode} {db : PyStr} {E : ParseEnv} (hE : E.IgnoresOrder) (hU : U.Sane) (maxDocs : Nat) {first : List ApiCall}
    {parts : List (List ApiCall)} (ho : Orderly (first ++ parts.flatten)) (hv : ∃ v, IsVersion (afterCalls U db first) db v)
    {id : PyStr} (h : QuietRecord U db first parts id) {es : ES (Option ParsedData)}
    (h1 : runSyncs (realParser E) maxDocs db [] (statesOf U db first parts) = .ok es) : VersionsOf es id := by
  have hR := realParser_respects (E := E) hE (fun _ => placesOf U _ h.noPuns id)
  have hX : ∀ a b o, DEq ((classFor id (placesOf U _ h.noPuns id) id).named) a b → (realParser E).parse a o = (realParser E).parse b o := by
    rw [classFor_self]
    exact fun a b o => hR.named id a b o
  have hq : ∀ c ∈ first ++ parts.flatten, Fits (fun i => (classFor id (placesOf U _ h.noPuns id) i).named) U c.stream := fun c hc =>
    fits_classFor hU id h.noPuns (fun r hr => List.mem_flatMap.2 ⟨c, hc, hr⟩)
  obtain ⟨t, htl, _⟩ := life_evolves (K := fun _ => plainClass) (a := first) (b := []) (fun c _ => fits_plain U c.stream)
    (by simpa using ho.left) hv.choose_spec
  have ht := life_timelineFor hX parts first t hq ho hv (fun t' h' => by rw [htl] at h'; cases h'; omega) h.noUpdateDelete h.noPending
  have hms := life_dbOks parts first ho hv
  generalize statesOf U db first parts = l at h1 ht hms
  cases l with
  | nil =>
    cases h1
    exact ⟨fun d v => by simp [foundFor, found, ES.search, Search.run, ES.version, ES.all], fun d hd => by simp [foundFor, found, ES.search, Search.run, ES.all] at hd,
      fun d hd => by simp [foundFor, found, ES.search, Search.run, ES.all] at hd, by simp [foundFor, found, ES.search, Search.run, ES.all]⟩
  | cons a l =>
    obtain ⟨es', t', k1, k2, k3⟩ := runSyncs_each_first (realParser E) db id maxDocs l a t ht
    rw [h1] at k1
    cases k1
    exact versionsOf_of k2 ((hms _ (List.getLast_mem (by simp))).good (realParser E) id) k3

theorem findsEverOf_of {es : ES (Option ParsedData)} {id : PyStr} (h : VersionsOf es id) {Q : QueryEnv} {q : EsQuery} {s : Store}
    {opts : List (Int × ParsingOptions)} {P : Dict → ParsingOptions → Prop} (hf : FindsJust s opts es id Q q P) :
    FindsEverOf Q es id q (fun v => HoldsAsOf s opts v id P) := by
  have key : ∀ v, HoldsAsOf s opts v id P ↔ ∃ d ∈ es.searchFor Q .all q, d.id = id ∧ d.covers v := by
    intro v
    rw [← hf.atVersion v, foundIds, List.mem_map]
    constructor
    · rintro ⟨d, hd, hid⟩
      obtain ⟨g1, g2⟩ := List.mem_filter.1 hd
      obtain ⟨g3, g4⟩ := (h.at_version d v).1 (mem_found_iff.2 ⟨g1, hid⟩)
      exact ⟨d, List.mem_filter.2 ⟨(mem_found_iff.1 g3).1, g2⟩, hid, g4⟩
    · rintro ⟨d, hd, hid, hc⟩
      obtain ⟨g1, g2⟩ := List.mem_filter.1 hd
      exact ⟨d, List.mem_filter.2 ⟨(mem_found_iff.1 ((h.at_version d v).2 ⟨mem_found_iff.2 ⟨g1, hid⟩, hc⟩)).1, g2⟩, hid⟩
  refine ⟨key, ?_⟩
  rw [foundIds, List.mem_map]
  constructor
  · rintro ⟨d, hd, hid⟩
    exact ⟨d.version, (key _).2 ⟨d, hd, hid, h.some_version d (mem_found_iff.2 ⟨(List.mem_filter.1 hd).1, hid⟩)⟩⟩
  · rintro ⟨v, hv⟩
    obtain ⟨d, hd, hid, _⟩ := (key v).1 hv
    exact ⟨d, hd, hid⟩

/-- **C130** for a record that has nothing uncommitted at the syncs, is not changed and then deleted between two syncs, and is not given equal values
of different types, whatever happens to others: after any calls and syncs between them, searches of all versions find its documents, each once and
for versions of its own, and queries find those for the versions at which the record has what is asked for. -/
theorem C130_each (E : ParseEnv) (hE : E.IgnoresOrder) (hS : E.ScalarHints) (U : Unicode) (hU : U.Sane) (maxDocs : Nat) (db : PyStr)
    (first : List ApiCall) (parts : List (List ApiCall)) (ho : Orderly (first ++ parts.flatten))
    (hv : ∃ v, IsVersion (afterCalls U db first) db v) :
    ∃ es, runSyncs (realParser E) maxDocs db [] (statesOf U db first parts) = .ok es ∧
      ∀ id, QuietRecord U db first parts id → VersionsOf es id ∧
        AnswersEverOf E (ingested U db (first ++ parts.flatten)) (committedOptionsOf db (afterCalls U db (first ++ parts.flatten))) es id := by
  obtain ⟨es, h1, h⟩ := C129_each E hE hS U hU maxDocs db first parts ho hv
  refine ⟨es, h1, fun id hq => ?_⟩
  have hvs := quiet_versions hE hU maxDocs ho hv hq h1
  have ha := h id hq
  refine ⟨hvs, fun hk Q field k hb => ?_, fun Q query field every => findsEverOf_of hvs (ha.text Q query field every),
    fun hP Q field hk => findsEverOf_of hvs (ha.values hP Q field hk), fun Q => findsEverOf_of hvs (ha.places Q)⟩
  obtain ⟨q, g1, g2⟩ := ha.asked hk Q field k hb
  exact ⟨q, g1, findsEverOf_of hvs g2⟩

set_option maxRecDepth 100000 in
/-- `c` of C90's example, for which the conditions hold (shown there), has two documents. -/
example : (match runSyncs (realParser exEnv') 10 ['x'] [] (statesOf asciiU ['x'] exBusy1 exBusy2), (Asked.number (.int 1)).query exQuery ['x'],
        (Asked.number (.int 2)).query exQuery ['x'] with
      | .ok es, .ok q, .ok q' => decide (
          (es.searchFor exQuery .all q).filterMap (fun d : Doc (Option ParsedData) => if d.id = ['c'] then some (d.gte, d.lt) else none) = [(1, some 3)] ∧
          (es.searchFor exQuery .all q').filterMap (fun d : Doc (Option ParsedData) => if d.id = ['c'] then some (d.gte, d.lt) else none) = [(3, none)])
      | _, _, _ => false) = true := by decide +kernel

end Splitgill.Props
