import Verif.Props.EverEach
/-!
# C131: other records do not affect what is found of a record
-/

namespace Splitgill

/-- Searches of two sets of indices find the same of a record: at every version nothing in both, or one document in both, with the same data; and the
queries that `term_query`, `range_query`, `match_query`, `exists_query` and `has_geo` make find it in both or in neither, at every version, without a
version, and on all versions. -/
structure SameOfRecord (opts : List (Int × ParsingOptions)) (E : ParseEnv) (id : PyStr) (es es' : ES (Option ParsedData)) : Prop where
  data : ∀ v, foundFor es (.version v) id = [] ∧ foundFor es' (.version v) id = [] ∨
    ∃ d p d' p' a, foundFor es (.version v) id = [d] ∧ foundFor es' (.version v) id = [d'] ∧ d.parsed = some p ∧ d'.parsed = some p' ∧
      strictEq (.dict (rebuildData p.parsed)) a = true ∧ strictEq (.dict (rebuildData p'.parsed)) a = true
  asked : (∀ x ∈ opts, 0 ≤ x.2.keywordLength) → ∀ (Q : QueryEnv) (field : PyStr) (k : Asked), k.Bounded → ∃ q, k.query Q field = .ok q ∧
    ∀ at_, id ∈ foundIds (es.searchFor Q at_ q) ↔ id ∈ foundIds (es'.searchFor Q at_ q)
  text : ∀ (Q : QueryEnv) (query : PyStr) (field : Option PyStr) (every : Bool) (at_ : SearchAt),
    id ∈ foundIds (es.searchFor Q at_ (.match_ (matchQuery query field every))) ↔
      id ∈ foundIds (es'.searchFor Q at_ (.match_ (matchQuery query field every)))
  values : E.PlacesHaveValues → ∀ (Q : QueryEnv) (field : PyStr), (∀ k ∈ splitDots field, FieldName k) → ∀ at_ : SearchAt,
    id ∈ foundIds (es.searchFor Q at_ (.exists_ (existsQuery field))) ↔ id ∈ foundIds (es'.searchFor Q at_ (.exists_ (existsQuery field)))
  places : ∀ (Q : QueryEnv) (at_ : SearchAt), id ∈ foundIds (es.searchFor Q at_ (.exists_ hasGeo)) ↔
    id ∈ foundIds (es'.searchFor Q at_ (.exists_ hasGeo))

end Splitgill

namespace Splitgill.Props
open Splitgill

theorem findsSame_of {s s' : Store} {opts : List (Int × ParsingOptions)} {es es' : ES (Option ParsedData)} {id : PyStr} {Q : QueryEnv} {q : EsQuery}
    {P : Dict → ParsingOptions → Prop} (e : s id = s' id) (hv : VersionsOf es id) (hv' : VersionsOf es' id) (h : FindsJust s opts es id Q q P)
    (h' : FindsJust s' opts es' id Q q P) (at_ : SearchAt) : id ∈ foundIds (es.searchFor Q at_ q) ↔ id ∈ foundIds (es'.searchFor Q at_ q) := by
  have hc : ∀ v, HoldsAsOf s opts v id P ↔ HoldsAsOf s' opts v id P := fun v => by unfold HoldsAsOf; rw [e]
  have hn : HoldsNow s opts id P ↔ HoldsNow s' opts id P := by unfold HoldsNow; rw [e]
  cases at_ with
  | version v => rw [h.atVersion, h'.atVersion, hc]
  | latest => rw [h.now, h'.now, hn]
  | all => rw [(findsEverOf_of hv h).2, (findsEverOf_of hv' h').2]; exact exists_congr hc

/-- **C131**: two databases, with any calls, records, options of the syncs and times of syncs; a record for which the conditions of C90 hold in both,
whose history is the same in both, and the same committed parsing options. Then searches find the same of this record, whatever the other records. -/
theorem C131_isolated (E : ParseEnv) (hE : E.IgnoresOrder) (hS : E.ScalarHints) (U : Unicode) (hU : U.Sane) (maxDocs maxDocs' : Nat) (db db' : PyStr)
    (first first' : List ApiCall) (parts parts' : List (List ApiCall)) (ho : Orderly (first ++ parts.flatten)) (ho' : Orderly (first' ++ parts'.flatten))
    (hv : ∃ v, IsVersion (afterCalls U db first) db v) (hv' : ∃ v, IsVersion (afterCalls U db' first') db' v)
    (hopts : committedOptionsOf db (afterCalls U db (first ++ parts.flatten)) = committedOptionsOf db' (afterCalls U db' (first' ++ parts'.flatten))) :
    ∃ es es', runSyncs (realParser E) maxDocs db [] (statesOf U db first parts) = .ok es ∧
      runSyncs (realParser E) maxDocs' db' [] (statesOf U db' first' parts') = .ok es' ∧
      ∀ id, QuietRecord U db first parts id → QuietRecord U db' first' parts' id →
        ingested U db (first ++ parts.flatten) id = ingested U db' (first' ++ parts'.flatten) id →
        SameOfRecord (committedOptionsOf db (afterCalls U db (first ++ parts.flatten))) E id es es' := by
  obtain ⟨es, h1, h⟩ := C129_each E hE hS U hU maxDocs db first parts ho hv
  obtain ⟨es', h1', h'⟩ := C129_each E hE hS U hU maxDocs' db' first' parts' ho' hv'
  obtain ⟨_, h2, hd⟩ := C90_data E hE hS U hU maxDocs db first parts ho hv
  obtain ⟨_, h2', hd'⟩ := C90_data E hE hS U hU maxDocs' db' first' parts' ho' hv'
  rw [h1] at h2; cases h2
  rw [h1'] at h2'; cases h2'
  refine ⟨es, es', h1, h1', fun id hq hq' e => ?_⟩
  have ha := h id hq
  have ha' := h' id hq'
  rw [← hopts] at ha'
  have hw := quiet_versions hE hU maxDocs ho hv hq h1
  have hw' := quiet_versions hE hU maxDocs' ho' hv' hq' h1'
  refine ⟨fun v => ?_, fun hk Q field k hb => ?_, fun Q query field every => findsSame_of e hw hw' (ha.text Q query field every) (ha'.text Q query field every),
    fun hP Q field hk => findsSame_of e hw hw' (ha.values hP Q field hk) (ha'.values hP Q field hk),
    fun Q => findsSame_of e hw hw' (ha.places Q) (ha'.places Q)⟩
  · by_cases hal : Alive (ingested U db (first ++ parts.flatten) id).committed v
    · obtain ⟨a, has, hne⟩ := hal
      obtain ⟨d, p, g1, g2, g3, _⟩ := (hd id hq v).1 a has hne
      obtain ⟨d', p', g1', g2', g3', _⟩ := (hd' id hq' v).1 a (e ▸ has) hne
      exact .inr ⟨d, p, d', p', _, g1, g1', g2, g2', g3, g3'⟩
    · exact .inl ⟨(hd id hq v).2 hal, (hd' id hq' v).2 (e ▸ hal)⟩
  · obtain ⟨q, g1, g2⟩ := ha.asked hk Q field k hb
    obtain ⟨q', g1', g2'⟩ := ha'.asked hk Q field k hb
    rw [g1] at g1'; cases g1'
    exact ⟨q, g1, findsSame_of e hw hw' g2 g2'⟩

/-- `c` alone, with one sync at the end, as it is in C90's example with two other records and two syncs. -/
def exAlone : List ApiCall := [.ingest none [exRec ['c'] 1] true 1, .ingest none [exRec ['c'] 2] true 3]

set_option maxRecDepth 100000 in
/-- The conditions hold for `c` here and in C90's example (shown there), the histories of `c` and the options are the same, and other records are
found in only one of them. -/
example : Orderly (exAlone ++ ([] : List (List ApiCall)).flatten) ∧ (∃ v, IsVersion (afterCalls asciiU ['y'] exAlone) ['y'] v) ∧
    QuietRecord asciiU ['y'] exAlone [] ['c'] ∧
    ingested asciiU ['x'] (exBusy1 ++ exBusy2.flatten) ['c'] = ingested asciiU ['y'] (exAlone ++ ([] : List (List ApiCall)).flatten) ['c'] ∧
    committedOptionsOf ['x'] (afterCalls asciiU ['x'] (exBusy1 ++ exBusy2.flatten)) =
      committedOptionsOf ['y'] (afterCalls asciiU ['y'] (exAlone ++ ([] : List (List ApiCall)).flatten)) ∧
    (match runSyncs (realParser exEnv') 10 ['x'] [] (statesOf asciiU ['x'] exBusy1 exBusy2),
        runSyncs (realParser exEnv') 5 ['y'] [] (statesOf asciiU ['y'] exAlone []), (Asked.number (.int 2)).query exQuery ['x'] with
      | .ok es, .ok es', .ok q => decide (['c'] ∈ foundIds (es.searchFor exQuery .latest q) ∧ ['c'] ∈ foundIds (es'.searchFor exQuery .latest q) ∧
          ['b'] ∈ foundIds (es.searchFor exQuery .all (.exists_ (existsQuery ['x']))) ∧
          ¬ ['b'] ∈ foundIds (es'.searchFor exQuery .all (.exists_ (existsQuery ['x']))))
      | _, _, _ => false) = true := by
  have same : ∀ h h' : Hist, h.committed = h'.committed → h.pending = h'.pending → h = h' := by
    rintro ⟨c, p⟩ ⟨c', p'⟩ rfl rfl; rfl
  refine ⟨⟨by decide, ?_⟩, ⟨1, .inr ⟨(afterCalls asciiU ['y'] exAlone).options.head (by decide), by decide, by decide, by decide⟩⟩,
    ⟨?_, trivial, ?_⟩, same _ _ (by decide +kernel) (by decide +kernel), by decide +kernel, by decide +kernel⟩
  · intro c hc
    simp [exAlone] at hc
    rcases hc with rfl | rfl <;> unfold NoSpan <;> decide
  · have : ∀ m ∈ statesOf asciiU ['y'] exAlone [], ∀ r ∈ m.data ['y'], r.id = ['c'] → r.version ≠ none := by decide +kernel
    exact this
  · apply noPuns_of_flat <;> decide +kernel

end Splitgill.Props
