import Verif.Props.Now
/-!
# C130: searches of all versions
-/

namespace Splitgill.Props
open Splitgill

theorem findsEver_of {es : ES (Option ParsedData)} (h : AllVersions es) {Q : QueryEnv} {q : EsQuery} {holds : PyStr → Int → Prop}
    (hq : ∀ v id, id ∈ foundIds (es.searchFor Q (.version v) q) ↔ holds id v) : FindsEver Q es q holds := by
  have key : ∀ id v, holds id v ↔ ∃ d ∈ es.searchFor Q .all q, d.id = id ∧ d.covers v := by
    intro id v
    rw [← hq, foundIds, List.mem_map]
    constructor
    · rintro ⟨d, hd, rfl⟩
      obtain ⟨h1, h2⟩ := List.mem_filter.1 hd
      obtain ⟨h3, h4⟩ := (h.at_version d v).1 h1
      exact ⟨d, List.mem_filter.2 ⟨h3, h2⟩, rfl, h4⟩
    · rintro ⟨d, hd, rfl, hc⟩
      obtain ⟨h1, h2⟩ := List.mem_filter.1 hd
      exact ⟨d, List.mem_filter.2 ⟨(h.at_version d v).2 ⟨h1, hc⟩, h2⟩, rfl⟩
  refine ⟨key, fun id => ?_⟩
  simp only [key, foundIds, List.mem_map]
  constructor
  · rintro ⟨d, hd, rfl⟩
    exact ⟨d.version, d, hd, rfl, h.some_version d (List.mem_filter.1 hd).1⟩
  · rintro ⟨v, d, hd, e, _⟩
    exact ⟨d, hd, e⟩

/-- **C130** for every state of the indices that C103 speaks of, also after repairs (C128). -/
theorem C130_ever {E : ParseEnv} {U : Unicode} {rs : List Record} {s : Store} {opts : List (Int × ParsingOptions)} {es : ES (Option ParsedData)}
    (h : AnswersAll E U rs s opts es) : AllVersions es ∧ AnswersEver E s opts es := by
  refine ⟨h.allVersions, fun hk Q field k hb => ?_, fun Q query field every => ?_, fun hP Q field hk => ?_, fun Q => ?_⟩
  · obtain ⟨q, h1, h2⟩ := h.queries.asked hk Q field k hb
    exact ⟨q, h1, findsEver_of h.allVersions fun v => (h2 v).2⟩
  · exact findsEver_of h.allVersions fun v => (h.queries.text Q query field every v).2
  · exact findsEver_of h.allVersions fun v => (h.queries.values hP Q field hk v).2
  · exact findsEver_of h.allVersions fun v => (h.queries.places Q v).2

/-- **C130** after one sync: after any calls, also ones that were stopped at any of their writes, queries on all versions find documents for just the
records and versions that have what is asked for. -/
theorem C130_first (E : ParseEnv) (hE : E.IgnoresOrder) (hS : E.ScalarHints) (U : Unicode) (hU : U.Sane) (maxDocs : Nat)
    (db : PyStr) (steps : List Step) (ho : OrderlySteps steps) (hv : committedOptionsOf db (afterSteps U db steps) ≠ [])
    (hn : NoPunsAmong U (steps.flatMap Step.stream)) :
    ∃ es s, sync (realParser E) maxDocs db false (afterSteps U db steps) [] = .ok es ∧ PossibleHistories U db steps s ∧ AllVersions es ∧
      AnswersEver E s (committedOptionsOf db (afterSteps U db steps)) es := by
  obtain ⟨es, hi, s, h1, hs, hl, hm, h2, h3⟩ := setup_first_steps E U hU maxDocs db steps ho hv hn
  exact ⟨es, s, h1, hs, C130_ever (answersAll_of_life hE hS hl hm h2 h3 (possible_from hs))⟩

/-- **C130** after any steps and syncs between them: records are not changed and deleted between two syncs, and have nothing uncommitted at the
syncs. -/
theorem C130_syncs (E : ParseEnv) (hE : E.IgnoresOrder) (hS : E.ScalarHints) (U : Unicode) (hU : U.Sane) (maxDocs : Nat)
    (db : PyStr) (first : List Step) (parts : List (List Step)) (ho : OrderlySteps (first ++ parts.flatten))
    (hv : committedOptionsOf db (afterSteps U db first) ≠ []) (he : EachStepPart (NoUpdateDelete db) U db first parts)
    (hp : ∀ m ∈ stepStates U db first parts, NoPending db m)
    (hn : NoPunsAmong U ((first ++ parts.flatten).flatMap Step.stream)) :
    ∃ es s, runSyncs (realParser E) maxDocs db [] (stepStates U db first parts) = .ok es ∧
      PossibleHistories U db (first ++ parts.flatten) s ∧ AllVersions es ∧
      AnswersEver E s (committedOptionsOf db (afterSteps U db (first ++ parts.flatten))) es := by
  obtain ⟨es, hi, s, h1, hs, hl, hm, h2, h3⟩ := setup_syncs_steps E hE U hU maxDocs db first parts ho hv he hp hn
  exact ⟨es, s, h1, hs, C130_ever (answersAll_of_life hE hS hl hm h2 h3 (possible_from hs))⟩

/-- **C130** after a repair: whatever was in the indices, under the conditions of C128. -/
theorem C130_repaired (E : ParseEnv) (hE : E.IgnoresOrder) (hS : E.ScalarHints) (U : Unicode) (hU : U.Sane) (maxDocs : Nat)
    (db : PyStr) (steps : List Step) (ho : OrderlySteps steps) (hv : committedOptionsOf db (afterSteps U db steps) ≠ [])
    (hd : hasData db (afterSteps U db steps) = true) (hn : NoPunsAmong U (steps.flatMap Step.stream))
    (es : ES (Option ParsedData)) (hok : LatestOk es) (hx : LatestExists db (afterSteps U db steps) es) :
    ∃ es' s, sync (realParser E) maxDocs db true (afterSteps U db steps) es = .ok es' ∧ PossibleHistories U db steps s ∧ AllVersions es' ∧
      AnswersEver E s (committedOptionsOf db (afterSteps U db steps)) es' := by
  obtain ⟨es', s, h1, hs, ha⟩ := C128_resync_partial E hE hS U hU maxDocs db steps ho hv hd hn es hok hx
  exact ⟨es', s, h1, hs, C130_ever ha⟩

set_option maxRecDepth 100000 in
/-- The hypotheses hold for the steps of C76, with a commit that dies after `a` was committed (`Verif.Props.CrashQueries`). A query on all versions for
the number 1 finds a document of each of `a`, `b` and `c`: `a` had it at 1, `b` at 1 up to 3, and `c` has it from 4 on. -/
example : OrderlySteps exStops ∧
    (match sync (realParser exEnv') 10 ['x'] false (afterSteps asciiU ['x'] exStops) [], (Asked.number (.int 1)).query exQuery ['x'] with
      | .ok es, .ok q => decide (((es.searchFor exQuery .all q).map (fun d => (d.id, d.gte, d.lt))) =
          [(['a'], 1, some 2), (['b'], 1, some 4), (['c'], 4, none)])
      | _, _ => false) = true :=
  ⟨exStops_orderly, by decide +kernel⟩

end Splitgill.Props
