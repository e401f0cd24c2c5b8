import Verif.Props.FieldCalls
import Verif.Props.CrashQueries
/-!
# Fields of data, fields they are indexed as, and queries, when calls may be stopped half way: C101
-/

namespace Splitgill.Props
open Splitgill

/-- Whatever the version and the query, `get_data_fields` and `get_parsed_fields` agree with each other, with what exists queries find among the
documents that the search finds, and with the data as of the version that the histories `s` say the records found have. -/
def ListingsAgree (s : Store) (es : ES (Option ParsedData)) : Prop :=
  ∀ (Q : QueryEnv) (v : Int) (q : Option EsQuery), ∃ fs gs, es.fieldsOfData Q (.version v) q = some (.ok fs) ∧
    es.fieldsOfParsed Q (.version v) q = some (.ok gs) ∧ FieldsAgree fs gs ∧ ParentsContain fs ∧
    FoundFieldQueries Q (es.foundDocs Q (.version v) q) gs ∧
    ∀ data : List Dict, (∀ a, a ∈ data ↔ ∃ id ∈ foundIds (es.foundDocs Q (.version v) q), AsOf (s id).committed v a) → FieldKinds data fs

/-- **C101** when calls may be stopped at any of their writes, after one sync: there are histories that the steps may give the records, for which
all queries find the records that these histories say, and the listings agree with each other, with exists queries and with these histories. -/
theorem C101_stopped_partial (E : ParseEnv) (hE : E.IgnoresOrder) (hS : E.ScalarHints) (U : Unicode) (hU : U.Sane) (maxDocs : Nat)
    (db : PyStr) (steps : List Step) (ho : OrderlySteps steps) (hv : committedOptionsOf db (afterSteps U db steps) ≠ [])
    (hH : ∀ x ∈ committedOptionsOf db (afterSteps U db steps), E.HintsOk x.2)
    (hn : NoPunsAmong U (steps.flatMap Step.stream))
    (hnames : ∀ r ∈ steps.flatMap Step.stream,
      NestedNames '#' (.dict (prepareRecordData U r)) ∧ NestedNames '_' (.dict (prepareRecordData U r))) :
    ∃ es s, sync (realParser E) maxDocs db false (afterSteps U db steps) [] = .ok es ∧ PossibleHistories U db steps s ∧
      AnswersQueries E s (committedOptionsOf db (afterSteps U db steps)) es ∧ ListingsAgree s es := by
  obtain ⟨es, hi, s, h1, hs, hl, hm, h2, h3⟩ := setup_first_steps E U hU maxDocs db steps ho hv hn
  refine ⟨es, s, h1, hs, answers_of_life hE hS hl hm h2 h3, fun Q v q => ?_⟩
  obtain ⟨f, e1, e2, e3⟩ := fieldsOf_found (Q := Q) (es := es) (v := v) q
  rw [e1, e2, e3]
  refine hl.fields_agree_found hE hS hm h2 h3 Q v f hH (fun id a ⟨w, hw, _⟩ => ?_)
  obtain ⟨r, hr, _, rfl⟩ := possible_from hs hw
  exact hnames r hr

/-- **C101** when calls may be stopped at any of their writes, after any steps and syncs between them. -/
theorem C101_stopped_syncs_partial (E : ParseEnv) (hE : E.IgnoresOrder) (hS : E.ScalarHints) (U : Unicode) (hU : U.Sane) (maxDocs : Nat)
    (db : PyStr) (first : List Step) (parts : List (List Step)) (ho : OrderlySteps (first ++ parts.flatten))
    (hv : committedOptionsOf db (afterSteps U db first) ≠ []) (he : EachStepPart (NoUpdateDelete db) U db first parts)
    (hp : ∀ m ∈ stepStates U db first parts, NoPending db m)
    (hH : ∀ x ∈ committedOptionsOf db (afterSteps U db (first ++ parts.flatten)), E.HintsOk x.2)
    (hn : NoPunsAmong U ((first ++ parts.flatten).flatMap Step.stream))
    (hnames : ∀ r ∈ (first ++ parts.flatten).flatMap Step.stream,
      NestedNames '#' (.dict (prepareRecordData U r)) ∧ NestedNames '_' (.dict (prepareRecordData U r))) :
    ∃ es s, runSyncs (realParser E) maxDocs db [] (stepStates U db first parts) = .ok es ∧
      PossibleHistories U db (first ++ parts.flatten) s ∧
      AnswersQueries E s (committedOptionsOf db (afterSteps U db (first ++ parts.flatten))) es ∧ ListingsAgree s es := by
  obtain ⟨es, hi, s, h1, hs, hl, hm, h2, h3⟩ := setup_syncs_steps E hE U hU maxDocs db first parts ho hv he hp hn
  refine ⟨es, s, h1, hs, answers_of_life hE hS hl hm h2 h3, fun Q v q => ?_⟩
  obtain ⟨f, e1, e2, e3⟩ := fieldsOf_found (Q := Q) (es := es) (v := v) q
  rw [e1, e2, e3]
  refine hl.fields_agree_found hE hS hm h2 h3 Q v f hH (fun id a ⟨w, hw, _⟩ => ?_)
  obtain ⟨r, hr, _, rfl⟩ := possible_from hs hw
  exact hnames r hr

set_option maxRecDepth 100000 in
/-- The hypotheses hold for the steps of C76, with a commit that dies after `a` was committed (`Verif.Props.CrashQueries`). At version 4, with a
query for the number 2, the field `x` is listed for two documents, and an exists query on its numbers finds both. -/
example : (∀ x ∈ committedOptionsOf ['x'] (afterSteps asciiU ['x'] exStops), exEnv'.HintsOk x.2) ∧
    (match sync (realParser exEnv') 10 ['x'] false (afterSteps asciiU ['x'] exStops) [], (Asked.number (.int 2)).query exQuery ['x'] with
      | .ok es, .ok q => decide ((es.fieldsOfParsed exQuery (.version 4) (some q)).map (fun r => r.toOption.map (fun gs =>
            (gs.filter (fun g => g.path == ['x'])).map (fun g => (g.count, g.countOf .number, g.countOf .date)))) = some (some [(2, 2, 0)]) ∧
          ((es.foundDocs exQuery (.version 4) (some q)).filter (fun d =>
            (EsQuery.exists_ (parsedPath ['x'] .number)).finds exQuery d)).length = 2)
      | _, _ => false) = true :=
  ⟨fun x _ => exEnv'_hints x.2, by decide +kernel⟩

end Splitgill.Props
