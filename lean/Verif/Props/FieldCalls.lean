import Verif.Proof.FieldCalls
import Verif.Props.FieldProps
import Verif.Props.Filter
/-!
# Fields of data, fields they are indexed as, and queries, from the calls on: C101
-/

namespace Splitgill.Props
open Splitgill

theorem fieldsOf_found {Q : QueryEnv} {es : ES (Option ParsedData)} {v : Int} (q : Option EsQuery) :
    ∃ f : Doc (Option ParsedData) → Bool,
      es.fieldsOfData Q (.version v) q = getDataFields ((((es.search (.version v)).run es).filter f).map Doc.dataTypes) ∧
      es.fieldsOfParsed Q (.version v) q = getParsedFields ((((es.search (.version v)).run es).filter f).map Doc.parsedTypes) ∧
      es.foundDocs Q (.version v) q = ((es.search (.version v)).run es).filter f := by
  cases q with
  | some q => exact ⟨fun d => q.finds Q d, rfl, rfl, rfl⟩
  | none =>
    have e : ((es.search (.version v)).run es).filter (fun _ => true) = (es.search (.version v)).run es :=
      List.filter_eq_self.2 (fun _ _ => rfl)
    exact ⟨fun _ => true, by rw [e]; rfl, by rw [e]; rfl, by rw [e]; rfl⟩

/-- **C101** from the calls on, after one sync (what holds): whatever the version and the query, `get_data_fields` and `get_parsed_fields` agree
with each other and with what exists queries find among the documents that the search finds, the counts of a field fit those of its parent, and
the kinds of the fields are those of the values of the data as of the version of the records found. No field name below the root starts with `#`
or `_`. -/
theorem C101_calls_partial (E : ParseEnv) (hE : E.IgnoresOrder) (hS : E.ScalarHints) (U : Unicode) (hU : U.Sane) (maxDocs : Nat)
    (db : PyStr) (calls : List ApiCall) (ho : Orderly calls) (hv : ∃ v, IsVersion (afterCalls U db calls) db v)
    (hH : ∀ x ∈ committedOptionsOf db (afterCalls U db calls), E.HintsOk x.2)
    (hn : NoPunsAmong U (calls.flatMap ApiCall.stream))
    (hnames : ∀ r ∈ calls.flatMap ApiCall.stream,
      NestedNames '#' (.dict (prepareRecordData U r)) ∧ NestedNames '_' (.dict (prepareRecordData U r))) :
    ∃ es, sync (realParser E) maxDocs db false (afterCalls U db calls) [] = .ok es ∧
      ∀ (Q : QueryEnv) (v : Int) (q : Option EsQuery), ∃ fs gs, es.fieldsOfData Q (.version v) q = some (.ok fs) ∧
        es.fieldsOfParsed Q (.version v) q = some (.ok gs) ∧ FieldsAgree fs gs ∧ ParentsContain fs ∧
        FoundFieldQueries Q (es.foundDocs Q (.version v) q) gs ∧
        ∀ data : List Dict, (∀ a, a ∈ data ↔ ∃ id ∈ foundIds (es.foundDocs Q (.version v) q), AsOf (ingested U db calls id).committed v a) →
          FieldKinds data fs := by
  obtain ⟨es, hi, h1, hl, hm, h2, h3⟩ := setup_first E U hU maxDocs db calls ho hv hn
  refine ⟨es, h1, fun Q v q => ?_⟩
  obtain ⟨f, e1, e2, e3⟩ := fieldsOf_found (Q := Q) (es := es) (v := v) q
  rw [e1, e2, e3]
  refine hl.fields_agree_found hE hS hm h2 h3 Q v f hH (fun id a ha => ?_)
  obtain ⟨r, hr, _, rfl⟩ := ingested_asOf U db calls ha
  exact hnames r hr

/-- **C101** from the calls on, after any calls and syncs between them. -/
theorem C101_syncs_partial (E : ParseEnv) (hE : E.IgnoresOrder) (hS : E.ScalarHints) (U : Unicode) (hU : U.Sane)
    (maxDocs : Nat) (db : PyStr) (first : List ApiCall) (parts : List (List ApiCall)) (ho : Orderly (first ++ parts.flatten))
    (hv : ∃ v, IsVersion (afterCalls U db first) db v) (he : EachPart (NoUpdateDelete db) U db first parts)
    (hp : ∀ m ∈ statesOf U db first parts, NoPending db m)
    (hH : ∀ x ∈ committedOptionsOf db (afterCalls U db (first ++ parts.flatten)), E.HintsOk x.2)
    (hn : NoPunsAmong U ((first ++ parts.flatten).flatMap ApiCall.stream))
    (hnames : ∀ r ∈ (first ++ parts.flatten).flatMap ApiCall.stream,
      NestedNames '#' (.dict (prepareRecordData U r)) ∧ NestedNames '_' (.dict (prepareRecordData U r))) :
    ∃ es, runSyncs (realParser E) maxDocs db [] (statesOf U db first parts) = .ok es ∧
      ∀ (Q : QueryEnv) (v : Int) (q : Option EsQuery), ∃ fs gs, es.fieldsOfData Q (.version v) q = some (.ok fs) ∧
        es.fieldsOfParsed Q (.version v) q = some (.ok gs) ∧ FieldsAgree fs gs ∧ ParentsContain fs ∧
        FoundFieldQueries Q (es.foundDocs Q (.version v) q) gs ∧
        ∀ data : List Dict, (∀ a, a ∈ data ↔ ∃ id ∈ foundIds (es.foundDocs Q (.version v) q),
            AsOf (ingested U db (first ++ parts.flatten) id).committed v a) → FieldKinds data fs := by
  obtain ⟨es, hi, h1, hl, hm, h2, h3, _⟩ := setup_syncs E hE U hU maxDocs db first parts ho hv he hp hn
  refine ⟨es, h1, fun Q v q => ?_⟩
  obtain ⟨f, e1, e2, e3⟩ := fieldsOf_found (Q := Q) (es := es) (v := v) q
  rw [e1, e2, e3]
  refine hl.fields_agree_found hE hS hm h2 h3 Q v f hH (fun id a ha => ?_)
  obtain ⟨r, hr, _, rfl⟩ := ingested_asOf U db _ ha
  exact hnames r hr

set_option maxRecDepth 100000 in
/-- The hypotheses of the theorems hold for the calls of the example of C70 (see there, and `Verif.Props.Filter` for the names and the hints). At
version 2 the field `x` is listed as a number in two documents, an exists query on its numbers finds two documents, and one on its dates none; there is
no field `z`. -/
example : (∀ x ∈ committedOptionsOf ['x'] (afterCalls asciiU ['x'] (exCalls1 ++ exParts.flatten)), exEnv'.HintsOk x.2) ∧
    (exFilterES.fieldsOfParsed exQuery (.version 2) none).map (fun r => r.toOption.map (fun gs =>
      (gs.filter (fun g => g.path == ['x'])).map (fun g => (g.count, g.countOf .number, g.countOf .date)))) = some (some [(2, 2, 0)]) ∧
    ((exFilterES.foundDocs exQuery (.version 2) none).filter (fun d => (EsQuery.exists_ (parsedPath ['x'] .number)).finds exQuery d)).length = 2 ∧
    ((exFilterES.foundDocs exQuery (.version 2) none).filter (fun d => (EsQuery.exists_ (parsedPath ['x'] .date)).finds exQuery d)).length = 0 ∧
    ((exFilterES.foundDocs exQuery (.version 2) none).filter (fun d => (EsQuery.exists_ (parsedPath ['z'] .number)).finds exQuery d)).length = 0 := by
  exact ⟨fun x _ => exEnv'_hints x.2, by decide +kernel, by decide +kernel, by decide +kernel, by decide +kernel⟩

end Splitgill.Props
