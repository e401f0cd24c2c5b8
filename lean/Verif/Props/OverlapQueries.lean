import Verif.Props.Overlap
import Verif.Props.Ever
import Verif.Props.Filter
/-!
# C126: queries after syncs at the same time
-/

namespace Splitgill.Props
open Splitgill

/-- Queries find a record alike in indices in which searches find the same documents of it. -/
theorem queries_alike {es es' : ES (Option ParsedData)} {id : PyStr} {at_ : SearchAt} (h : ∀ d, d ∈ foundFor es at_ id ↔ d ∈ foundFor es' at_ id)
    (Q : QueryEnv) (q : EsQuery) : id ∈ foundIds (es.searchFor Q at_ q) ↔ id ∈ foundIds (es'.searchFor Q at_ q) := by
  have key : ∀ {a b : ES (Option ParsedData)}, (∀ d, d ∈ foundFor a at_ id → d ∈ foundFor b at_ id) →
      id ∈ foundIds (a.searchFor Q at_ q) → id ∈ foundIds (b.searchFor Q at_ q) := by
    intro a b hab hx
    obtain ⟨d, hd, e⟩ := List.mem_map.1 hx
    obtain ⟨h1, h2⟩ := List.mem_filter.1 hd
    have := hab d (List.mem_filter.2 ⟨h1, by simpa using e⟩)
    exact List.mem_map.2 ⟨d, List.mem_filter.2 ⟨(List.mem_filter.1 this).1, h2⟩, e⟩
  exact ⟨key fun d => (h d).1, key fun d => (h d).2⟩

/-- **C126** for queries: `parts` are calls with a sync after each, `more1` the calls until the earlier of the two syncs reads, and `more2` those until
the later one does, under the conditions of C70. Whatever the order in which the operations of the two syncs reach the indices, for every record whose
document in the latest index is last written by the later sync: every query at every version, without a version and on all versions finds the
record just if it would be found had only the later one run, and then queries find what the records hold. -/
theorem C126_queries_partial (E : ParseEnv) (hE : E.IgnoresOrder) (hS : E.ScalarHints) (U : Unicode) (hU : U.Sane) (maxDocs : Nat) (db : PyStr)
    (first : List ApiCall) (parts : List (List ApiCall)) (more1 more2 : List ApiCall)
    (ho : Orderly (first ++ (parts ++ [more1 ++ more2]).flatten)) (hv : ∃ v, IsVersion (afterCalls U db first) db v)
    (he : EachPart (NoUpdateDelete db) U db first (parts ++ [more1 ++ more2]))
    (hp : ∀ m ∈ statesOf U db first (parts ++ [more1 ++ more2]), NoPending db m)
    (hn : NoPunsAmong U ((first ++ (parts ++ [more1 ++ more2]).flatten).flatMap ApiCall.stream)) (es : ES (Option ParsedData))
    (hes : runSyncs (realParser E) maxDocs db [] (statesOf U db first parts) = .ok es) (early late written : List (BulkOp (Option ParsedData)))
    (h : Overlap (realParser E) maxDocs db (afterCalls U db (first ++ parts.flatten ++ more1))
      (afterCalls U db (first ++ parts.flatten ++ more1 ++ more2)) es early late written) :
    ∃ es2, AnswersAll E U ((first ++ (parts ++ [more1 ++ more2]).flatten).flatMap ApiCall.stream)
        (ingested U db (first ++ (parts ++ [more1 ++ more2]).flatten))
        (committedOptionsOf db (afterCalls U db (first ++ (parts ++ [more1 ++ more2]).flatten))) es2 ∧
      ∀ id, LastOneOf id written late → ∀ (Q : QueryEnv) (at_ : SearchAt) (q : EsQuery),
        (id ∈ foundIds ((es.applyOps written).searchFor Q at_ q) ↔ id ∈ foundIds (es2.searchFor Q at_ q)) := by
  have e : first ++ (parts ++ [more1, more2]).flatten = first ++ (parts ++ [more1 ++ more2]).flatten := by simp
  obtain ⟨es2, k1, k2⟩ := C126_calls_partial E hE U hU maxDocs db first parts more1 more2 (by rw [e]; exact ho) hv es hes early late written h
  obtain ⟨es2', hi, h1, hl, hm, h2, h3, _⟩ := setup_syncs E hE U hU maxDocs db first (parts ++ [more1 ++ more2]) ho hv he hp hn
  rw [k1] at h1; cases h1
  refine ⟨es2, answersAll_of_life hE hS hl hm h2 h3 (ingested_from U db _), fun id hlast Q at_ q => ?_⟩
  refine queries_alike (fun d => k2 id ?_ ?_ hlast at_ d) Q q
  · intro r hr r' hr'
    rw [e] at hr hr'
    exact hn r (List.mem_filter.1 hr).1 r' (List.mem_filter.1 hr').1
  · intro r hr _
    refine hp _ ?_ r hr
    rw [statesOf_snoc]
    simp

/-- `a` changed at 2, when the earlier sync reads. -/
def exOverlapMore1 : List ApiCall := [.ingest none [exRec ['a'] 2] true 2]
/-- `a` and `b` changed at 3, when the later sync reads. -/
def exOverlapMore2 : List ApiCall := [.ingest none [exRec ['a'] 3, exRec ['b'] 6] true 3]

/-- The operations of a sync after the first one. -/
def exOverlapOps (more : List ApiCall) : List (BulkOp (Option ParsedData)) :=
  match syncOps (realParser exEnv') 10 ['x'] false (afterCalls asciiU ['x'] (exCalls1 ++ more)) (exIndexed exCalls1) with
  | .ok (_, ops) => ops
  | .error _ => []

theorem exOverlapOps_of {more : List ApiCall} (h : (match syncOps (realParser exEnv') 10 ['x'] false (afterCalls asciiU ['x'] (exCalls1 ++ more))
    (exIndexed exCalls1) with | .ok _ => true | .error _ => false) = true) : ∃ es0, syncOps (realParser exEnv') 10 ['x'] false
      (afterCalls asciiU ['x'] (exCalls1 ++ more)) (exIndexed exCalls1) = .ok (es0, exOverlapOps more) := by
  unfold exOverlapOps
  split at h
  · rename_i x hx
    rw [hx]
    exact ⟨x.1, rfl⟩
  · cases h

set_option maxRecDepth 100000 in
/-- The hypotheses hold when the earlier sync reads `a` as 2, the later one reads it as 3, and the operations of the earlier one are written first:
then queries find `a` with 3 from 3 on and with 2 at 2, although its data at 1 is archived twice. -/
example : EachPart (NoUpdateDelete ['x']) asciiU ['x'] exCalls1 ([] ++ [exOverlapMore1 ++ exOverlapMore2]) ∧
    (∀ m ∈ statesOf asciiU ['x'] exCalls1 ([] ++ [exOverlapMore1 ++ exOverlapMore2]), NoPending ['x'] m) ∧
    NoPunsAmong asciiU ((exCalls1 ++ ([] ++ [exOverlapMore1 ++ exOverlapMore2]).flatten).flatMap ApiCall.stream) ∧
    Overlap (realParser exEnv') 10 ['x'] (afterCalls asciiU ['x'] (exCalls1 ++ exOverlapMore1))
      (afterCalls asciiU ['x'] (exCalls1 ++ (exOverlapMore1 ++ exOverlapMore2))) (exIndexed exCalls1) (exOverlapOps exOverlapMore1)
      (exOverlapOps (exOverlapMore1 ++ exOverlapMore2)) (exOverlapOps exOverlapMore1 ++ exOverlapOps (exOverlapMore1 ++ exOverlapMore2)) ∧
    LastOneOf ['a'] (exOverlapOps exOverlapMore1 ++ exOverlapOps (exOverlapMore1 ++ exOverlapMore2)) (exOverlapOps (exOverlapMore1 ++ exOverlapMore2)) ∧
    (match (Asked.number (.int 2)).query exQuery ['x'], (Asked.number (.int 3)).query exQuery ['x'] with
      | .ok q, .ok q' =>
        let es := (exIndexed exCalls1).applyOps (exOverlapOps exOverlapMore1 ++ exOverlapOps (exOverlapMore1 ++ exOverlapMore2))
        decide (['a'] ∈ foundIds (es.searchFor exQuery (.version 2) q) ∧ ['a'] ∉ foundIds (es.searchFor exQuery (.version 3) q) ∧
          ['a'] ∈ foundIds (es.searchFor exQuery .latest q'))
      | _, _ => false) = true := by
  refine ⟨⟨?_, trivial⟩, ?_, noPuns_of_flat (by decide +kernel) (by decide +kernel),
    ⟨exOverlapOps_of (by decide +kernel), exOverlapOps_of (by decide +kernel), .refl _⟩, lastOneOf_append (.refl _) ?_, by decide +kernel⟩
  · intro t ht
    have : (exCalls1.filterMap ApiCall.clock?).getLast? = some 1 := by decide
    rw [this] at ht; cases ht
    exact noUpdateDelete_of_check (dbOk_of_check (by decide)) (by decide)
  · have : ∀ m ∈ statesOf asciiU ['x'] exCalls1 ([] ++ [exOverlapMore1 ++ exOverlapMore2]), ∀ r ∈ m.data ['x'], r.version ≠ none := by decide
    exact this
  · have : (exOverlapOps (exOverlapMore1 ++ exOverlapMore2)).any (fun op => decide (op.latestId = some ['a'])) = true := by decide +kernel
    obtain ⟨op, h1, h2⟩ := List.any_eq_true.1 this
    exact ⟨op, h1, of_decide_eq_true h2⟩

end Splitgill.Props
