import Verif.Proof.Stable
/-!
# C89: what a search at a past version finds stays the same

`es` are the indices after some calls with syncs between them, and `es'` those after more calls and syncs.
-/

namespace Splitgill.Props
open Splitgill

/-- **C89**, as it should be: a search at a version from before later calls finds the same after them. -/
def C89_full : Prop :=
  ∀ (E : ParseEnv), E.IgnoresOrder → E.ScalarHints → ∀ (U : Unicode), U.Sane → ∀ (maxDocs : Nat) (db : PyStr) (first : List ApiCall)
    (parts more : List (List ApiCall)), Orderly (first ++ (parts ++ more).flatten) →
    (∀ o ∈ (first ++ (parts ++ more).flatten).filterMap ApiCall.options?, OptionsOk o) →
    (∃ v, IsVersion (afterCalls U db first) db v) → (∀ m ∈ statesOf U db first (parts ++ more), NoPending db m) →
    ∃ es es', runSyncs (realParser E) maxDocs db [] (statesOf U db first parts) = .ok es ∧
      runSyncs (realParser E) maxDocs db [] (statesOf U db first (parts ++ more)) = .ok es' ∧
      ∀ v, AllAfter v more.flatten → ∀ id, SameFound es es' v id

/-- What C89 needs: what C70 needs. -/
structure Settled (U : Unicode) (db : PyStr) (first : List ApiCall) (parts : List (List ApiCall)) : Prop where
  orderly : Orderly (first ++ parts.flatten)
  options : ∀ o ∈ (first ++ parts.flatten).filterMap ApiCall.options?, OptionsOk o
  version : ∃ v, IsVersion (afterCalls U db first) db v
  noUpdateDelete : EachPart (NoUpdateDelete db) U db first parts
  noPending : ∀ m ∈ statesOf U db first parts, NoPending db m
  noPuns : NoPunsAmong U ((first ++ parts.flatten).flatMap ApiCall.stream)

/-- **C89** (what holds), under the conditions of C70: no record is changed and then deleted between two syncs, nothing is uncommitted at the
syncs, and no two data given for a record hold equal but different scalars at the same place. The same documents are found, and
the same records by queries. Missing: the other cases, see `C89_refuted` and `C89_deleted_refuted`. -/
theorem C89_stable_partial (E : ParseEnv) (hE : E.IgnoresOrder) (hS : E.ScalarHints) (U : Unicode) (hU : U.Sane) (maxDocs : Nat)
    (db : PyStr) (first : List ApiCall) (parts more : List (List ApiCall)) (h : Settled U db first (parts ++ more)) :
    ∃ es es', runSyncs (realParser E) maxDocs db [] (statesOf U db first parts) = .ok es ∧
      runSyncs (realParser E) maxDocs db [] (statesOf U db first (parts ++ more)) = .ok es' ∧
      ∀ v, AllAfter v more.flatten → (∀ id, SameFound es es' v id) ∧
        ((∀ o ∈ (optionsGiven U db (first ++ (parts ++ more).flatten)).committed, 0 ≤ o.2.keywordLength) →
          ∀ (Q : QueryEnv) (field : PyStr) (k : Asked), k.Bounded → ∃ q, k.query Q field = .ok q ∧
            ∀ id, id ∈ foundIds (es.searchFor Q (.version v) q) ↔ id ∈ foundIds (es'.searchFor Q (.version v) q)) := by
  have ho := h.orderly
  have hopt := h.options
  have hn := h.noPuns
  have e : first ++ (parts ++ more).flatten = (first ++ parts.flatten) ++ more.flatten := by simp
  have ho1 : Orderly (first ++ parts.flatten) := by rw [e] at ho; exact ho.left
  have hopt1 : ∀ o ∈ (first ++ parts.flatten).filterMap ApiCall.options?, OptionsOk o := fun o hm => hopt o (by
    rw [e, List.filterMap_append]; exact List.mem_append_left _ hm)
  have hn1 : NoPunsAmong U ((first ++ parts.flatten).flatMap ApiCall.stream) := by
    rw [e, List.flatMap_append] at hn; exact hn.left
  obtain ⟨es, hi, a1, al, am, a2, a3, ap⟩ := setup_syncs E hE U hU maxDocs db first parts ho1 h.version h.noUpdateDelete.left
    (fun m hm => h.noPending m (statesOf_left parts more first m hm)) hn1
  obtain ⟨es', hi', b1, bl, bm, b2, b3, bp⟩ := setup_syncs E hE U hU maxDocs db first (parts ++ more) ho h.version h.noUpdateDelete
    h.noPending hn
  have i1 := C79_indexed U db _ ho1.clock hopt1
  have i2 := C79_indexed U db _ ho.clock hopt
  have hne : (optionsGiven U db (first ++ parts.flatten)).committed ≠ [] := by rw [← i1]; exact am.options.nonempty
  have hc := ho.clock
  rw [e] at hc
  refine ⟨es, es', a1, b1, fun v hv => ?_⟩
  have ha := fun id d => asOf_stable (U := U) (db := db) (a := first ++ parts.flatten) hv id d
  have hof := fun id o => effective_stable (U := U) (db := db) (a := first ++ parts.flatten) hc hne hv id o
  rw [← e] at ha hof
  rw [← i1, ← i2] at hof
  refine ⟨fun id => same_found hE hS al bl am bm a2 b2 a3 b3 (ap id) (bp id) (ha id) (hof id), fun hk Q field k hb => ?_⟩
  have hk2 : ∀ x ∈ committedOptionsOf db (afterCalls U db (first ++ (parts ++ more).flatten)), 0 ≤ x.2.keywordLength := by
    rw [i2]; exact hk
  have hk1 : ∀ x ∈ committedOptionsOf db (afterCalls U db (first ++ parts.flatten)), 0 ≤ x.2.keywordLength := by
    rw [i1]
    intro x hx
    refine hk x ?_
    rw [e]
    exact (optionsGiven_adds U db _ _).sub x hx
  obtain ⟨q, c1, c2⟩ := al.asked hE hS am a2 a3 hk1 Q field k hb
  obtain ⟨q', d1, d2⟩ := bl.asked hE hS bm b2 b3 hk2 Q field k hb
  rw [c1] at d1; cases d1
  refine ⟨q, c1, fun id => ?_⟩
  rw [(c2 v).2 id, (d2 v).2 id]
  simp only [ap id, bp id, ha id, hof id]

/-- The data and the options as of a version before later calls are not changed by them, for any calls. -/
theorem C89_history (U : Unicode) (db : PyStr) (a b : List ApiCall) (hc : ((a ++ b).filterMap ApiCall.clock?).Pairwise (· < ·))
    (v : Int) (hv : AllAfter v b) :
    (∀ id d, AsOf (ingested U db (a ++ b) id).committed v d ↔ AsOf (ingested U db a id).committed v d) ∧
    ((optionsGiven U db a).committed ≠ [] → ∀ o,
      OptionsAsOf (optionsGiven U db (a ++ b)).committed v o ↔ OptionsAsOf (optionsGiven U db a).committed v o) := by
  refine ⟨fun id d => (asOf_stable hv id d).symm, fun hne o => ?_⟩
  refine ((optionsGiven_adds U db a b).optionsAsOf hv hne (fun x hx t ht => ?_)).symm
  rw [List.filterMap_append] at hc
  exact (List.pairwise_append.1 hc).2.2 _ (optionsGiven_clock hx) _ ht

set_option maxRecDepth 100000 in
/-- **C89 does not hold in full**: with `True` for what was `1` and new options, `search(2)` finds the record once before and twice
after (C31, C68). -/
theorem C89_refuted : ¬ C89_full := by
  intro h
  have hall : ∀ m ∈ statesOf asciiU ['x'] exPun1 ([] ++ [exPun2, exPun3]), ∀ r ∈ m.data ['x'], r.version ≠ none := by decide +kernel
  obtain ⟨es, es', h1, h2, h3⟩ := h exEnv' exEnv'_order exEnv'_scalar asciiU asciiU_sane 10 ['x'] exPun1 [] [exPun2, exPun3]
    (by
      refine ⟨by decide +kernel, ?_⟩
      intro c hc
      simp only [exPun1, exPun2, exPun3, List.flatten_cons, List.flatten_nil, List.append_nil, List.cons_append, List.nil_append,
        List.mem_cons, List.not_mem_nil, or_false] at hc
      rcases hc with rfl | rfl | rfl | rfl <;> unfold NoSpan <;> decide)
    (by
      intro o hm
      have e : (exPun1 ++ ([] ++ [exPun2, exPun3]).flatten).filterMap ApiCall.options? = [exPunOpts [], exPunOpts [['1']]] := by rfl
      rw [e] at hm
      simp only [List.mem_cons, List.not_mem_nil, or_false] at hm
      rcases hm with rfl | rfl <;> exact ⟨by decide, by decide, by decide, by decide⟩)
    ⟨1, .inr ⟨(afterCalls asciiU ['x'] exPun1).options.head (by decide +kernel), by decide +kernel, by decide +kernel, by decide +kernel⟩⟩
    hall
  have e1 : (match runSyncs (realParser exEnv') 10 ['x'] [] (statesOf asciiU ['x'] exPun1 []) with
    | .ok es => (foundFor es (.version 2) ['a']).length | .error _ => 0) = 1 := by decide +kernel
  have e2 : (match runSyncs (realParser exEnv') 10 ['x'] [] (statesOf asciiU ['x'] exPun1 ([] ++ [exPun2, exPun3])) with
    | .ok es => (foundFor es (.version 2) ['a']).length | .error _ => 0) = 2 := by decide +kernel
  rw [h1] at e1
  rw [h2] at e2
  have := (h3 2 (by unfold AllAfter; decide) ['a']).length_eq
  dsimp only at e1 e2
  omega

set_option maxRecDepth 100000 in
/-- The same without such data: a record that is changed and then deleted between two syncs is found twice at its first version after
the second sync, although nothing about that version has changed. -/
theorem C89_deleted_refuted : ¬ C89_full := by
  intro h
  let more : List (List ApiCall) := [[.ingest none [exRec ['a'] 2] true 2, .ingest none [exDel ['a']] true 3]]
  have hall : ∀ m ∈ statesOf asciiU ['x'] exUpdateDelete ([] ++ more), ∀ r ∈ m.data ['x'], r.version ≠ none := by decide +kernel
  obtain ⟨es, es', h1, h2, h3⟩ := h exEnv' exEnv'_order exEnv'_scalar asciiU asciiU_sane 10 ['x'] exUpdateDelete [] more
    (by
      refine ⟨by decide +kernel, ?_⟩
      intro c hc
      simp only [exUpdateDelete, more, List.flatten_cons, List.flatten_nil, List.append_nil, List.cons_append, List.nil_append,
        List.mem_cons, List.not_mem_nil, or_false] at hc
      rcases hc with rfl | rfl | rfl <;> unfold NoSpan <;> decide)
    (by
      intro o hm
      have e : (exUpdateDelete ++ ([] ++ more).flatten).filterMap ApiCall.options? = [] := by rfl
      rw [e] at hm; cases hm)
    ⟨1, .inr ⟨(afterCalls asciiU ['x'] exUpdateDelete).options.head (by decide +kernel), by decide +kernel, by decide +kernel,
      by decide +kernel⟩⟩
    hall
  have e1 : (match runSyncs (realParser exEnv') 10 ['x'] [] (statesOf asciiU ['x'] exUpdateDelete []) with
    | .ok es => (foundFor es (.version 1) ['a']).length | .error _ => 0) = 1 := by decide +kernel
  have e2 : (match runSyncs (realParser exEnv') 10 ['x'] [] (statesOf asciiU ['x'] exUpdateDelete ([] ++ more)) with
    | .ok es => (foundFor es (.version 1) ['a']).length | .error _ => 0) = 2 := by decide +kernel
  rw [h1] at e1
  rw [h2] at e2
  have := (h3 1 (by unfold AllAfter; decide) ['a']).length_eq
  dsimp only at e1 e2
  omega

set_option maxRecDepth 100000 in
/-- The conditions hold for these calls: two records are synced; then one is changed, one deleted and there are new options; and `search(1)` still
finds both. -/
example : Settled asciiU ['x'] exCalls1 ([] ++ exParts) ∧ AllAfter 1 exParts.flatten ∧
    (match runSyncs (realParser exEnv') 10 ['x'] [] (statesOf asciiU ['x'] exCalls1 ([] ++ exParts)) with
      | .ok es => decide ((foundFor es (.version 1) ['a']).map (fun d => d.parsed.map (fun p => rebuildData p.parsed)) =
          [some [("_id".toList, .str ['a']), (['x'], .int 1)]] ∧ (foundFor es (.version 1) ['b']).length = 1)
      | .error _ => false) = true := by
  have hv : IsVersion (afterCalls asciiU ['x'] exCalls1) ['x'] 1 :=
    .inr ⟨(afterCalls asciiU ['x'] exCalls1).options.head (by decide), by decide, by decide, by decide⟩
  refine ⟨⟨⟨by decide, ?_⟩, ?_, ⟨1, hv⟩, ⟨?_, trivial⟩, ?_, exCalls_noPuns⟩, by unfold AllAfter; decide, by decide +kernel⟩
  · intro c hc
    simp [exCalls1, exParts] at hc
    rcases hc with rfl | rfl | rfl | rfl <;> unfold NoSpan <;> decide
  · intro o hm
    have e : (exCalls1 ++ ([] ++ exParts).flatten).filterMap ApiCall.options? = [exOpts 20] := by rfl
    rw [e] at hm
    simp only [List.mem_cons, List.not_mem_nil, or_false] at hm
    subst hm; exact ⟨by decide, by decide, by decide, by decide⟩
  · intro t ht
    have : (exCalls1.filterMap ApiCall.clock?).getLast? = some 1 := by decide
    rw [this] at ht; cases ht
    exact noUpdateDelete_of_check (dbOk_of_check (by decide)) (by decide)
  · have : ∀ m ∈ statesOf asciiU ['x'] exCalls1 ([] ++ exParts), ∀ r ∈ m.data ['x'], r.version ≠ none := by decide
    exact this

end Splitgill.Props
