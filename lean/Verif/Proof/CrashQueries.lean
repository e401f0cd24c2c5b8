import Verif.Proof.Crash
import Verif.Proof.Filter3
/-!
# Lemmas: where the data of the histories comes from when calls are stopped; the situations after syncs
-/

namespace Splitgill
open Splitgill.Props

theorem Store.From.spec {U : Unicode} {db : PyStr} {m : Mongo} {rs : List Record} {s s' : Store} (h : s.From U rs) (st : Step)
    (hc : ∀ r ∈ st.stream, r ∈ rs) (hs : st.Spec U db m s s') : s'.From U rs := by
  have either : ∀ {t : Store}, t.From U rs → (∀ id, s' id = s id ∨ s' id = t id) → s'.From U rs := by
    intro t ht hst id d hd
    rcases hst id with e | e <;> rw [e] at hd
    · exact h id d hd
    · exact ht id d hd
  cases st with
  | call c =>
    simp only [Step.Spec] at hs
    split at hs
    · rename_i ret _
      exact either (h.effect ret c hc) (fun id => .inr (hs id))
    · exact either (h.effect none c hc) (fun id => .inr (hs id))
  | ingestStops mf l n => exact either (h.ingest mf l hc) hs
  | rollbackStops n =>
    refine either (t := fun id => (s id).rollback) (fun id d hd => ?_) hs
    simp only [Hist.rollback, reduceCtorEq, or_false] at hd
    exact h id d (.inl hd)
  | optionsStop o => exact either h (fun id => .inl (hs id))
  | commitStops clock l b => exact either (h.commit clock) hs.2
  | release => exact either h (fun id => .inl (hs id))

theorem stepsSpec_from {U : Unicode} {db : PyStr} {rs : List Record} : ∀ (steps : List Step) (m : Mongo) {s s' : Store}, s.From U rs →
    (∀ c ∈ steps, ∀ r ∈ c.stream, r ∈ rs) → StepsSpec U db m s steps s' → s'.From U rs
  | [], _, s, s', h, _, hs => by
    intro id d hd
    rw [hs id] at hd
    exact h id d hd
  | c :: steps, m, s, s'', h, hc, hs => by
    obtain ⟨s', h1, h2⟩ := hs
    exact stepsSpec_from steps _ (h.spec c (hc c (by simp)) h1) (fun c h => hc c (List.mem_cons_of_mem _ h)) h2

/-- All data of the histories was given to the steps for the record. -/
theorem possible_from {U : Unicode} {db : PyStr} {steps : List Step} {s : Store} (hs : PossibleHistories U db steps s) {id : PyStr}
    {vd : Int × Dict} (h : vd ∈ (s id).committed) : ∃ r ∈ steps.flatMap Step.stream, r.id = id ∧ vd.2 = prepareRecordData U r :=
  stepsSpec_from steps Mongo.empty (s := Store.empty) (fun id d hd => by simp [Store.empty] at hd)
    (fun c hc r hr => List.mem_flatMap.2 ⟨c, hc, hr⟩) hs id vd.2 (.inl (List.mem_map_of_mem h))

section
variable (E : ParseEnv) (hE : E.IgnoresOrder) (U : Unicode) (hU : U.Sane) (maxDocs : Nat) (db : PyStr)
include hU

theorem setup_first_steps (steps : List Step) (ho : OrderlySteps steps) (hv : committedOptionsOf db (afterSteps U db steps) ≠ [])
    (hn : NoPunsAmong U (steps.flatMap Step.stream)) :
    ∃ es hi s, sync (realParser E) maxDocs db false (afterSteps U db steps) [] = .ok es ∧ PossibleHistories U db steps s ∧
      LifeInv (fun id => (strictClass (placesOf U _ hn id)).named) db (afterSteps U db steps) s hi ∧
      DbOk db (afterSteps U db steps) ∧ LatestOk es ∧ IndexesRecords (realParser E) db (afterSteps U db steps)
        (((afterSteps U db steps).data db).filter (fun r => r.version.isSome)) es := by
  have hm := crash_dbOk ho hv
  obtain ⟨es, h1, h2, h3⟩ := C30_first_sync (realParser E) maxDocs db _ hm
  obtain ⟨s, hs, hl⟩ := crash_life (U := U) (db := db)
    (fun c hc => fits_named_strict hU hn (l := c.stream) (fun r hr => List.mem_flatMap.2 ⟨c, hc, hr⟩)) ho
  exact ⟨es, _, s, h1, hs, hl, hm, h2, h3⟩

include hE in
theorem setup_syncs_steps (first : List Step) (parts : List (List Step)) (ho : OrderlySteps (first ++ parts.flatten))
    (hv : committedOptionsOf db (afterSteps U db first) ≠ []) (he : EachStepPart (NoUpdateDelete db) U db first parts)
    (hp : ∀ m ∈ stepStates U db first parts, NoPending db m)
    (hn : NoPunsAmong U ((first ++ parts.flatten).flatMap Step.stream)) :
    ∃ es hi s, runSyncs (realParser E) maxDocs db [] (stepStates U db first parts) = .ok es ∧
      PossibleHistories U db (first ++ parts.flatten) s ∧
      LifeInv (fun id => (strictClass (placesOf U _ hn id)).named) db (afterSteps U db (first ++ parts.flatten)) s hi ∧
      DbOk db (afterSteps U db (first ++ parts.flatten)) ∧ LatestOk es ∧
      IndexesRecords (realParser E) db (afterSteps U db (first ++ parts.flatten))
        (((afterSteps U db (first ++ parts.flatten)).data db).filter (fun r => r.version.isSome)) es := by
  have hR := (realParser_respects (E := E) hE (placesOf U _ hn)).named
  have hq : ∀ c ∈ first ++ parts.flatten, Fits (fun id => (strictClass (placesOf U _ hn id)).named) U c.stream := fun c hc =>
    fits_named_strict hU hn (fun r hr => List.mem_flatMap.2 ⟨c, hc, hr⟩)
  obtain ⟨ms, hms⟩ := stepStates_getLast U db parts first
  have ht := crash_timeline hR parts first hq ho hv he
  have hm := ht.dbOk _ (by rw [hms]; simp : afterSteps U db (first ++ parts.flatten) ∈ stepStates U db first parts)
  obtain ⟨s, hs, hl⟩ := crash_life hq ho (db := db)
  rw [hms] at ht hp
  have hpl := hp (afterSteps U db (first ++ parts.flatten)) (by simp)
  obtain ⟨es, es0, h1, _, _, h2, h3⟩ := C31_incremental_partial (realParser E) maxDocs db ms _ ht hp
  rw [← filter_noPending hpl] at h3
  rw [hms]
  exact ⟨es, _, s, h1, hs, hl, hm, h2, h3⟩

end

/-- If each of the calls returns, the histories that the steps may give are the ones that were ingested. -/
def allReturn (U : Unicode) (db : PyStr) : Mongo → List ApiCall → Bool
  | _, [] => true
  | m, c :: calls => match c.run U db m with
    | (.ok _, m') => allReturn U db m' calls
    | (.error _, _) => false

theorem stepsSpec_calls {U : Unicode} {db : PyStr} : ∀ (calls : List ApiCall) (m : Mongo) {s s' : Store}, allReturn U db m calls = true →
    StepsSpec U db m s (calls.map .call) s' → s' = ingestedFrom U db m s calls
  | [], _, s, s', _, h => funext h
  | c :: calls, m, s, s'', hr, h => by
    obtain ⟨s', h1, h2⟩ := h
    unfold allReturn at hr
    unfold ingestedFrom
    simp only [Step.Spec] at h1
    have hrun : (Step.call c).run U db m = (c.run U db m).2 := rfl
    rw [hrun] at h2
    generalize c.run U db m = x at *
    obtain ⟨r, m'⟩ := x
    cases r with
    | error e => cases hr
    | ok ret =>
      dsimp only at h1 h2 hr ⊢
      rw [← funext h1]
      exact stepsSpec_calls calls m' hr h2

end Splitgill
