import Verif.Proof.OptHist
import Verif.Props.Life
/-!
# C79: the history of the options

What calls do to the options is `ApiCall.optEffect`, and what calls that are stopped may do `Step.OptSpec` (`Verif.Spec.OptHist`), from
what the calls are given and return.
-/

namespace Splitgill.Props
open Splitgill

/-- **C79** after any calls on a database, `get_options` returns the options of its history: the committed ones with their
versions, and with `include_uncommitted` also the uncommitted ones. -/
theorem C79_options (U : Unicode) (db : PyStr) (calls : List ApiCall) (hc : (calls.filterMap ApiCall.clock?).Pairwise (· < ·))
    (ho : ∀ o ∈ calls.filterMap ApiCall.options?, OptionsOk o) :
    getOptions db false (afterCalls U db calls) = (optionsGiven U db calls).committed.map (fun x => (some x.1, x.2)) ∧
    getOptions db true (afterCalls U db calls) = (optionsGiven U db calls).committed.map (fun x => (some x.1, x.2)) ++
      (optionsGiven U db calls).pending.toList.map (fun o => (none, o)) := by
  obtain ⟨hi, h1, h2⟩ := optionsFrom_docs U db calls OptHist.empty_ok (m := Mongo.empty) rfl (fun t _ => gtAfter_none t) hc ho
  exact ⟨getOptions_docs h1 h2, getOptions_docs_all h1 h2⟩

/-- The versions of the options are those that calls have returned, in the order of the calls. -/
theorem C79_versions (U : Unicode) (db : PyStr) (calls : List ApiCall) (hc : (calls.filterMap ApiCall.clock?).Pairwise (· < ·))
    (ho : ∀ o ∈ calls.filterMap ApiCall.options?, OptionsOk o) :
    ((optionsGiven U db calls).committed.map Prod.fst).Pairwise (· < ·) ∧
    ∀ v ∈ (optionsGiven U db calls).committed.map Prod.fst, ∃ before call after, calls = before ++ call :: after ∧
      (call.run U db (afterCalls U db before)).1 = .ok (some v) := by
  obtain ⟨hi, h1, h2⟩ := optionsFrom_docs U db calls OptHist.empty_ok (m := Mongo.empty) rfl (fun t _ => gtAfter_none t) hc ho
  refine ⟨h1.sorted, ?_⟩
  have key : ∀ (calls : List ApiCall) (m : Mongo) (h : OptHist), ∀ v ∈ (optionsFrom U db m h calls).committed.map Prod.fst,
      v ∈ h.committed.map Prod.fst ∨ ∃ before call after, calls = before ++ call :: after ∧
        (call.run U db (runCalls U m (before.map (fun c => (db, c))))).1 = .ok (some v) := by
    intro calls
    induction calls with
    | nil => exact fun m h v hv => .inl hv
    | cons c calls ih =>
      intro m h v hv
      rw [optionsFrom] at hv
      have none_eff : ∀ h : OptHist, (c.optEffect none h).committed = h.committed := by
        intro h
        unfold ApiCall.optEffect
        cases c <;> simp only [OptHist.rollback]
        unfold OptHist.update
        split
        · split <;> rfl
        · rfl
      have some_eff : ∀ (h : OptHist) w, (c.optEffect (some w) h).committed.map Prod.fst = h.committed.map Prod.fst ∨
          (c.optEffect (some w) h).committed.map Prod.fst = h.committed.map Prod.fst ++ [w] := by
        intro h w
        have e : (c.optEffect (some w) h).committed = ((c.optEffect none h).commit w).committed := rfl
        have n := none_eff h
        generalize c.optEffect none h = h' at e n
        rw [e, ← n]
        unfold OptHist.commit OptHist.orDefault OptHist.give
        obtain ⟨c', p⟩ := h'
        cases c' <;> cases p <;> simp
      rcases hr : c.run U db m with ⟨r, m'⟩
      have hstep : runCalls U m ([c].map (fun c => (db, c))) = m' := by
        simp [runCalls, hr]
      have lift : (∃ before call after, calls = before ++ call :: after ∧
            (call.run U db (runCalls U m' (before.map (fun c => (db, c))))).1 = .ok (some v)) →
          ∃ before call after, c :: calls = before ++ call :: after ∧
            (call.run U db (runCalls U m (before.map (fun c => (db, c))))).1 = .ok (some v) := by
        rintro ⟨b, x, a, e, h⟩
        refine ⟨c :: b, x, a, by rw [e]; rfl, ?_⟩
        have : runCalls U m ((c :: b).map (fun c => (db, c))) = runCalls U m' (b.map (fun c => (db, c))) := by
          simp [runCalls, hr]
        rw [this]; exact h
      rw [hr] at hv
      cases r with
      | error e =>
        rcases ih m' _ v hv with h1 | h1
        · rw [none_eff] at h1; exact .inl h1
        · exact .inr (lift h1)
      | ok ret =>
        rcases ih m' _ v hv with h1 | h1
        · cases ret with
          | none => rw [none_eff] at h1; exact .inl h1
          | some w =>
            rcases some_eff h w with e | e
            · rw [e] at h1; exact .inl h1
            · rw [e] at h1
              rcases List.mem_append.1 h1 with h1 | h1
              · exact .inl h1
              · rw [List.mem_singleton] at h1
                subst h1
                exact .inr ⟨[], c, calls, rfl, by simp [runCalls, hr]⟩
        · exact .inr (lift h1)
  intro v hv
  rcases key calls Mongo.empty OptHist.empty v hv with h | h
  · cases h
  · exact h

/-- **C79** with calls that are stopped half way: `get_options` returns one of the histories that the steps may give. -/
theorem C79_stopped (U : Unicode) (db : PyStr) (steps : List Step) (hc : (steps.filterMap Step.clock?).Pairwise (· < ·))
    (ho : ∀ o ∈ steps.filterMap Step.options?, OptionsOk o) :
    ∃ h, PossibleOptions U db steps h ∧
      getOptions db false (afterSteps U db steps) = h.committed.map (fun x => (some x.1, x.2)) ∧
      getOptions db true (afterSteps U db steps) = h.committed.map (fun x => (some x.1, x.2)) ++
        h.pending.toList.map (fun o => (none, o)) := by
  obtain ⟨h, hi, g, h1, h2⟩ := steps_docs U db steps OptHist.empty_ok (m := Mongo.empty) rfl (fun t _ => gtAfter_none t) hc ho
  exact ⟨h, g, getOptions_docs h1 h2, getOptions_docs_all h1 h2⟩

/-- Once committed, options stay as they are: later calls only add new ones after them. -/
theorem C79_stays (U : Unicode) (db : PyStr) (a b : List ApiCall) (hc : ((a ++ b).filterMap ApiCall.clock?).Pairwise (· < ·))
    (ho : ∀ o ∈ (a ++ b).filterMap ApiCall.options?, OptionsOk o) :
    ∃ new, getOptions db false (afterCalls U db (a ++ b)) = getOptions db false (afterCalls U db a) ++ new := by
  have hc' : (a.filterMap ApiCall.clock?).Pairwise (· < ·) := by
    rw [List.filterMap_append] at hc; exact (List.pairwise_append.1 hc).1
  have ho' : ∀ o ∈ a.filterMap ApiCall.options?, OptionsOk o := fun o h => ho o (by
    rw [List.filterMap_append]; exact List.mem_append_left _ h)
  rw [(C79_options U db (a ++ b) hc ho).1, (C79_options U db a hc' ho').1]
  have eff : ∀ (c : ApiCall) (ret : Option Int) (h : OptHist), ∃ new, (c.optEffect ret h).committed = h.committed ++ new := by
    intro c ret h
    have none_eff : (c.optEffect none h).committed = h.committed := by
      unfold ApiCall.optEffect
      cases c <;> simp only [OptHist.rollback]
      unfold OptHist.update
      split
      · split <;> rfl
      · rfl
    cases ret with
    | none => exact ⟨[], by rw [none_eff, List.append_nil]⟩
    | some w =>
      have e : (c.optEffect (some w) h).committed = ((c.optEffect none h).commit w).committed := rfl
      generalize c.optEffect none h = h' at e none_eff
      rw [e, ← none_eff]
      unfold OptHist.commit OptHist.orDefault OptHist.give
      obtain ⟨c', p⟩ := h'
      cases c' <;> cases p <;> simp
  have more : ∀ (calls : List ApiCall) (m : Mongo) (h : OptHist), ∃ new, (optionsFrom U db m h calls).committed = h.committed ++ new := by
    intro calls
    induction calls with
    | nil => exact fun m h => ⟨[], by simp [optionsFrom]⟩
    | cons c calls ih =>
      intro m h
      rw [optionsFrom]
      split
      · obtain ⟨n1, e1⟩ := ih _ (c.optEffect _ h)
        obtain ⟨n2, e2⟩ := eff c _ h
        exact ⟨n2 ++ n1, by rw [e1, e2, List.append_assoc]⟩
      · obtain ⟨n1, e1⟩ := ih _ (c.optEffect none h)
        obtain ⟨n2, e2⟩ := eff c none h
        exact ⟨n2 ++ n1, by rw [e1, e2, List.append_assoc]⟩
  have app : ∀ (a : List ApiCall) (m : Mongo) (h : OptHist), optionsFrom U db m h (a ++ b) =
      optionsFrom U db (runCalls U m (a.map (fun c => (db, c)))) (optionsFrom U db m h a) b := by
    intro a
    induction a with
    | nil => exact fun m h => rfl
    | cons c a ih =>
      intro m h
      rw [List.cons_append, optionsFrom, optionsFrom]
      rcases hr : c.run U db m with ⟨r, m'⟩
      have : runCalls U m ((c :: a).map (fun c => (db, c))) = runCalls U m' (a.map (fun c => (db, c))) := by
        simp [runCalls, hr]
      rw [this]
      cases r with
      | error e => exact ih _ _
      | ok ret => exact ih _ _
  obtain ⟨new, e⟩ := more b (afterCalls U db a) (optionsGiven U db a)
  refine ⟨new.map (fun x => (some x.1, x.2)), ?_⟩
  have e2 : optionsGiven U db (a ++ b) = optionsFrom U db (afterCalls U db a) (optionsGiven U db a) b := app a _ _
  rw [e2, e, List.map_append]

/-- The options that `sync` and the theorems about it (C70, C77, C78) use are those of the history. -/
theorem C79_indexed (U : Unicode) (db : PyStr) (calls : List ApiCall) (hc : (calls.filterMap ApiCall.clock?).Pairwise (· < ·))
    (ho : ∀ o ∈ calls.filterMap ApiCall.options?, OptionsOk o) :
    committedOptionsOf db (afterCalls U db calls) = (optionsGiven U db calls).committed := by
  unfold committedOptionsOf
  rw [(C79_options U db calls hc ho).1, List.filterMap_map]
  exact List.filterMap_some

/-- Data before any options (the default options get the version), options, the same again, other options given twice of which only
the last are committed, and some that are rolled back. -/
def exOptCalls : List ApiCall :=
  [.ingest none [exRec ['a'] 1] true 1, .updateOptions (exOpts 10) true 2, .updateOptions (exOpts 10) true 3,
   .updateOptions (exOpts 20) false 4, .updateOptions (exOpts 30) false 4, .commit 5, .updateOptions (exOpts 40) false 6,
   .rollbackOptions, .commit 7, .updateOptions (exOpts 50) false 8]

set_option maxRecDepth 100000 in
example : (exOptCalls.filterMap ApiCall.clock?).Pairwise (· < ·) ∧
    (∀ o ∈ exOptCalls.filterMap ApiCall.options?, OptionsOk o) ∧
    (optionsGiven asciiU ['x'] exOptCalls).committed = [(1, startOptions), (2, exOpts 10), (5, exOpts 30)] ∧
    (optionsGiven asciiU ['x'] exOptCalls).pending = some (exOpts 50) := by
  refine ⟨by decide, ?_, by decide, by decide⟩
  intro o h
  have : o ∈ [exOpts 10, exOpts 10, exOpts 20, exOpts 30, exOpts 40, exOpts 50] := h
  simp only [List.mem_cons, List.not_mem_nil, or_false] at this
  rcases this with rfl | rfl | rfl | rfl | rfl | rfl <;> exact ⟨by decide, by decide, by decide, by decide⟩

set_option maxRecDepth 100000 in
/-- A commit that is stopped between the data and the options leaves uncommitted default options. -/
example : PossibleOptions asciiU ['x'] [.call (.ingest none [exRec ['a'] 1] false 0), .commitStops 1 (List.replicate 9 0) true]
      ⟨[], some startOptions⟩ ∧
    getOptions ['x'] true (afterSteps asciiU ['x']
      [.call (.ingest none [exRec ['a'] 1] false 0), .commitStops 1 (List.replicate 9 0) true]) = [(none, startOptions)] := by
  refine ⟨⟨OptHist.empty, ?_, ⟨_, .inr ⟨by decide, .inl rfl⟩, rfl⟩⟩, by decide⟩
  rfl

end Splitgill.Props
