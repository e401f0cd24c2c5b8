import Verif.Proof.Reads2
import Verif.Model.Search
import Mathlib.Data.List.MinMax
/-!
# Lemmas for C125: searches
-/

namespace Splitgill

variable {P : Type}

theorem mem_found_all {es : ES P} {at_ : SearchAt} {d : Doc P} (h : d ∈ found es at_) : d ∈ es.all := by
  unfold found Search.run at h
  have key : ∀ {s : Search} {d : Doc P}, d ∈ (match s.index with | .latest => (es.docs .latest).map Prod.snd | .wildcard => es.all) → d ∈ es.all := by
    intro s d h
    split at h
    · obtain ⟨y, hy, rfl⟩ := List.mem_map.1 h
      exact docs_sub_all hy
    · exact h
  dsimp only at h
  split at h
  · exact key h
  · exact key (List.mem_filter.1 h).1

theorem found_le {es : ES P} {w : Int} {d : Doc P} (h : d ∈ found es (.version w)) (e : d.gte = d.version) : d.version ≤ w := by
  have hall := mem_found_all h
  unfold found ES.search at h
  dsimp only at h
  have hr : ∀ {s : Search}, s.filter = some w → d ∈ s.run es → d.version ≤ w := by
    intro s hs hm
    unfold Search.run at hm
    rw [hs] at hm
    have := (List.mem_filter.1 hm).2
    unfold Doc.inRange at this
    rw [Bool.and_eq_true, decide_eq_true_eq] at this
    omega
  split at h
  · rename_i cur hc
    split at h
    · have := (List.max?_eq_some_iff.1 hc).2 d.version (List.mem_append_left _ (List.mem_map.2 ⟨d, hall, rfl⟩))
      omega
    · exact hr rfl h
  · exact hr rfl h

theorem afterSteps_calls (U : Unicode) (db : PyStr) (calls : List ApiCall) : afterSteps U db (calls.map Step.call) = afterCalls U db calls := by
  unfold afterSteps afterCalls runSteps runCalls
  rw [List.foldl_map, List.foldl_map]
  rfl

theorem orderly_calls {calls : List ApiCall} (h : Orderly calls) : OrderlySteps (calls.map Step.call) := by
  refine ⟨?_, fun c hc => ?_⟩
  · rw [List.filterMap_map]
    exact h.clock
  · obtain ⟨x, hx, rfl⟩ := List.mem_map.1 hc
    exact h.noSpan x hx

/-- A computed result with a computed property. -/
theorem exists_ok {α ε : Type} {x : Except ε α} {p : α → Bool} (h : (match x with | .ok a => p a | .error _ => false) = true) :
    ∃ a, x = .ok a ∧ p a = true := by
  cases x with
  | ok a => exact ⟨a, rfl, h⟩
  | error e => cases h

end Splitgill
