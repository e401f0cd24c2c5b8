import Verif.Proof.Strict
import Verif.Props.History
/-!
# C68: histories with the types of all values

C05 says that the versions of a record read back as data that is equal in Python's sense, for which `1`, `1.0` and `True` are the
same. Here the data is the same with all its types.
-/

namespace Splitgill.Props
open Splitgill

/-- **C68**, as it should be: every version reads back with exactly the values that were ingested for it. -/
def C68_full : Prop :=
  ∀ (U : Unicode) (es : List Event), Regular es →
    ∃ c s, runEvents U [] es = .ok c ∧ SpecRun U Store.empty es s ∧
      ∀ id, ∃ items, history c id = .ok items ∧ ExactStates items (s id).states

/-- **C68** (what holds): it does if no two data given for a record hold, at the same place, scalars that are equal but different.
Missing: `C68_refuted`. -/
theorem C68_exact_partial (U : Unicode) (es : List Event) (hes : Regular es)
    (hp : NoPunsAmong U (es.flatMap Event.stream)) :
    ∃ c s, runEvents U [] es = .ok c ∧ SpecRun U Store.empty es s ∧
      ∀ id, ∃ items, history c id = .ok items ∧ ExactStates items (s id).states := by
  obtain ⟨c, s, h1, h2, h3⟩ := run_events (U := U) es
    (RColl.empty (K := fun id => strictClass (placesOf U _ hp id))) (by simp [Store.empty])
    (fun e he => fits_strict hp (fun r hr => List.mem_flatMap.2 ⟨e, he, hr⟩)) hes
  refine ⟨c, s, h1, h2, fun id => ?_⟩
  obtain ⟨items, h4, h5⟩ := Rep.history h3 id
  exact ⟨items, h4, h5.imp (fun _ _ h => ⟨h.1, h.2.strict⟩)⟩

/-- A record that is changed, with a crash and a rollback, and none of its values is a pun. -/
def exExactEvents : List Event :=
  [.ingest none [⟨['a'], [(.str ['x'], .int 1), (.str ['y'], .bool true)]⟩], .commit 10,
    .ingest none [⟨['a'], [(.str ['x'], .int 2), (.str ['y'], .bool true), (.str ['z'], .int 1)]⟩], .commit 20,
    .ingest none [exDel ['a']], .rollback]

theorem exExact_noPuns : NoPunsAmong asciiU (exExactEvents.flatMap Event.stream) := by
  have key : ∀ r ∈ exExactEvents.flatMap Event.stream, ∀ p v, getAt p (.dict (prepareRecordData asciiU r)) = some v →
      v.isScalar = true → (p = [.key ['x']] → v = .int 1 ∨ v = .int 2) ∧ (p = [.key ['y']] → v = .bool true) ∧
      (p = [.key ['z']] → v = .int 1) ∧ (p = [.key "_id".toList] → v = .str ['a']) ∧
      (p = [.key ['x']] ∨ p = [.key ['y']] ∨ p = [.key ['z']] ∨ p = [.key "_id".toList]) := by
    have hone : ∀ (d : Dict), d.all (fun kv => kv.2.isScalar) = true → ∀ p v, getAt p (.dict d) = some v → v.isScalar = true →
        ∃ k, p = [.key k] ∧ aget k d = some v := by
      intro d hd p v hv hs
      cases p with
      | nil => simp only [getAt, Option.some.injEq] at hv; subst hv; simp [Value.isScalar] at hs
      | cons s p =>
        cases s with
        | idx i => simp [getAt] at hv
        | key k =>
          simp only [getAt] at hv
          obtain ⟨w, hw, hv⟩ := Option.bind_eq_some_iff.1 hv
          have hws := List.all_eq_true.1 hd _ (aget_mem hw)
          cases p with
          | nil => simp only [getAt, Option.some.injEq] at hv; subst hv; exact ⟨k, rfl, hw⟩
          | cons s' p' => cases w <;> cases s' <;> simp_all [getAt, Value.isScalar]
    intro r hr p v hv hs
    simp only [exExactEvents, List.flatMap_cons, List.flatMap_nil, Event.stream, List.append_nil, List.nil_append,
      List.singleton_append, List.mem_cons, List.not_mem_nil, or_false, exDel] at hr
    rcases hr with rfl | rfl | rfl
    · have e : prepareRecordData asciiU ⟨['a'], [(.str ['x'], .int 1), (.str ['y'], .bool true)]⟩ =
          [(['x'], .int 1), (['y'], .bool true), ("_id".toList, .str ['a'])] := by decide
      rw [e] at hv
      obtain ⟨k, rfl, hk⟩ := hone _ (by decide) p v hv hs
      have := aget_mem hk
      simp at this
      rcases this with ⟨rfl, rfl⟩ | ⟨rfl, rfl⟩ | ⟨rfl, rfl⟩ <;> decide
    · have e : prepareRecordData asciiU ⟨['a'], [(.str ['x'], .int 2), (.str ['y'], .bool true), (.str ['z'], .int 1)]⟩ =
          [(['x'], .int 2), (['y'], .bool true), (['z'], .int 1), ("_id".toList, .str ['a'])] := by decide
      rw [e] at hv
      obtain ⟨k, rfl, hk⟩ := hone _ (by decide) p v hv hs
      have := aget_mem hk
      simp at this
      rcases this with ⟨rfl, rfl⟩ | ⟨rfl, rfl⟩ | ⟨rfl, rfl⟩ | ⟨rfl, rfl⟩ <;> decide
    · have e : prepareRecordData asciiU ⟨['a'], []⟩ = [] := by decide
      rw [e] at hv
      obtain ⟨k, rfl, hk⟩ := hone _ (by decide) p v hv hs
      cases hk
  intro r hr r' hr' _ p v w hv hw hs hs' hpy
  obtain ⟨a1, a2, a3, a4, a5⟩ := key r hr p v hv hs
  obtain ⟨b1, b2, b3, b4, _⟩ := key r' hr' p w hw hs'
  rcases a5 with h | h | h | h
  · rcases a1 h with rfl | rfl <;> rcases b1 h with rfl | rfl <;> first | rfl | (revert hpy; decide)
  · rw [a2 h, b2 h]
  · rw [a3 h, b3 h]
  · rw [a4 h, b4 h]

example : Regular exExactEvents ∧ NoPunsAmong asciiU (exExactEvents.flatMap Event.stream) ∧
    ∃ c, runEvents asciiU [] exExactEvents = .ok c ∧ history c ['a'] = .ok
      [(some 20, [(['x'], .int 2), (['y'], .bool true), (['z'], .int 1), ("_id".toList, .str ['a'])]),
        (some 10, [(['x'], .int 1), (['y'], .bool true), ("_id".toList, .str ['a'])])] := by
  refine ⟨⟨by decide, ?_⟩, exExact_noPuns, _, rfl, by decide⟩
  intro e he
  simp only [exExactEvents, List.mem_cons, List.not_mem_nil, or_false] at he
  rcases he with rfl | rfl | rfl | rfl | rfl | rfl <;> simp [NoSpan, Event.stream, partition, partitionLoop]

/-- `{"x": 1}` is committed, then `{"x": True, "y": 2}`. -/
def exPunEvents : List Event :=
  [.ingest none [⟨['a'], [(.str ['x'], .int 1)]⟩], .commit 10,
    .ingest none [⟨['a'], [(.str ['x'], .bool true), (.str ['y'], .int 2)]⟩], .commit 20]

/-- **C68** is false in general: the change of `1` to `True` is not in the diff, so version 10 now reads as
`{"x": True}`. -/
theorem C68_refuted : ¬ C68_full := by
  intro h
  obtain ⟨c, s, h1, h2, h3⟩ := h asciiU exPunEvents ⟨by decide, by
    intro e he
    simp only [exPunEvents, List.mem_cons, List.not_mem_nil, or_false] at he
    rcases he with rfl | rfl | rfl | rfl <;> simp [NoSpan, Event.stream, partition, partitionLoop]⟩
  obtain ⟨items, h4, h5⟩ := h3 ['a']
  have e1 : runEvents asciiU [] exPunEvents = .ok c → history c ['a'] = .ok
      [(some 20, [(['x'], .bool true), (['y'], .int 2), ("_id".toList, .str ['a'])]),
        (some 10, [(['x'], .bool true), ("_id".toList, .str ['a'])])] := by
    intro h
    have : runEvents asciiU [] exPunEvents = .ok [⟨['a'], some 20, [(['x'], .bool true), (['y'], .int 2), ("_id".toList, .str ['a'])],
      [(10, [⟨[], {dd := some [['y']]}⟩])]⟩] := by decide
    rw [this] at h; cases h; decide
  rw [e1 h1] at h4
  cases h4
  have hs : (s ['a']).states = [(some 20, [(['x'], .bool true), (['y'], .int 2), ("_id".toList, .str ['a'])]),
        (some 10, [(['x'], .int 1), ("_id".toList, .str ['a'])])] := by
    cases h2 with | cons a1 h2 => cases h2 with | cons a2 h2 => cases h2 with | cons a3 h2 => cases h2 with | cons a4 h2 =>
    cases h2
    rw [a4, a3]
    simp only [Store.ingest, List.foldl]
    rw [a2, a1]
    decide
  rw [hs] at h5
  cases h5 with
  | cons _ h5 => cases h5 with
    | cons h5 _ => exact absurd h5.2 (by decide)

end Splitgill.Props
