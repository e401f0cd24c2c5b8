import Verif.Proof.ParseEq
import Verif.Props.Parse
/-!
# C69: parsing does not depend on the order of fields
-/

namespace Splitgill.Props
open Splitgill

/-- **C69**: data that is the same, with all types, up to the order of the fields of dicts is parsed to the same up to that order,
with the same lists of types. If parsing one of them fails, so does parsing the other. -/
theorem C69_field_order (E : ParseEnv) (hE : E.IgnoresOrder) (o : ParsingOptions) (d d' : Dict)
    (hw : (Value.dict d).wf = true) (hw' : (Value.dict d').wf = true) (h : strictEq (.dict d) (.dict d') = true) :
    (∀ p, parse E o d = .ok p → ∃ q, parse E o d' = .ok q ∧ strictEq (.dict p.parsed) (.dict q.parsed) = true ∧
      p.dataTypes = q.dataTypes ∧ p.parsedTypes = q.parsedTypes) ∧
    ((∃ e, parse E o d = .error e) ↔ ∃ e, parse E o d' = .error e) := by
  have h1 : SE (.dict d) (.dict d') := ⟨hw, hw', h⟩
  refine ⟨fun p hp => ?_, ?_⟩
  · obtain ⟨q, hq, h2, h3, h4⟩ := parse_eq hE h1 hp
    exact ⟨q, hq, h2.2.2, h3, h4⟩
  · cases hd : parse E o d with
    | ok p => obtain ⟨q, hq, _⟩ := parse_eq hE h1 hd; simp [hq]
    | error e =>
      cases hd' : parse E o d' with
      | ok q => obtain ⟨p, hp, _⟩ := parse_eq hE h1.symm hd'; rw [hd] at hp; cases hp
      | error e' => simp

open Classical in
theorem exGeojson_some (d : Dict) : exEnv.geojson d = if (∃ s, aget "type".toList d = some (.str s)) then
    some ("p".toList, "s".toList) else none := by
  simp only [exEnv]
  cases aget "type".toList d with
  | none => simp
  | some v => cases v <;> simp

theorem exHint_some (lon lat : Value) (r : Option Value) (n : Int) : exEnv.hintGeo lon lat r n =
    if (lon = .int 6 ∧ lat = .int 5) ∨ (lon = .list [.int 6] ∧ lat = .list [.int 5]) then
      some ("p".toList, "s".toList) else none := by
  simp only [exEnv]
  split
  · simp
  · simp
  · rename_i h1 h2
    rw [if_neg]
    rintro (⟨rfl, rfl⟩ | ⟨rfl, rfl⟩)
    · exact h1 rfl rfl
    · exact h2 rfl rfl

theorem exEnv_order : exEnv.IgnoresOrder := by
  constructor
  · intro a b ha hb h
    have key : ∀ a b, SE (.dict a) (.dict b) →
        (∃ s, aget "type".toList a = some (.str s)) → ∃ s, aget "type".toList b = some (.str s) := by
      rintro a b h ⟨s, hs⟩
      rcases (VR_dict.1 h).2.2 "type".toList with ⟨e, _⟩ | ⟨x, y, hx, hy, hxy⟩
      · rw [hs] at e; cases e
      · rw [hs] at hx; cases hx
        exact ⟨s, by rw [hy, ← SE.scalar rfl hxy]⟩
    rw [exGeojson_some, exGeojson_some]
    classical
    exact if_congr ⟨key a b ⟨ha, hb, h⟩, key b a (SE.symm ⟨ha, hb, h⟩)⟩ rfl rfl
  · intro lon lat r n lon' lat' r' h1 h1' h2 h3 h3' h4 _
    have one : ∀ (v w : Value) (i : Int), SE v w → v = .list [.int i] → w = .list [.int i] := by
      rintro v w i h rfl
      obtain ⟨l, rfl⟩ := VR_left_list h
      cases VR_list.1 h with
      | cons hx ht => cases ht; rw [← SE.scalar rfl hx]
    have sc : ∀ (v w : Value) (i : Int), SE v w → v = .int i → w = .int i := by
      rintro v w i h rfl
      exact (h.scalar rfl).symm
    have s1 : SE lon lon' := ⟨h1, h1', h2⟩
    have s2 : SE lat lat' := ⟨h3, h3', h4⟩
    rw [exHint_some, exHint_some]
    refine if_congr ⟨?_, ?_⟩ rfl rfl
    · rintro (⟨a, b⟩ | ⟨a, b⟩)
      · exact .inl ⟨sc _ _ _ s1 a, sc _ _ _ s2 b⟩
      · exact .inr ⟨one _ _ _ s1 a, one _ _ _ s2 b⟩
    · rintro (⟨a, b⟩ | ⟨a, b⟩)
      · exact .inl ⟨sc _ _ _ s1.symm a, sc _ _ _ s2.symm b⟩
      · exact .inr ⟨one _ _ _ s1.symm a, one _ _ _ s2.symm b⟩

/-- The data of C47's example with its fields in another order. -/
def exTree' : Dict :=
  [("when".toList, .str "01/02/2020".toList),
   ("x".toList, .dict [("g".toList, .dict [("coordinates".toList, .list [.int 1, .int 2]), ("type".toList, .str "Point".toList)]),
     ("y".toList, .list [.int 1, .str "TRUE".toList, .dict [("z".toList, .none)], .list [.bool false]])]),
   ("lon".toList, .int 6), ("_id".toList, .str "r1".toList), ("lat".toList, .int 5)]

example : exEnv.IgnoresOrder ∧ (Value.dict exTree).wf = true ∧ (Value.dict exTree').wf = true ∧
    strictEq (.dict exTree) (.dict exTree') = true ∧ exTree ≠ exTree' ∧ ∃ p, parse exEnv exParseOpts exTree = .ok p :=
  ⟨exEnv_order, by decide, by decide, by decide, by decide, _, rfl⟩

end Splitgill.Props
