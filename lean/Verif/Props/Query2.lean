import Verif.Proof.Query3
import Verif.Props.Prepare
import Verif.Props.Query
/-!
# C65, C66: id queries and exists queries
-/

namespace Splitgill.Props

open Splitgill

/-! ## C65 -/

/-- The full statement of C65: `id_query(id)` matches the document of a record exactly if the record has this id. -/
def C65_full : Prop := ∀ (U : Unicode) (Q : QueryEnv) (E : ParseEnv) (o : ParsingOptions) (r : Record) (pd : ParsedData)
  (id : PyStr), U.Sane → 0 ≤ o.keywordLength → r.data ≠ [] → parse E o (prepareRecordData U r) = .ok pd →
  ∃ q, idQuery Q id = .ok q ∧ (q.matches Q pd.parsed = true ↔ r.id = id)

/-- The id as it is stored: without control characters. -/
def storedId (U : Unicode) (r : Record) : PyStr := r.id.filter (fun c => !(U.isC c && !(c == '\n' || c == '\r' || c == '\t')))

theorem C65_id_query_partial (U : Unicode) (hU : U.Sane) (Q : QueryEnv) (E : ParseEnv) (o : ParsingOptions) (r : Record)
    (pd : ParsedData) (id : PyStr) (hn : 0 ≤ o.keywordLength) (hr : r.data ≠ [])
    (h : parse E o (prepareRecordData U r) = .ok pd) :
    ∃ q, idQuery Q id = .ok q ∧ (q.matches Q pd.parsed = true ↔
      storedId U r ≠ [] ∧ Q.normalise ((storedId U r).take o.keywordLength.toNat) = Q.normalise id) := by
  have hf := fieldNames_of_clean (C16_names_clean U hU r)
  have hw := prepareRecordData_wf U r
  obtain ⟨t, ht1, ht2⟩ := (C13_prepared_id U r).2 hr
  have ht : t = storedId U r := ht2
  subst ht
  refine ⟨_, rfl, (term_keyword hw hf h hn dataIdField id).trans ?_⟩
  constructor
  · rintro ⟨p, v, h1, h2, h3, h4⟩
    have hs := Value.isScalar_of_isIndexed h3
    have hk := (fieldPath_iff hf h2 hs).1 h1
    cases p with
    | nil => cases h2; cases hs
    | cons a p =>
      cases a with
      | idx i => cases h2
      | key k =>
        have hk' : k :: keysOf p = ["_id".toList] := hk
        injection hk' with e1 e2
        subst e1
        rw [getAt, ht1] at h2
        cases p with
        | nil =>
          have h2' : some (Value.str (storedId U r)) = some v := h2
          cases h2'
          refine ⟨?_, h4⟩
          intro e
          rw [e] at h3
          cases h3
        | cons a p =>
          rw [Option.bind_some, getAt_scalar_cons rfl] at h2
          cases h2
  · rintro ⟨h1, h2⟩
    refine ⟨[.key "_id".toList], .str (storedId U r), by decide, ?_, ?_, h2⟩
    · rw [getAt, ht1]
      rfl
    · cases hs : storedId U r with
      | nil => exact absurd hs h1
      | cons => rfl

/-- **C65**: a record is found by its id, if this has no control characters and is not longer than the keyword length. -/
theorem C65_found_partial (U : Unicode) (hU : U.Sane) (Q : QueryEnv) (E : ParseEnv) (o : ParsingOptions) (r : Record)
    (pd : ParsedData) (hr : r.data ≠ []) (h : parse E o (prepareRecordData U r) = .ok pd)
    (h0 : r.id ≠ []) (hc : ∀ c ∈ r.id, U.isC c = false) (hl : (r.id.length : ℤ) ≤ o.keywordLength) :
    ∃ q, idQuery Q r.id = .ok q ∧ q.matches Q pd.parsed = true := by
  obtain ⟨q, h1, h2⟩ := C65_id_query_partial U hU Q E o r pd r.id (by omega) hr h
  have hs : storedId U r = r.id := by
    rw [storedId, List.filter_eq_self]
    intro c hcm
    rw [hc c hcm]
    rfl
  refine ⟨q, h1, h2.2 ⟨by rw [hs]; exact h0, ?_⟩⟩
  rw [hs, List.take_of_length_le (by omega)]

/-- A record with the id `A`. -/
def exIdRecord : Record := ⟨"A".toList, [(.str "x".toList, .int 1)]⟩

/-- **C65 does not hold in full**: the record `A` is found with the id `a`. -/
theorem C65_refuted : ¬ C65_full := by
  intro h
  obtain ⟨pd, hpd⟩ : ∃ pd, parse exEnv exParseOpts (prepareRecordData asciiU exIdRecord) = .ok pd := ⟨_, rfl⟩
  obtain ⟨q, h1, h2⟩ := h asciiU exQuery exEnv exParseOpts exIdRecord pd "a".toList asciiU_sane (by decide)
    (by decide) hpd
  obtain ⟨q', h3, h4⟩ := C65_id_query_partial asciiU asciiU_sane exQuery exEnv exParseOpts exIdRecord pd
    "a".toList (by decide) (by decide) hpd
  rw [h1] at h3
  cases h3
  exact absurd (h2.1 (h4.2 ⟨by decide, by decide⟩)) (by decide)

example : exIdRecord.data ≠ [] ∧ (∃ pd, parse exEnv exParseOpts (prepareRecordData asciiU exIdRecord) = .ok pd) ∧
    exIdRecord.id ≠ [] ∧ (∀ c ∈ exIdRecord.id, asciiU.isC c = false) ∧ (exIdRecord.id.length : ℤ) ≤ exParseOpts.keywordLength :=
  ⟨by decide, ⟨_, rfl⟩, by decide, by decide, by decide⟩

/-! ## C66 -/

/-- **C66**: `exists_query(field)` matches exactly if the data has, in the field or inside it, a scalar other than `None` and
`""`. -/
theorem C66_exists_query (E : ParseEnv) (hE : E.PlacesHaveValues) (o : ParsingOptions) (d : Dict) (pd : ParsedData)
    (hw : (Value.dict d).wf = true) (hf : FieldNames (.dict d)) (h : parse E o d = .ok pd)
    (field : PyStr) (hk : ∀ k ∈ splitDots field, FieldName k) :
    existsMatches (existsQuery field) pd.parsed = true ↔
      ∃ p v, fieldPath p = field ∧ getAt p (.dict d) = some v ∧ HasValue v :=
  exists_iff hE hw hf h hk

/-- The small environment, with one kind of GeoJSON. -/
def exPlaces : ParseEnv := { exEnv with
  geojson := fun d =>
    match aget "type".toList d with
    | some (.str (_ :: _)) => some ("p".toList, "s".toList)
    | _ => none }

theorem exPlaces_values : exPlaces.PlacesHaveValues where
  geojson := by
    intro d g h
    simp only [exPlaces] at h
    split at h
    · rename_i c s hm
      exact ⟨[.key "type".toList], .str (c :: s), by rw [getAt, hm]; rfl, rfl⟩
    · cases h
  hint := by
    intro lon lat r n g h
    simp only [exPlaces, exEnv] at h
    split at h
    · exact ⟨[], _, rfl, rfl⟩
    · exact ⟨[.idx 0], _, rfl, rfl⟩
    · cases h

/-- Data where `x` and `x.y` have values, and `x.z` has not. -/
def exHas : Dict := [("x".toList, .dict [("y".toList, .list [.int 1, .none]), ("z".toList, .none)])]

example : (∃ pd, parse exPlaces exParseOpts exHas = .ok pd) ∧ (Value.dict exHas).wf = true ∧
    FieldNames (.dict exHas) ∧ (∀ k ∈ splitDots "x.y".toList, FieldName k) := by
  refine ⟨⟨_, rfl⟩, by decide, fieldNames_of_check (by decide), ?_⟩
  intro k hk
  have : k = "x".toList ∨ k = "y".toList := by simpa [splitDots] using hk
  rcases this with rfl | rfl
  · exact ⟨by decide, by decide, by decide⟩
  · exact ⟨by decide, by decide, by decide⟩

example : (parse exPlaces exParseOpts exHas).toOption.map (fun pd => existsMatches (existsQuery "x.y".toList) pd.parsed) = some true ∧
    (parse exPlaces exParseOpts exHas).toOption.map (fun pd => existsMatches (existsQuery "x.z".toList) pd.parsed) = some false :=
  ⟨rfl, rfl⟩

end Splitgill.Props
