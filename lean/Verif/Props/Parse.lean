import Verif.Proof.Parse4
import Verif.Props.Prepare
/-!
# Properties of parsing and rebuilding (C47, C48, C49, C63, C64)
-/

namespace Splitgill.Props
open Splitgill

/-! ## An example -/

/-- ASCII lower case. -/
def exLowerStr (s : PyStr) : PyStr := s.map Char.toLower

/-- A small environment: it knows the number `1`, two date formats and the point at 6, 5, also of lists of one number as
`shapely.Point` does. -/
def exEnv : ParseEnv where
  lower := exLowerStr
  formatFloat := fun _ _ => "0.5".toList
  toNumber := fun s => if s = "1".toList then some (.fin 1) else none
  parseDate := fun s f =>
    if s = "01/02/2020".toList then
      if f = "%d/%m/%Y".toList then some 1580515200000
      else if f = "%m/%d/%Y".toList then some 1577923200000
      else none
    else none
  wkt := fun s => if s = "POINT (1 2)".toList then some (s, s) else none
  geojson := fun d => if aget "type".toList d matches some (.str _) then some ("p".toList, "s".toList) else none
  hintGeo := fun lon lat _ _ =>
    match lon, lat with
    | .int 6, .int 5 => some ("p".toList, "s".toList)
    | .list [.int 6], .list [.int 5] => some ("p".toList, "s".toList)
    | _, _ => none

/-- Options with a hint, and with dates. -/
def exParseOpts : ParsingOptions where
  trueValues := ["true".toList, "1".toList]
  falseValues := ["false".toList]
  dateFormats := ["%d/%m/%Y".toList, "%m/%d/%Y".toList]
  geoHints := [⟨"lat".toList, "lon".toList, none, 16⟩]
  keywordLength := 4
  floatFormat := "{0:.15g}".toList

/-- Data with most kinds of values. -/
def exTree : Dict :=
  [("_id".toList, .str "r1".toList), ("lat".toList, .int 5), ("lon".toList, .int 6),
   ("x".toList, .dict [("y".toList, .list [.int 1, .str "TRUE".toList, .dict [("z".toList, .none)], .list [.bool false]]),
     ("g".toList, .dict [("type".toList, .str "Point".toList), ("coordinates".toList, .list [.int 1, .int 2])])]),
   ("when".toList, .str "01/02/2020".toList)]

theorem exTree_names : FieldNames (.dict exTree) := fieldNames_of_check (by decide)

/-! ## C47 -/

/-- The full statement of C47: data that was prepared for storage is rebuilt from what is indexed. -/
def C47_full : Prop := ∀ (E : ParseEnv) (o : ParsingOptions) (d : Dict) (p : ParsedData),
  (Value.dict d).wf = true → FieldNames (.dict d) → parse E o d = .ok p → rebuildData p.parsed = d

/-- **C47 does not hold in full**: a field with an empty list is lost. -/
theorem C47_refuted : ¬ C47_full := by
  intro h
  have := h exEnv exParseOpts [("a".toList, .list [])] ⟨[], ["a.#l".toList], []⟩ (by decide)
    (fieldNames_of_check (by decide)) (by rfl)
  exact absurd (congrArg List.length this) (by decide)

/-- **C47, as it holds**: what is rebuilt is the data without the fields that have empty dicts or lists, and with `None`
for `""` and empty dicts and lists in lists. -/
theorem C47_rebuild_partial (E : ParseEnv) (o : ParsingOptions) (d : Dict) (p : ParsedData)
    (hw : (Value.dict d).wf = true) (hf : FieldNames (.dict d)) (h : parse E o d = .ok p) :
    rebuildData p.parsed = remainsDict d :=
  rebuild_parse hw hf h

/-- **C47**: the data is rebuilt exactly if it has no empty dict or list inside and no `""` in a list. -/
theorem C47_rebuild_iff_partial (E : ParseEnv) (o : ParsingOptions) (d : Dict) (p : ParsedData)
    (hw : (Value.dict d).wf = true) (hf : FieldNames (.dict d)) (h : parse E o d = .ok p) :
    rebuildData p.parsed = d ↔ Rebuildable (.dict d) := by
  rw [rebuild_parse hw hf h, ← remains_iff, remains]
  simp

/-- C47 for the data that is stored for a record. -/
theorem C47_prepared_partial (E : ParseEnv) (U : Unicode) (hU : U.Sane) (o : ParsingOptions) (r : Record) (p : ParsedData)
    (h : parse E o (prepareRecordData U r) = .ok p) :
    rebuildData p.parsed = prepareRecordData U r ↔ Rebuildable (.dict (prepareRecordData U r)) :=
  C47_rebuild_iff_partial E o _ p (prepareRecordData_wf U r) (fieldNames_of_clean (C16_names_clean U hU r)) h

example : ∃ p, parse exEnv exParseOpts exTree = .ok p ∧ rebuildData p.parsed = exTree := by
  refine ⟨_, rfl, ?_⟩
  decide

/-! ## C48 -/

/-- The full statement of C48. -/
def C48_full : Prop := ∀ (E : ParseEnv) (o : ParsingOptions) (d : Dict) (p : ParsedData),
  E.HintsOk o → (Value.dict d).wf = true → FieldNames (.dict d) → parse E o d = .ok p →
  Summarises p.dataTypes (DataTypeAt d) ∧ Summarises p.parsedTypes (ParsedTypeAt E o d)

theorem exEnv_hints : exEnv.HintsOk exParseOpts := by
  intro lon lat r n g h
  simp only [exEnv] at h
  split at h
  · exact ⟨by rfl, by intro d e; cases e⟩
  · refine ⟨by rfl, by intro d e; cases e⟩
  · cases h

/-- **C48 does not hold in full**: the path of the elements of `a` is listed twice for `{"a": [1, {"#e": 1}]}`, because
`a..#e.#i` comes between `a..#d` and `a..#i`. -/
theorem C48_refuted : ¬ C48_full := by
  intro h
  have h1 := h exEnv exParseOpts [("a".toList, .list [.int 1, .dict [("#e".toList, .int 1)]])] _ exEnv_hints (by decide)
    (fieldNames_of_check (by decide)) rfl
  exact absurd h1.1.once (by decide)

/-- The same for the types the data is indexed as: `a` is listed twice for `{"a": [1, {"_id": 1}]}`, because `a._id._b`
comes between `a._b` and `a._k`. -/
theorem C48_refuted_parsed : ¬ C48_full := by
  intro h
  have h1 := h exEnv exParseOpts [("a".toList, .list [.int 1, .dict [("_id".toList, .int 1)]])] _ exEnv_hints (by decide)
    (fieldNames_of_check (by decide)) rfl
  exact absurd h1.2.once (by decide)

/-- **C48** for the types of data: they are listed once for each path, if no field name below the root starts with
`#`. -/
theorem C48_data_types_partial (E : ParseEnv) (o : ParsingOptions) (d : Dict) (p : ParsedData)
    (hw : (Value.dict d).wf = true) (hf : FieldNames (.dict d)) (hc : NestedNames '#' (.dict d))
    (h : parse E o d = .ok p) : Summarises p.dataTypes (DataTypeAt d) :=
  summarises_data hw hf hc h

/-- **C48** for the types the data is indexed as: they are listed once for each path, if no field below the root is
named `_id`. -/
theorem C48_parsed_types_partial (E : ParseEnv) (o : ParsingOptions) (hE : E.HintsOk o) (d : Dict) (p : ParsedData)
    (hw : (Value.dict d).wf = true) (hf : FieldNames (.dict d)) (hc : NestedNames '_' (.dict d))
    (h : parse E o d = .ok p) : Summarises p.parsedTypes (ParsedTypeAt E o d) :=
  summarises_parsed hE hw hf hc h

example : exEnv.HintsOk exParseOpts ∧ (Value.dict exTree).wf = true ∧ FieldNames (.dict exTree) ∧
    NestedNames '#' (.dict exTree) ∧ NestedNames '_' (.dict exTree) ∧ ∃ p, parse exEnv exParseOpts exTree = .ok p :=
  ⟨exEnv_hints, by decide, exTree_names, nestedNames_of_check (by decide), nestedNames_of_check (by decide), _, rfl⟩

/-! ## C49 -/

/-- **C49**: every scalar of the data other than `None` and `""` is indexed at its place, as its value, its text, its
keyword, and its boolean, number and date. -/
theorem C49_parsed_values (E : ParseEnv) (o : ParsingOptions) (d : Dict) (pd : ParsedData)
    (hw : (Value.dict d).wf = true) (hf : FieldNames (.dict d)) (h : parse E o d = .ok pd)
    (p : Path) (v : Value) (hp : getAt p (.dict d) = some v) (hv : v.isIndexed = true) :
    ∃ pv, getAt p (.dict pd.parsed) = some (.dict pv) ∧ ParsedAs E o v pv := by
  obtain ⟨pv, h1, h2⟩ := parse_at hw hf h hp hv
  exact ⟨pv, h1, parsedAs_parseValue h2⟩

example : (Value.dict exTree).wf = true ∧ FieldNames (.dict exTree) ∧
    (∃ p, parse exEnv exParseOpts exTree = .ok p) ∧
    getAt [.key "x".toList, .key "y".toList, .idx 1] (.dict exTree) = some (.str "TRUE".toList) :=
  ⟨by decide, exTree_names, ⟨_, rfl⟩, rfl⟩

/-- Three values and what they are indexed as. -/
example : parseValue exEnv exParseOpts (.int 1) =
      [("_u".toList, .int 1), ("_t".toList, .str "1".toList), ("_k".toList, .str "1".toList),
       ("_b".toList, .bool true), ("_n".toList, .int 1)] ∧
    parseValue exEnv exParseOpts (.bool false) =
      [("_u".toList, .bool false), ("_t".toList, .str "False".toList), ("_k".toList, .str "Fals".toList),
       ("_b".toList, .bool false)] ∧
    parseValue exEnv exParseOpts (.str "01/02/2020".toList) =
      [("_u".toList, .str "01/02/2020".toList), ("_t".toList, .str "01/02/2020".toList), ("_k".toList, .str "01/0".toList),
       ("_d".toList, .int 1580515200000)] := ⟨rfl, rfl, rfl⟩

/-! ## C63 -/

/-- The full statement of C63: `parse` returns for all data. -/
def C63_full : Prop := ∀ (E : ParseEnv) (o : ParsingOptions) (d : Dict), (Value.dict d).wf = true →
  FieldNames (.dict d) → ∃ p, parse E o d = .ok p

/-- **C63 does not hold in full**: a latitude and a longitude in lists of one number make a point, and `parse` raises
`TypeError` when it adds the point to the list. -/
theorem C63_refuted : ¬ C63_full := by
  intro h
  obtain ⟨p, hp⟩ := h exEnv exParseOpts [("lat".toList, .list [.int 5]), ("lon".toList, .list [.int 6])] (by decide)
    (fieldNames_of_check (by decide))
  have : parse exEnv exParseOpts [("lat".toList, .list [.int 5]), ("lon".toList, .list [.int 6])] = .error .typeError := rfl
  rw [this] at hp
  cases hp

/-- **C63**: `parse` returns for all data if hints only match scalar latitudes. -/
theorem C63_parse_total_partial (E : ParseEnv) (hE : E.ScalarHints) (o : ParsingOptions) (d : Dict)
    (hw : (Value.dict d).wf = true) : ∃ p, parse E o d = .ok p :=
  parse_total hE hw

/-- The environment of the examples without the lists. -/
def exEnv' : ParseEnv := { exEnv with hintGeo := fun lon lat _ _ =>
    match lon, lat with
    | .int 6, .int 5 => some ("p".toList, "s".toList)
    | _, _ => none }

example : exEnv'.ScalarHints ∧ (Value.dict exTree).wf = true := by
  refine ⟨?_, by decide⟩
  intro lon lat r n g h
  simp only [exEnv'] at h
  split at h
  · exact ⟨rfl, by simp⟩
  · cases h

/-! ## C64 -/

/-- The full statement of C64: the result does not depend on the order in which the set of date formats is gone
through (Python's sets of strings have another order in each process). -/
def C64_full : Prop := ∀ (E : ParseEnv) (o o' : ParsingOptions) (d : Dict), SameButDates o o' →
  o.dateFormats.Perm o'.dateFormats → parse E o d = parse E o' d

/-- **C64 does not hold in full**: with the formats `%d/%m/%Y` and `%m/%d/%Y`, `01/02/2020` is the first of February or
the second of January. -/
theorem C64_refuted : ¬ C64_full := by
  intro h
  have := h exEnv exParseOpts { exParseOpts with dateFormats := ["%m/%d/%Y".toList, "%d/%m/%Y".toList] }
    [("when".toList, .str "01/02/2020".toList)] ⟨rfl, rfl, rfl, rfl, rfl⟩ (List.Perm.swap _ _ _)
  have h1 : (parse exEnv exParseOpts [("when".toList, .str "01/02/2020".toList)]).toOption.map ParsedData.parsed ≠
      (parse exEnv { exParseOpts with dateFormats := ["%m/%d/%Y".toList, "%d/%m/%Y".toList] }
        [("when".toList, .str "01/02/2020".toList)]).toOption.map ParsedData.parsed := by decide
  rw [this] at h1
  exact h1 rfl

/-- **C64**: the result does not depend on the order of the date formats if no text is read differently by two of
them. -/
theorem C64_date_order_partial (E : ParseEnv) (o o' : ParsingOptions) (d : Dict) (h : SameButDates o o')
    (hp : o.dateFormats.Perm o'.dateFormats) (hu : E.Unambiguous o.dateFormats) : parse E o d = parse E o' d :=
  parse_congr h.geoHints (parseValue_dates h hp hu) d

example : exEnv.Unambiguous ["%d/%m/%Y".toList, "%Y".toList] := by
  intro s f g a b hf hg h1 h2
  simp only [List.mem_cons, List.not_mem_nil, or_false] at hf hg
  by_cases hs : s = "01/02/2020".toList
  · subst hs
    rcases hf with rfl | rfl <;> rcases hg with rfl | rfl
    · rw [h1] at h2; cases h2; rfl
    · exact nomatch (show (none : Option Int) = some b from h2)
    · exact nomatch (show (none : Option Int) = some a from h1)
    · exact nomatch (show (none : Option Int) = some a from h1)
  · simp only [exEnv, if_neg hs] at h1
    cases h1

end Splitgill.Props
