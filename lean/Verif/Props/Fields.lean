import Verif.Proof.Fields
import Verif.Props.Parse
/-!
# Listing fields: C57
-/

namespace Splitgill.Props
open Splitgill

/-- The documents that are found are what some data is parsed to, with some options. -/
def ParsedFrom (E : ParseEnv) (docs : List (Doc ParsedData)) (src : Doc ParsedData → Dict)
    (opts : Doc ParsedData → ParsingOptions) : Prop :=
  ∀ d ∈ docs, (Value.dict (src d)).wf = true ∧ FieldNames (.dict (src d)) ∧ parse E (opts d) (src d) = .ok d.parsed

/-- The full statement of C57 for data fields. -/
def C57_full : Prop := ∀ (E : ParseEnv) (es : ES ParsedData) (at_ : SearchAt) (query : Doc ParsedData → Bool)
  (src : Doc ParsedData → Dict) (opts : Doc ParsedData → ParsingOptions),
  ParsedFrom E ((found es at_).filter query) src opts →
  ∃ fs, es.dataFields at_ query = some (.ok fs) ∧
    ListsFields DType.name ((found es at_).filter query) (fun d => DataTypeAt (src d)) (fs.map DataField.toFieldCounts) ∧
    LinksFields fs

/-- **C57**: `get_data_fields` lists exactly the fields of the data found, with the right counts and in the right order, and
linked by their paths, if no field name below the root starts with `#`. -/
theorem C57_data_fields_partial (E : ParseEnv) (es : ES ParsedData) (at_ : SearchAt) (query : Doc ParsedData → Bool)
    (src : Doc ParsedData → Dict) (opts : Doc ParsedData → ParsingOptions)
    (h : ParsedFrom E ((found es at_).filter query) src opts)
    (hnames : ∀ d ∈ (found es at_).filter query, NestedNames '#' (.dict (src d))) :
    ∃ fs, es.dataFields at_ query = some (.ok fs) ∧
      ListsFields DType.name ((found es at_).filter query) (fun d => DataTypeAt (src d)) (fs.map DataField.toFieldCounts) ∧
      LinksFields fs := by
  obtain ⟨r, h1, h2, h3⟩ := fields_ok dtype_ofName (by intro t; cases t <;> decide) ((found es at_).filter query)
    (fun d => d.parsed.dataTypes) (fun d => DataTypeAt (src d))
    (fun d hd => summarises_data (h d hd).1 (h d hd).2.1 (hnames d hd) (h d hd).2.2)
    (by rintro d hd p s ⟨v, _, rfl⟩; exact ⟨v.dtype, typeSymbol_eq v⟩)
  refine ⟨(sortFields (r.map Prod.snd)).map (linkField (r.map Prod.snd)), ?_, ?_, ?_⟩
  · unfold ES.dataFields getDataFields
    rw [iterTerms_eq _ (by decide)]
    have h1 : collectFields DType.ofName (buckets ((((es.search at_).run es).filter query).map (fun d => d.parsed.dataTypes)))
      [] = .ok r := h1
    rw [Option.map_some, h1]
  · rw [List.map_map]
    have : (DataField.toFieldCounts ∘ linkField (r.map Prod.snd)) = id := rfl
    rw [this, List.map_id]
    exact h3
  · exact links_ok h3 (fun d hd => (h d hd).1) (fun d hd => (h d hd).2.1)

/-- **C57** for `get_parsed_fields`: it lists exactly the fields the data found is indexed as, if no field below the root is
named `_id`. -/
theorem C57_parsed_fields_partial (E : ParseEnv) (es : ES ParsedData) (at_ : SearchAt) (query : Doc ParsedData → Bool)
    (src : Doc ParsedData → Dict) (opts : Doc ParsedData → ParsingOptions)
    (h : ParsedFrom E ((found es at_).filter query) src opts)
    (hE : ∀ d ∈ (found es at_).filter query, E.HintsOk (opts d))
    (hnames : ∀ d ∈ (found es at_).filter query, NestedNames '_' (.dict (src d))) :
    ∃ fs, es.parsedFields at_ query = some (.ok fs) ∧
      ListsFields PType.name ((found es at_).filter query) (fun d => ParsedTypeAt E (opts d) (src d)) fs := by
  obtain ⟨r, h1, h2, h3⟩ := fields_ok ptype_ofName (by intro t; cases t <;> decide) ((found es at_).filter query)
    (fun d => d.parsed.parsedTypes) (fun d => ParsedTypeAt E (opts d) (src d))
    (fun d hd => summarises_parsed (hE d hd) (h d hd).1 (h d hd).2.1 (hnames d hd) (h d hd).2.2)
    (by rintro d hd p s ⟨_, ho⟩; exact indexedAs_types ho)
  refine ⟨sortFields (r.map Prod.snd), ?_, h3⟩
  unfold ES.parsedFields getParsedFields
  rw [iterTerms_eq _ (by decide)]
  have h1 : collectFields PType.ofName (buckets ((((es.search at_).run es).filter query).map (fun d => d.parsed.parsedTypes)))
    [] = .ok r := h1
  rw [Option.map_some, h1]

/-- An index with documents made from this data. -/
def exDocs (data : List Dict) : ES ParsedData :=
  [(.latest, data.map (fun d => (some "r".toList, ⟨"r".toList, 1, 1, none, none,
    ((parse exEnv exParseOpts d).toOption).getD ⟨[], [], []⟩⟩)))]

/-- What is compared of a field in the examples. -/
def DataField.shown (f : DataField) : PyStr × Nat × List (DType × Nat) × Option PyStr × List PyStr :=
  (f.path, f.count, f.typeCounts, f.parent, f.children)

def exShown (data : List Dict) : Option (List (PyStr × Nat × List (DType × Nat) × Option PyStr × List PyStr)) :=
  ((exDocs data).dataFields .latest (fun _ => true)).bind (fun r => r.toOption.map (fun fs => fs.map DataField.shown))

def exTwice : Dict := [("a".toList, .list [.int 1, .dict [("#e".toList, .int 1)]])]
def exOnce : Dict := [("a".toList, .list [.int 1, .str "x".toList])]

/-- **C57 does not hold in full**: for one document with `{"a": [1, {"#e": 1}]}`, the field for the elements of `a` has the
count 2. -/
theorem C57_refuted : ¬ C57_full := by
  intro h
  obtain ⟨fs, h1, h2, _⟩ := h exEnv (exDocs [exTwice]) .latest
    (fun _ => true) (fun _ => exTwice) (fun _ => exParseOpts) (by
      intro d hd
      have : d = ((found (exDocs [exTwice]) .latest).filter
          (fun _ => true)).head (by rw [ne_eq, ← List.isEmpty_iff]; decide) := List.mem_singleton.1 hd
      refine ⟨show (Value.dict exTwice).wf = true by decide, fieldNames_of_check (show allKeys isFieldName (.dict exTwice) = true by decide), ?_⟩
      rw [this]
      rfl)
  have hs : exShown [exTwice] = some (fs.map DataField.shown) := by
    unfold exShown
    rw [h1]
    rfl
  have hc : (exShown [exTwice]).map
      (fun l => l.any (fun x => decide (x.2.1 = 2))) = some true := by decide +kernel
  rw [hs] at hc
  have hc := Option.some.inj hc
  dsimp only at hc
  rw [List.any_map, List.any_eq_true] at hc
  obtain ⟨f, hf, hf2⟩ := hc
  have hf2 : f.count = 2 := of_decide_eq_true hf2
  have := h2.count f.toFieldCounts (List.mem_map_of_mem hf)
  rw [hf2] at this
  have hle : ∀ {α : Type} (l : List α) (P : α → Prop), howMany l P ≤ l.length := fun l P => List.length_filter_le _ _
  have h' := hle ((found (exDocs [exTwice]) .latest).filter
    (fun _ => true)) (fun d => ∃ p t, DataTypeAt exTwice p t ∧
      pathText p = f.toFieldCounts.path)
  rw [← this] at h'
  exact absurd h' (by decide)

/-- Two documents: fields with their counts, types, parents and children. -/
example : exShown [exOnce, [("a".toList, .dict [("b".toList, .none)]), ("c".toList, .int 2)]] =
    some [("a".toList, 2, [(.dict, 1), (.list, 1)], none, ["a.".toList, "a.b".toList]),
      ("a.".toList, 1, [(.int, 1), (.str, 1)], some "a".toList, []),
      ("a.b".toList, 1, [(DType.none, 1)], some "a".toList, []),
      ("c".toList, 1, [(.int, 1)], none, [])] := by rfl

/-- The hypotheses hold for it. -/
example : ParsedFrom exEnv ((found (exDocs [exOnce]) .latest).filter (fun _ => true))
      (fun _ => exOnce) (fun _ => exParseOpts) ∧
    NestedNames '#' (.dict exOnce) ∧
    NestedNames '_' (.dict exOnce) ∧ exEnv.HintsOk exParseOpts := by
  refine ⟨?_, nestedNames_of_check (by decide), nestedNames_of_check (by decide), exEnv_hints⟩
  intro d hd
  refine ⟨show (Value.dict exOnce).wf = true by decide, fieldNames_of_check (show allKeys isFieldName (.dict exOnce) = true by decide), ?_⟩
  have := List.mem_singleton.1 hd
  rw [this]
  rfl

end Splitgill.Props
