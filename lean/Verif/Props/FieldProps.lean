import Verif.Proof.FieldProps2
import Verif.Props.Fields
import Verif.Props.EndToEnd
/-!
# Fields of data, fields they are indexed as, and queries: C101
-/

namespace Splitgill.Props
open Splitgill

/-- **C101**, as it should be: the listings of the data fields and of the parsed fields of the same documents agree with each other and with
what exists queries find, and the counts of a field fit those of its parent. -/
def C101_full : Prop := ∀ (E : ParseEnv), E.ScalarHints → ∀ (es : ES ParsedData) (at_ : SearchAt) (query : Doc ParsedData → Bool)
  (src : Doc ParsedData → Dict) (opts : Doc ParsedData → ParsingOptions),
  ParsedFrom E ((found es at_).filter query) src opts → (∀ d ∈ (found es at_).filter query, E.HintsOk (opts d)) →
  ∃ fs gs, es.dataFields at_ query = some (.ok fs) ∧ es.parsedFields at_ query = some (.ok gs) ∧ FieldsAgree fs gs ∧ ParentsContain fs ∧
    FieldQueries (((found es at_).filter query).map (fun d => d.parsed.parsed)) gs ∧ FieldKinds (((found es at_).filter query).map src) fs

/-- **C101** (what holds): as above if no field name below the root starts with `#` or `_`. -/
theorem C101_fields_partial (E : ParseEnv) (hS : E.ScalarHints) (es : ES ParsedData) (at_ : SearchAt) (query : Doc ParsedData → Bool)
    (src : Doc ParsedData → Dict) (opts : Doc ParsedData → ParsingOptions)
    (h : ParsedFrom E ((found es at_).filter query) src opts)
    (hE : ∀ d ∈ (found es at_).filter query, E.HintsOk (opts d))
    (hnames : ∀ d ∈ (found es at_).filter query, NestedNames '#' (.dict (src d)) ∧ NestedNames '_' (.dict (src d))) :
    ∃ fs gs, es.dataFields at_ query = some (.ok fs) ∧ es.parsedFields at_ query = some (.ok gs) ∧ FieldsAgree fs gs ∧ ParentsContain fs ∧
      FieldQueries (((found es at_).filter query).map (fun d => d.parsed.parsed)) gs ∧ FieldKinds (((found es at_).filter query).map src) fs := by
  obtain ⟨fs, h1, h2, h3⟩ := C57_data_fields_partial E es at_ query src opts h (fun d hd => (hnames d hd).1)
  obtain ⟨gs, h4, h5⟩ := C57_parsed_fields_partial E es at_ query src opts h hE (fun d hd => (hnames d hd).2)
  have hw := fun d hd => (h d hd).1
  have hf := fun d hd => (h d hd).2.1
  exact ⟨fs, gs, h1, h4, fields_agree hw hf h2 h5, parents_contain hw hf h2 h3, field_queries hS h5 (fun d hd => h d hd), field_kinds h2⟩

/-- An index with documents made from this data, with hints only for scalars. -/
def exDocs' (data : List Dict) : ES ParsedData :=
  [(.latest, data.map (fun d => (some "r".toList, ⟨"r".toList, 1, 1, none, none,
    ((parse exEnv' exParseOpts d).toOption).getD ⟨[], [], []⟩⟩)))]

theorem exEnv'_hints (o : ParsingOptions) : exEnv'.HintsOk o := by
  intro lon lat r n g h
  simp only [exEnv'] at h
  split at h
  · exact ⟨rfl, fun d e => (nomatch e)⟩
  · cases h

/-- **C101 does not hold in full**: for one document with `{"a": [1, {"#e": 1}]}`, the elements of `a` are counted twice (C57), and `a` is a
list once. -/
theorem C101_refuted : ¬ C101_full := by
  intro h
  obtain ⟨fs, gs, h1, _, _, h2, _⟩ := h exEnv' exEnv'_scalar (exDocs' [exTwice]) .latest
    (fun _ => true) (fun _ => exTwice) (fun _ => exParseOpts) (by
      intro d hd
      have : d = ((found (exDocs' [exTwice]) .latest).filter
          (fun _ => true)).head (by rw [ne_eq, ← List.isEmpty_iff]; decide) := List.mem_singleton.1 hd
      refine ⟨show (Value.dict exTwice).wf = true by decide, fieldNames_of_check (show allKeys isFieldName (.dict exTwice) = true by decide), ?_⟩
      rw [this]
      rfl) (fun _ _ => exEnv'_hints _)
  have hc : (((exDocs' [exTwice]).dataFields .latest (fun _ => true)).bind Except.toOption).map (fun l => l.all (fun f => l.all (fun g =>
      decide (f.parent = some g.path ∧ f.isListElement = true → f.count ≤ g.countOf .list)))) = some false := by decide +kernel
  rw [h1] at hc
  have hc : fs.all (fun f => fs.all (fun g =>
      decide (f.parent = some g.path ∧ f.isListElement = true → f.count ≤ g.countOf .list))) = false := Option.some.inj hc
  rw [← Bool.not_eq_true, List.all_eq_true] at hc
  refine hc (fun f hf => List.all_eq_true.2 (fun g hg => decide_eq_true (fun hp => h2.element f hf g hg hp.1 hp.2)))

/-- Data with a list, a dict and an empty text. -/
def exPair : Dict := [("a".toList, .list [.int 1, .str "x".toList]), ("b".toList, .dict [("c".toList, .bool true)]), ("d".toList, .str [])]

/-- The hypotheses hold for it. -/
example : ParsedFrom exEnv' ((found (exDocs' [exPair]) .latest).filter (fun _ => true)) (fun _ => exPair) (fun _ => exParseOpts) ∧
    (NestedNames '#' (.dict exPair) ∧ NestedNames '_' (.dict exPair)) ∧ exEnv'.HintsOk exParseOpts ∧ exEnv'.ScalarHints := by
  refine ⟨?_, ⟨nestedNames_of_check (by decide), nestedNames_of_check (by decide)⟩, exEnv'_hints _, exEnv'_scalar⟩
  intro d hd
  refine ⟨show (Value.dict exPair).wf = true by decide, fieldNames_of_check (show allKeys isFieldName (.dict exPair) = true by decide), ?_⟩
  have := List.mem_singleton.1 hd
  rw [this]
  rfl

/-- What is listed for it: the data fields with their parsed paths, and whether they are elements of lists, at the root or with children. -/
example : (((exDocs' [exPair]).dataFields .latest (fun _ => true)).bind Except.toOption).map (fun l => l.map (fun f =>
      (f.path, f.parsedPath, f.isListElement, f.isRootField, f.hasChildren, f.isBasic))) =
    some [("a".toList, "a".toList, false, true, true, false), ("a.".toList, "a".toList, true, false, false, true),
      ("b".toList, "b".toList, false, true, true, false), ("b.c".toList, "b.c".toList, false, false, false, true),
      ("d".toList, "d".toList, false, true, false, true)] := by rfl

/-- The parsed fields, with the counts of some types. -/
example : (((exDocs' [exPair]).parsedFields .latest (fun _ => true)).bind Except.toOption).map (fun l => l.map (fun g =>
      (g.path, g.count, g.countOf .text, g.countOf .number, g.countOf .boolean, g.countGeo))) =
    some [("a".toList, 1, 1, 1, 1, 0), ("b.c".toList, 1, 1, 0, 1, 0)] := by rfl

end Splitgill.Props
