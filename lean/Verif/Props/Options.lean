import Verif.Proof.Options
/-!
# Properties of the parsing options and their builder (C27, C28, C62)
-/

namespace Splitgill.Props
open Splitgill

/-- C27: options read back from their document are the same options, field by field, whatever the order in
which the sets were written to the document. -/
theorem C27_from_doc_to_doc (o : ParsingOptions) (ho : OptionsOk o) (doc : OptionsDoc) (hd : IsDocOf doc o) :
    SameOptions (ParsingOptions.fromDoc doc) o := by
  obtain ⟨d1, d2, d3, d4, d5, d6⟩ := hd
  have e : (doc.geoHints.map (fun p => (⟨p.1, p.2.1, p.2.2.1, p.2.2.2⟩ : GeoFieldHint))).Perm o.geoHints := by
    have := d4.map (fun p => (⟨p.1, p.2.1, p.2.2.1, p.2.2.2⟩ : GeoFieldHint))
    simpa [ParsingOptions.toDoc, List.map_map, Function.comp_def] using this
  constructor
  · unfold ParsingOptions.fromDoc
    simp only
    rw [setOf_str (d1.nodup_iff.2 ho.trueValues)]; exact fun _ => d1.mem_iff
  · unfold ParsingOptions.fromDoc
    simp only
    rw [setOf_str (d2.nodup_iff.2 ho.falseValues)]; exact fun _ => d2.mem_iff
  · unfold ParsingOptions.fromDoc
    simp only
    rw [setOf_str (d3.nodup_iff.2 ho.dateFormats)]; exact fun _ => d3.mem_iff
  · unfold ParsingOptions.fromDoc
    simp only
    rw [setOf_hint ((e.map _).nodup_iff.2 ho.geoHints)]; exact fun _ => e.mem_iff
  · exact d5
  · exact d6

/-- Options with two hints, and their document with the sets in another order. -/
def exOptions : ParsingOptions where
  trueValues := ["yes".toList, "true".toList]
  falseValues := ["no".toList]
  dateFormats := ["%Y".toList]
  geoHints := [⟨"lat".toList, "lon".toList, none, 16⟩, ⟨"y".toList, "x".toList, some "r".toList, 8⟩]
  keywordLength := 256
  floatFormat := "{0:.3g}".toList

example : OptionsOk exOptions ∧ ∃ doc, IsDocOf doc exOptions ∧ doc ≠ exOptions.toDoc :=
  ⟨⟨by decide, by decide, by decide, by decide⟩,
    { exOptions.toDoc with trueValues := ["true".toList, "yes".toList] },
    ⟨by decide, by decide, by decide, by decide, rfl, rfl⟩, by decide⟩

/-- C28: what any chain of builder calls builds, from the defaults or from existing options `o` (whose keyword
length came from a builder too): the sets are sets, the keyword length is in range and the last one set, there
is one hint per latitude field and it is the last one set since the hints were last cleared, the true and false
values are those added in lower case since the last clear, likewise for the date formats. -/
theorem C28_builder (lower : PyStr → PyStr) (b : Builder) (start : ParsingOptions)
    (hb : (b = Builder.new ∧ start = startOptions) ∨
      (OptionsOk start ∧ (1 ≤ start.keywordLength ∧ start.keywordLength ≤ 32766) ∧ b = Builder.basedOn start))
    (calls : List BuilderCall) (b' : Builder) (h : runBuilder lower b calls = .ok b') :
    let o := b'.build
    (1 ≤ o.keywordLength ∧ o.keywordLength ≤ 32766) ∧
    o.keywordLength = lastKeywordLength start.keywordLength calls.reverse ∧
    o.floatFormat = lastFloatFormat start.floatFormat calls.reverse ∧
    OptionsOk o ∧
    (∀ g, g ∈ o.geoHints ↔ lastHint (start.geoHints.find? (fun k => decide (k.latField = g.latField)))
      g.latField calls.reverse = some g) ∧
    (∀ v, v ∈ o.trueValues ↔ addedTrue lower start.trueValues v calls.reverse) ∧
    (∀ v, v ∈ o.falseValues ↔ addedFalse lower start.falseValues v calls.reverse) ∧
    (∀ v, v ∈ o.dateFormats ↔ addedFormat start.dateFormats v calls.reverse) := by
  intro o
  have hk : OptionsOk b ∧ (1 ≤ b.keywordLength ∧ b.keywordLength ≤ 32766) ∧ start = b := by
    rcases hb with ⟨rfl, rfl⟩ | ⟨ho, hk, rfl⟩
    · exact ⟨⟨by decide, by decide, by decide, by decide⟩, by decide, rfl⟩
    · rw [basedOn_eq ho]; exact ⟨ho, hk, rfl⟩
  obtain ⟨h1, h2, rfl⟩ := hk
  have r := builder_run h1 calls.reverse (b' := b') (by rwa [List.reverse_reverse])
  have e : o = b' := build_eq r.ok
  rw [e]
  exact ⟨builder_kw calls h h2, r.kw, r.ff, r.ok, r.hints, r.trues, r.falses, r.formats⟩

/-- C28: a keyword length out of range is rejected. -/
theorem C28_keyword_rejected (lower : PyStr → PyStr) (b : Builder) (n : Int) (hn : n < 1 ∨ 32766 < n)
    (before after : List BuilderCall) :
    ∀ b', runBuilder lower b (before ++ .withKeywordLength n :: after) ≠ .ok b' := by
  intro b' h
  rw [runBuilder, List.foldlM_append] at h
  cases h1 : List.foldlM (BuilderCall.run lower) b before with
  | error e => rw [h1] at h; cases h
  | ok b1 =>
    rw [h1] at h
    have h : (List.foldlM (BuilderCall.run lower) b1 (.withKeywordLength n :: after)) = Except.ok b' := h
    rw [List.foldlM_cons] at h
    have : BuilderCall.run lower b1 (.withKeywordLength n) = .error .valueError := by
      simp only [BuilderCall.run]
      rcases hn with hn | hn
      · rw [if_pos hn]
      · repeat' split
        all_goals first | rfl | omega
    rw [this] at h; cases h

/-- C28: building from existing options gives the same options. -/
theorem C28_based_on (o : ParsingOptions) (ho : OptionsOk o) : SameOptions (Builder.basedOn o).build o := by
  rw [basedOn_eq ho, build_eq ho]
  exact ⟨fun _ => Iff.rfl, fun _ => Iff.rfl, fun _ => Iff.rfl, fun _ => Iff.rfl, rfl, rfl⟩

/-- Example chain: a hint is replaced, values are lowered (here `lower` maps A to a). -/
def exLower (s : PyStr) : PyStr := s.map Char.toLower

def exCalls : List BuilderCall :=
  [.withGeoHint (some "lat".toList) (some "lon".toList) none 16, .withTrueValue (some "YES".toList),
   .withKeywordLength 100, .withGeoHint (some "lat".toList) (some "x".toList) (some "r".toList) 4,
   .clearDateFormats, .withDateFormat (some "%Y".toList)]

example : ∃ b', runBuilder exLower Builder.new exCalls = .ok b' ∧
    b'.build.geoHints = [⟨"lat".toList, "x".toList, some "r".toList, 4⟩] ∧
    b'.build.trueValues = ["yes".toList] ∧ b'.build.keywordLength = 100 :=
  ⟨_, rfl, by decide, by decide, by decide⟩

example : ∃ b', runBuilder exLower (Builder.basedOn exOptions) exCalls = .ok b' ∧
    b'.build.geoHints.length = 2 := ⟨_, rfl, by decide⟩

/-- C62: adding no value, or the empty string, as a true or false value changes nothing (as the docstrings
say). -/
def C62_full : Prop :=
  ∀ (lower : PyStr → PyStr) (b b' : Builder) (v : Option PyStr), v = none ∨ v = some [] →
    (BuilderCall.run lower b (.withTrueValue v) = .ok b' → SameSet b'.trueValues b.trueValues) ∧
    (BuilderCall.run lower b (.withFalseValue v) = .ok b' → SameSet b'.falseValues b.falseValues)

/-- C62 is false: the empty string becomes a true value. -/
theorem C62_refuted : ¬ C62_full := by
  intro h
  have := ((h id Builder.new _ (some []) (.inr rfl)).1 rfl []).1 (by decide)
  exact absurd this (by decide)

/-- C62, the part that holds: no value changes nothing, an empty or missing date format and a hint
with an empty or missing field change nothing.  Missing: empty true and false values. -/
theorem C62_ignored_partial (lower : PyStr → PyStr) (b : Builder) (v lo : Option PyStr)
    (hv : v = none ∨ v = some []) (r : Option PyStr) (s : Int) :
    BuilderCall.run lower b (.withTrueValue none) = .ok b ∧
    BuilderCall.run lower b (.withFalseValue none) = .ok b ∧
    BuilderCall.run lower b (.withDateFormat v) = .ok b ∧
    BuilderCall.run lower b (.withGeoHint v lo r s) = .ok b ∧
    BuilderCall.run lower b (.withGeoHint lo v r s) = .ok b := by
  refine ⟨rfl, rfl, ?_, ?_, ?_⟩
  · rcases hv with rfl | rfl <;> rfl
  · rcases hv with rfl | rfl <;> rfl
  · rcases hv with rfl | rfl <;> (match lo with | none => rfl | some [] => rfl | some (_ :: _) => rfl)

example : BuilderCall.run id Builder.new (.withDateFormat (some [])) = .ok Builder.new := rfl

end Splitgill.Props
