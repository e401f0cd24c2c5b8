import Verif.Model.Options
import Mathlib.Data.List.Perm.Basic
/-!
# Specification vocabulary for parsing options
-/

namespace Splitgill

/-- Same elements. -/
def SameSet {α : Type} (a b : List α) : Prop := ∀ x, x ∈ a ↔ x ∈ b

/-- Equal field by field; hints with all their fields. -/
structure SameOptions (a b : ParsingOptions) : Prop where
  trueValues : SameSet a.trueValues b.trueValues
  falseValues : SameSet a.falseValues b.falseValues
  dateFormats : SameSet a.dateFormats b.dateFormats
  geoHints : SameSet a.geoHints b.geoHints
  keywordLength : a.keywordLength = b.keywordLength
  floatFormat : a.floatFormat = b.floatFormat

/-- The lists are sets: no two equal strings, no two hints that compare equal.  Every Python `ParsingOptions`
is of this kind, as the fields are frozensets. -/
structure OptionsOk (o : ParsingOptions) : Prop where
  trueValues : o.trueValues.Nodup
  falseValues : o.falseValues.Nodup
  dateFormats : o.dateFormats.Nodup
  geoHints : (o.geoHints.map GeoFieldHint.latField).Nodup

/-- `doc` is a document of the options, with the sets in any iteration order. -/
structure IsDocOf (doc : OptionsDoc) (o : ParsingOptions) : Prop where
  trueValues : doc.trueValues.Perm o.toDoc.trueValues
  falseValues : doc.falseValues.Perm o.toDoc.falseValues
  dateFormats : doc.dateFormats.Perm o.toDoc.dateFormats
  geoHints : doc.geoHints.Perm o.toDoc.geoHints
  keywordLength : doc.keywordLength = o.toDoc.keywordLength
  floatFormat : doc.floatFormat = o.toDoc.floatFormat

/-- The options of a database nobody has given options to: no strings are booleans, there are no hints, dates are recognised in
the three formats `ingest` writes them in, keywords are cut after 8191 characters, and numbers become text with 15 significant
digits. -/
def startOptions : ParsingOptions where
  trueValues := []
  falseValues := []
  dateFormats := ["%Y-%m-%dT%H:%M:%S.%f%z".toList, "%Y-%m-%d".toList, "%Y-%m-%dT%H:%M:%S.%f".toList]
  geoHints := []
  keywordLength := 8191
  floatFormat := "{0:.15g}".toList

/-! What a chain of builder calls should give; the calls are listed from the last to the first. -/

/-- The hint for a latitude field: that of the last call for the field, if it was not cleared since. -/
def lastHint (init : Option GeoFieldHint) (lat : PyStr) : List BuilderCall → Option GeoFieldHint
  | [] => init
  | .clearGeoHints :: _ => none
  | .withGeoHint (some l) (some lo) r s :: rest =>
    if l = lat ∧ l ≠ [] ∧ lo ≠ [] then some ⟨l, lo, r, s⟩ else lastHint init lat rest
  | _ :: rest => lastHint init lat rest

/-- `v` was added as a true value, in lower case, and not cleared since. -/
def addedTrue (lower : PyStr → PyStr) (init : List PyStr) (v : PyStr) : List BuilderCall → Prop
  | [] => v ∈ init
  | .clearTrueValues :: _ => False
  | .withTrueValue (some x) :: rest => v = lower x ∨ addedTrue lower init v rest
  | _ :: rest => addedTrue lower init v rest

/-- `v` was added as a false value, in lower case, and not cleared since. -/
def addedFalse (lower : PyStr → PyStr) (init : List PyStr) (v : PyStr) : List BuilderCall → Prop
  | [] => v ∈ init
  | .clearFalseValues :: _ => False
  | .withFalseValue (some x) :: rest => v = lower x ∨ addedFalse lower init v rest
  | _ :: rest => addedFalse lower init v rest

/-- `f` was added as a date format, or is a default one after a reset, and not cleared since. -/
def addedFormat (init : List PyStr) (f : PyStr) : List BuilderCall → Prop
  | [] => f ∈ init
  | .clearDateFormats :: _ => False
  | .resetDateFormats :: _ => f ∈ startOptions.dateFormats
  | .withDateFormat (some x) :: rest => (f = x ∧ x ≠ []) ∨ addedFormat init f rest
  | _ :: rest => addedFormat init f rest

/-- The keyword length last set. -/
def lastKeywordLength (init : Int) : List BuilderCall → Int
  | [] => init
  | .withKeywordLength n :: _ => n
  | _ :: rest => lastKeywordLength init rest

/-- The float format last set. -/
def lastFloatFormat (init : PyStr) : List BuilderCall → PyStr
  | [] => init
  | .withFloatFormat f :: _ => f
  | _ :: rest => lastFloatFormat init rest

end Splitgill
