import Verif.Spec.Fields
import Verif.Model.FieldProps
import Verif.Model.Query
/-!
# Specification: the fields of data and the fields they are indexed as belong together
-/

namespace Splitgill

/-- The listing of the data fields and the listing of the parsed fields of the same documents agree. -/
structure FieldsAgree (fs : List DataField) (gs : List (FieldCounts PType)) : Prop where
  /-- Each parsed field comes from a data field. -/
  source : ∀ g ∈ gs, ∃ f ∈ fs, f.parsedPath = g.path
  /-- A data field with bools, ints or floats is indexed at its parsed path, in all these documents. -/
  indexed : ∀ f ∈ fs, ∀ t ∈ [DType.bool, .int, .float], 0 < f.countOf t → ∃ g ∈ gs, g.path = f.parsedPath ∧ f.countOf t ≤ g.countOf .text
  /-- What is indexed as a number, a date or a boolean is also indexed as a text and a keyword. -/
  texts : ∀ g ∈ gs, g.countOf .keyword = g.countOf .text ∧ ∀ t ∈ [PType.number, .date, .boolean], g.countOf t ≤ g.countOf .text
  /-- There is a point where there is a shape. -/
  places : ∀ g ∈ gs, g.countGeo = g.countOf .geoShape
  /-- A document has at most one count in each. -/
  total : ∀ g ∈ gs, ∀ t, g.countOf t ≤ g.count

/-- The counts of a field and its parent: the elements of lists are in lists, other fields in dicts, and a field is at the root if its path has
one name. -/
structure ParentsContain (fs : List DataField) : Prop where
  element : ∀ f ∈ fs, ∀ g ∈ fs, f.parent = some g.path → f.isListElement = true → f.count ≤ g.countOf .list
  field : ∀ f ∈ fs, ∀ g ∈ fs, f.parent = some g.path → f.isListElement = false → f.count ≤ g.countOf .dict
  root : ∀ f ∈ fs, f.isRootField = true ↔ '.' ∉ f.path
  children : ∀ f ∈ fs, f.hasChildren = true → f.isContainer = true

/-- A field is basic if a value that is no list and no dict occurs at its path, and a container if a list or a dict does. -/
def FieldKinds (data : List Dict) (fs : List DataField) : Prop :=
  ∀ f ∈ fs,
    (f.isBasic = true ↔ ∃ d ∈ data, ∃ p v, OccursAt (.dict d) p v ∧ pathText p = f.path ∧ (∀ l, v ≠ .list l) ∧ (∀ e, v ≠ .dict e)) ∧
    (f.isContainer = true ↔ ∃ d ∈ data, ∃ p v, OccursAt (.dict d) p v ∧ pathText p = f.path ∧ ((∃ l, v = .list l) ∨ (∃ e, v = .dict e)))

/-- An exists query on `parsed_path(field, type)` finds as many of these documents as the listing of the parsed fields says. Unparsed values are
not indexed. -/
def FieldQueries (docs : List Dict) (gs : List (FieldCounts PType)) : Prop :=
  ∀ field t, t ≠ PType.unparsed →
    (∀ g ∈ gs, g.path = field → (docs.filter (existsMatches (parsedPath field t))).length = g.countOf t) ∧
    (field ∉ gs.map FieldCounts.path → docs.filter (existsMatches (parsedPath field t)) = [])

end Splitgill
