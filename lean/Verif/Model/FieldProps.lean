import Verif.Model.Fields
/-!
# Model of the properties of `DataField` and `ParsedField` (`splitgill/indexing/fields.py`)
-/

namespace Splitgill

/-- `name` (indexing/fields.py:189-191, 309-311) -/
def FieldCounts.name {T : Type} (f : FieldCounts T) : PyStr := (pySplit '.' f.path).getLast?.getD []

/-- `is_type` (indexing/fields.py:175-183, 299-307) -/
def FieldCounts.isType {T : Type} [DecidableEq T] (f : FieldCounts T) (ts : List T) : Bool := ts.any (fun t => decide (0 < f.countOf t))

/-- `is_basic` (indexing/fields.py:249-253) -/
def DataField.isBasic (f : DataField) : Bool := f.isType [.bool, .int, .float, .str, .none]

/-- `has_children` (indexing/fields.py:185-187) -/
def DataField.hasChildren (f : DataField) : Bool := !f.children.isEmpty

/-- `is_root_field` (indexing/fields.py:259-261) -/
def DataField.isRootField (f : DataField) : Bool := f.parent.isNone

/-- `is_list_element` (indexing/fields.py:272-274) -/
def DataField.isListElement (f : DataField) : Bool := decide (f.name = [])

/-- `parsed_path` (indexing/fields.py:263-270) -/
def DataField.parsedPath (f : DataField) : PyStr := joinWith ['.'] ((pySplit '.' f.path).filter (fun s => !s.isEmpty))

/-- `is_geo` and `count_geo` (indexing/fields.py:353-363): the number of points -/
def FieldCounts.countGeo (f : FieldCounts PType) : Nat := f.countOf .geoPoint

end Splitgill
