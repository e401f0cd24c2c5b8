import Verif.Model.Diff
import Verif.Py.Sort
/-!
# Model of `MongoRecord` (`splitgill/model.py:43-111`)
-/

namespace Splitgill

/-- `MongoRecord`, and the document it is stored as.  The keys of `diffs` are `str(version)` in the
code; the model uses the int (`int(str(v)) == v`).  A missing `diffs` field is an empty dict
(`default_factory=dict`).  The ObjectId `_id` is not modelled. -/
structure MongoRecord where
  id : PyStr
  version : Option Int
  data : Dict
  diffs : List (Int × List DiffOp) := []

/-- `patch` of a dict by the stored ops, which gives a dict. -/
def patchDict (d : Dict) (ops : List DiffOp) : Except PyErr Dict :=
  match patch (.dict d) ops with
  | .ok (.dict r) => .ok r
  | .ok _ => .error .typeError
  | .error e => .error e

/-- `is_deleted` (model.py:56-63) -/
def MongoRecord.isDeleted (r : MongoRecord) : Bool := r.data.isEmpty
/-- `is_uncommitted` (model.py:65-72) -/
def MongoRecord.isUncommitted (r : MongoRecord) : Bool := r.version.isNone
/-- `has_history` (model.py:74-81) -/
def MongoRecord.hasHistory (r : MongoRecord) : Bool := !r.diffs.isEmpty

/-- `get_versions` (model.py:83-94) -/
def MongoRecord.getVersions (r : MongoRecord) (desc : Bool := false) : List Int :=
  let versions := akeys r.diffs ++ r.version.toList
  if desc then sortDesc versions else sortAsc versions

/-- `VersionedData` (model.py:40) -/
abbrev VersionedData := Option Int × Dict

/-- The loop of `iter` (model.py:107-111) over the remaining versions. -/
def iterLoop (diffs : List (Int × List DiffOp)) : Dict → List Int → Except PyErr (List VersionedData)
  | _, [] => .ok []
  | base, v :: vs =>
    match aget v diffs with
    | none => .error .keyError
    | some ops =>
      match patchDict base ops with
      | .error e => .error e
      | .ok data =>
        match iterLoop diffs data vs with
        | .error e => .error e
        | .ok rest => .ok ((some v, data) :: rest)

/-- `list(record.iter())` (model.py:96-111) -/
def MongoRecord.iter (r : MongoRecord) : Except PyErr (List VersionedData) :=
  match iterLoop r.diffs r.data (sortDesc (akeys r.diffs)) with
  | .error e => .error e
  | .ok rest => .ok ((r.version, r.data) :: rest)

end Splitgill
