import Verif.Model.Mapping
/-!
# Model of the limit of the number of fields of an index (`splitgill/indexing/templates.py`)
-/

namespace Splitgill

/-- `"total_fields": {"limit": 4000}` (templates.py:74-83) -/
def fieldLimit : Nat := 4000

/-- A document that is indexed (Elasticsearch): it is rejected, too, if the index then has more fields than the limit. Objects count
as fields. -/
def limitDoc (S : EsEnv) (limit : Nat) (m : Mapping) (d : Dict) : Option Mapping :=
  match mapDoc S m d with
  | none => none
  | some m' => if m'.length ≤ limit then some m' else none

/-- Documents that are indexed in an index, one after another. -/
def limitDocs (S : EsEnv) (limit : Nat) : Mapping → List Dict → Option Mapping
  | m, [] => some m
  | m, d :: r =>
    match limitDoc S limit m d with
    | none => none
    | some m => limitDocs S limit m r

end Splitgill
