import Verif.Model.Mapping
/-!
# Model of the limits of Elasticsearch on the depth of objects and the length of ids

`splitgill/indexing/templates.py` sets the limit of the number of fields (`Verif.Model.FieldLimit`), and leaves these at their defaults.
-/

namespace Splitgill

/-- `index.mapping.depth.limit` (Elasticsearch): the settings of the templates (templates.py:60-86) do not have it, so it is the default. -/
def depthLimit : Nat := 20

/-- The types that are objects. A disabled object (templates.py:121-129) is one. -/
def EsType.isObject : EsType → Bool
  | .object => true
  | .disabled => true
  | _ => false

/-- The depth of an object at a path (Elasticsearch): 1 is the document, 2 are the objects in it, and so on. -/
def objectDepth (path : PyStr) : Nat := path.count '.' + 2

/-- No object of the index is deeper than the limit. -/
def depthOk (limit : Nat) (m : Mapping) : Bool := m.all (fun f => !f.2.isObject || decide (objectDepth f.1 ≤ limit))

/-- A document that is indexed (Elasticsearch): it is rejected, too, if the index then has objects that are deeper than the limit. -/
def depthDoc (S : EsEnv) (limit : Nat) (m : Mapping) (d : Dict) : Option Mapping :=
  match mapDoc S m d with
  | none => none
  | some m' => if depthOk limit m' then some m' else none

/-- Documents that are indexed in an index, one after another. -/
def depthDocs (S : EsEnv) (limit : Nat) : Mapping → List Dict → Option Mapping
  | m, [] => some m
  | m, d :: r =>
    match depthDoc S limit m d with
    | none => none
    | some m => depthDocs S limit m r

/-- The ids of documents are at most this many bytes (Elasticsearch). -/
def docIdLimit : Nat := 512

/-- Is the id of an operation (indexing/index.py:281-321) allowed? Ids that Elasticsearch makes are. -/
def BulkOp.idOk {P : Type} : BulkOp P → Bool
  | .index _ (some id) _ => decide (utf8Len id ≤ docIdLimit)
  | .index _ none _ => true
  | .delete _ id => decide (utf8Len id ≤ docIdLimit)

end Splitgill
