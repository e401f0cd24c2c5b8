import Verif.Model.Wire
import Verif.Spec.FieldLimit
import Verif.Spec.World
import Verif.Spec.Schedule
/-!
# Specification vocabulary: what can be sent to Elasticsearch and is taken by it
-/

namespace Splitgill

/-- All that is stored of a database can be sent and is taken. The ids of records have no quotes, backslashes or control characters and at most 32766
bytes; the versions and the ints of the data fit into 64 bits, and its floats can be written and read again; the versions of the data have none
but the given fields; and the options and the texts of the types keep to the length of keywords. -/
structure Sendable (E : ParseEnv) (F : FloatText) (fields : List (List PyStr)) (db : PyStr) (m : Mongo) : Prop where
  ids : ∀ r ∈ m.data db, PlainStr r.id ∧ utf8Len r.id ≤ 32766
  versions : ∀ v, IsVersion m db v → -2 ^ 63 ≤ v ∧ v < 2 ^ 63
  options : ∀ x ∈ committedOptionsOf db m, ShortKeywords x.2
  values : ∀ r ∈ m.data db, ∀ items, r.iter = .ok items → ∀ x ∈ items, AllLeavesDict (fun v => IntFits v ∧ FloatFits F v) x.2
  names : ∀ r ∈ m.data db, ∀ items, r.iter = .ok items → ∀ x ∈ items, ∀ q ∈ fieldsOfDict x.2, q ∈ fields
  types : ∀ r ∈ m.data db, ∀ items, r.iter = .ok items → ∀ x ∈ items, ∀ o ∈ committedOptionsOf db m, ∀ p,
    (realParser E).parse x.2 o.2 = some p → (∀ s ∈ p.dataTypes, utf8Len s ≤ 32766) ∧ ∀ s ∈ p.parsedTypes, utf8Len s ≤ 32766

/-- The data in a document that was found. -/
def hitData (doc : Dict) : Option Dict :=
  match aget "data".toList doc with
  | some (.dict d) => some d
  | _ => none

/-- A call that writes to Elasticsearch. -/
def SyncCall.send (E : ParseEnv) (F : FloatText) (S : EsEnv) (maxDocs chunkSize : Nat) (db : PyStr) (m : Mongo) (s : Server) :
    SyncCall → Except WireErr Server
  | .sync resync => s.sync E F S maxDocs chunkSize db resync m
  | .resyncArcs => s.resyncArcs E F S maxDocs chunkSize db m

/-- Such calls one after another, each with the state of MongoDB it reads (see `runInOrder`). -/
def Server.calls (E : ParseEnv) (F : FloatText) (S : EsEnv) (maxDocs chunkSize : Nat) (db : PyStr) :
    Server → List (SyncCall × Mongo) → Except WireErr Server
  | s, [] => .ok s
  | s, (c, m) :: rest =>
    match c.send E F S maxDocs chunkSize db m s with
    | .error e => .error e
    | .ok s => Server.calls E F S maxDocs chunkSize db s rest

/-- The JSON document that a document is sent as; `none` if it could not be made (`parse` raised). -/
def Doc.json (d : Doc (Option ParsedData)) : Option Dict := d.written.map (fun p => sentDict p.toDict)

end Splitgill
