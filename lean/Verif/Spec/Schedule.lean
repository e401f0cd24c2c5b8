import Verif.Spec.Bulk
import Verif.Spec.Search
import Verif.Model.Filter
/-!
# Specification: syncs whose writes are scheduled in any way
-/

namespace Splitgill

/-- The calls that write to Elasticsearch. -/
inductive SyncCall
  /-- `sync(resync)` -/
  | sync (resync : Bool)
  /-- `resync_arcs()` -/
  | resyncArcs

/-- The indices as a call leaves them before it writes, and the operations that it hands to `write_ops`
(manager.py:473-515, 526-558). -/
def SyncCall.ops {P : Type} (X : Parser P) (maxDocs : Nat) (db : PyStr) (m : Mongo) (es : ES P) :
    SyncCall → Except PyErr (ES P × List (BulkOp P))
  | .sync resync => syncOps X maxDocs db resync m es
  | .resyncArcs =>
    match generateOps X maxDocs (committedOptionsOf db m) none es.deleteArcs.arcStatus
        ((m.data db).filter (fun r => r.version.isSome)) with
    | .error e => .error e
    | .ok (ops, _) => .ok (es.deleteArcs, ops.filter (fun op => decide (op.ix ≠ .latest)))

/-- The call when all operations are carried out in their order. -/
def SyncCall.run {P : Type} (X : Parser P) (maxDocs : Nat) (db : PyStr) (m : Mongo) (es : ES P) : SyncCall → Except PyErr (ES P)
  | .sync resync => Splitgill.sync X maxDocs db resync m es
  | .resyncArcs => Splitgill.resyncArcs X maxDocs db m es

/-- Such calls one after another, each with the state of MongoDB it reads. -/
def runInOrder {P : Type} (X : Parser P) (maxDocs : Nat) (db : PyStr) : ES P → List (SyncCall × Mongo) → Except PyErr (ES P)
  | es, [] => .ok es
  | es, (c, m) :: rest =>
    match c.run X maxDocs db m es with
    | .error e => .error e
    | .ok es => runInOrder X maxDocs db es rest

/-- Such calls one after another, where the operations of each are written in chunks by any number of workers, scheduled in any way:
each write returns, and no request timed out that the server carried out nevertheless. -/
inductive Scheduled {P : Type} (X : Parser P) (maxDocs : Nat) (db : PyStr) : ES P → List (SyncCall × Mongo) → ES P → Prop
  | nil (es : ES P) : Scheduled X maxDocs db es [] es
  | cons {es es0 es' : ES P} {c : SyncCall} {m : Mongo} {rest : List (SyncCall × Mongo)} {ops : List (BulkOp P)} (o : BulkOptions)
      (schedule : List BulkAction) (s : BulkState (BulkOp P)) (indexed deleted : Nat)
      (hops : c.ops X maxDocs db m es = .ok (es0, ops)) (hsize : 1 ≤ o.chunkSize)
      (hrun : writeOps BulkOp.isDelete ops o schedule = some s) (hret : s.main = .returned indexed deleted)
      (hno : ∀ x ∈ s.log, x.2.isTimeout = true → appliedOps x = [])
      (hrest : Scheduled X maxDocs db (es0.applyOps s.written) rest es') : Scheduled X maxDocs db es ((c, m) :: rest) es'

/-- What the methods of a database return does not differ, but for the order in which a search returns the documents. -/
structure ReadsSame {P : Type} (es es' : ES P) : Prop where
  /-- `get_elasticsearch_version()` -/
  version : es.version = es'.version
  /-- `get_arc_status()` -/
  arcStatus : es.arcStatus = es'.arcStatus
  /-- `search(version)` -/
  found : ∀ at_, (found es at_).Perm (found es' at_)
  /-- `get_version_changed_counts()` -/
  counts : es.changedCounts = es'.changedCounts
  /-- `get_versions()` -/
  versions : es.versions = es'.versions
  /-- `get_rounded_version(version)` -/
  rounded : ∀ v, es.roundedVersion v = es'.roundedVersion v

/-- The same for queries and listings of fields. -/
structure QueriesSame (es es' : ES (Option ParsedData)) : Prop where
  /-- `search(version).filter(query)` -/
  found : ∀ Q at_ q, (es.searchFor Q at_ q).Perm (es'.searchFor Q at_ q)
  /-- `get_data_fields(version, query)` -/
  data : ∀ Q at_ q, es.fieldsOfData Q at_ q = es'.fieldsOfData Q at_ q
  /-- `get_parsed_fields(version, query)` -/
  parsed : ∀ Q at_ q, es.fieldsOfParsed Q at_ q = es'.fieldsOfParsed Q at_ q

end Splitgill
