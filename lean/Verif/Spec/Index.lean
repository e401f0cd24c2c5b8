import Verif.Model.Index
import Verif.Spec.History
/-!
# Specification: what the indices should hold
-/

namespace Splitgill

/-- What a history (values by version) says as of version `v`: the value of the newest version not after
`v`. -/
def AsOf {α : Type} (l : List (Int × α)) (v : Int) (x : α) : Prop :=
  ∃ w, (w, x) ∈ l ∧ w ≤ v ∧ ∀ w' y, (w', y) ∈ l → w' ≤ v → w' ≤ w

/-- The options as of version `v`; before the first options, the first ones. -/
def OptionsAsOf (l : List (Int × ParsingOptions)) (v : Int) (o : ParsingOptions) : Prop :=
  AsOf l v o ∨ ((∀ w y, (w, y) ∈ l → v < w) ∧ ∃ w, (w, o) ∈ l ∧ ∀ w' y, (w', y) ∈ l → w ≤ w')

/-- The record has been created and is not deleted as of version `v`. -/
def Alive (hist : List (Int × Dict)) (v : Int) : Prop := ∃ d, AsOf hist v d ∧ d ≠ []

/-- Version `v` is in the version range of the document. -/
def Doc.covers {P : Type} (d : Doc P) (v : Int) : Prop := d.gte ≤ v ∧ ∀ e, d.lt = some e → v < e

/-- The two results of `parse` are the same, or equal for `==`, or equal for `==` because they are results for the same
data. -/
def Parser.same {P : Type} (X : Parser P) (p q : P) : Prop := p = q ∨ X.eq p q = true ∨ X.eqSame p q = true

/-- The history of a record as MongoDB can have it: one entry per version, and the oldest is not a
deletion. -/
structure ValidHist (hist : List (Int × Dict)) : Prop where
  nonempty : hist ≠ []
  nodup : (hist.map Prod.fst).Nodup
  oldest : ∀ v d, (v, d) ∈ hist → (∀ w e, (w, e) ∈ hist → v ≤ w) → d ≠ []

/-- Options histories that exist: not empty, one entry per version. -/
structure ValidOptions (opts : List (Int × ParsingOptions)) : Prop where
  nonempty : opts ≠ []
  nodup : (opts.map Prod.fst).Nodup

/-- The options that the code looks at for a record with this history: those not older than the record, and
the oldest ones. (The oldest ones are in use until the next of them; see C29.) -/
def effectiveOptions (hist : List (Int × Dict)) (opts : List (Int × ParsingOptions)) : List (Int × ParsingOptions) :=
  opts.filter (fun wo => hist.any (fun vd => decide (vd.1 ≤ wo.1)) || opts.all (fun wo' => decide (wo.1 ≤ wo'.1)))

/-- At most one version of the options is older than the record. -/
def OptionsNotChangedBefore (hist : List (Int × Dict)) (opts : List (Int × ParsingOptions)) : Prop :=
  ∀ w w', w ∈ opts.map Prod.fst → w' ∈ opts.map Prod.fst → (∀ v ∈ hist.map Prod.fst, w < v ∧ w' < v) → w = w'

/-- The documents of a record with this history, under these options, divide the time. -/
structure PartitionsTime {P : Type} (X : Parser P) (id : PyStr) (hist : List (Int × Dict))
    (opts : List (Int × ParsingOptions)) (docs : List (Doc P)) : Prop where
  /-- They carry the id of the record, and `version` and `next` are the ends of the range. -/
  fields : ∀ d ∈ docs, d.id = id ∧ d.version = d.gte ∧ d.next = d.lt
  /-- Their ranges are not empty. -/
  range : ∀ d ∈ docs, ∀ e, d.lt = some e → d.gte < e
  /-- No two of them cover the same version. -/
  disjoint : docs.Pairwise (fun a b => ∀ v, ¬ (a.covers v ∧ b.covers v))
  /-- A version is covered iff the record exists and is not deleted then. -/
  covered : ∀ v, (∃ d ∈ docs, d.covers v) ↔ Alive hist v
  /-- The document covering `v` holds the parse of the data as of `v` with the options as of `v`. -/
  content : ∀ v, ∀ d ∈ docs, d.covers v → ∀ a o, AsOf hist v a → OptionsAsOf opts v o →
    X.same d.parsed (X.parse a o)
  /-- It is exactly the parse of the data and options as of the version at which it starts. -/
  start : ∀ d ∈ docs, ∀ a o, AsOf hist d.gte a → OptionsAsOf opts d.gte o → d.parsed = X.parse a o
  /-- They start and end only at versions of the data or the options. -/
  ends : ∀ d ∈ docs, ∀ v, (v = d.gte ∨ d.lt = some v) → v ∈ hist.map Prod.fst ∨ v ∈ opts.map Prod.fst
  /-- A document that starts where another ends has other content. If only the options changed there, it is different
  even when a NaN is taken to be equal to a NaN. -/
  changes : docs.Pairwise (fun a b => a.lt = some b.gte → X.eq a.parsed b.parsed = false ∧
    (b.gte ∉ hist.map Prod.fst → X.eqSame a.parsed b.parsed = false))
  /-- They are in the order of time. -/
  ordered : docs.Pairwise (fun a b => a.version < b.version)

/-! ## Databases at the time of a sync -/

/-- The committed versions of a record, as MongoDB has them, newest first. -/
def histOf (c : Coll) (id : PyStr) : List (Int × Dict) :=
  match history c id with
  | .ok items => committedOf items
  | .error _ => []

/-- A database as the API leaves it: one document per record, whose versions can be read; their numbers go
down; the oldest is not a deletion; the current one is that of the document unless it has an uncommitted
change; there are options. -/
structure DbOk (db : PyStr) (m : Mongo) : Prop where
  nodup : ((m.data db).map MongoRecord.id).Nodup
  reads : ∀ r ∈ m.data db, ∃ items, r.iter = .ok items ∧
    (∀ v, r.version = some v → items = (committedOf items).map (fun vd => (some vd.1, vd.2)) ∧
      ∃ d, (committedOf items).head? = some (v, d))
  desc : ∀ id, ((histOf (m.data db) id).map Prod.fst).Pairwise (· > ·)
  oldest : ∀ id v d, (histOf (m.data db) id).getLast? = some (v, d) → d ≠ []
  options : ValidOptions (committedOptionsOf db m)

/-- Indices as Elasticsearch and the API can have them: each exists once, the latest index has one document per id,
all of them with ids from splitgill. -/
structure LatestOk {P : Type} (es : ES P) : Prop where
  indices : (akeys es).Nodup
  nodup : (akeys (es.docs .latest)).Nodup
  hasId : none ∉ akeys (es.docs .latest)

/-- The documents in the archive indices. -/
def ES.archived {P : Type} (es : ES P) : List (Doc P) :=
  es.flatMap (fun x => match x.1 with | .arc _ => x.2.map Prod.snd | .latest => [])

/-- The same documents, under the same ids, in the latest index; and the same documents, equally often, in
the archive indices. -/
structure SameIndices {P : Type} (es es' : ES P) : Prop where
  latest : ∀ x, x ∈ es.docs .latest ↔ x ∈ es'.docs .latest
  archived : es.archived.Perm es'.archived

/-- The indices hold, for the records `rs` of the database, exactly the documents that divide the time of each, each
once: the one that is open (the record is not deleted) in the latest index, under the id of the record; the
others in archive indices. Nothing else is in them. -/
def IndexesRecords {P : Type} (X : Parser P) (db : PyStr) (m : Mongo) (rs : List MongoRecord) (es : ES P) : Prop :=
  ∃ docs : MongoRecord → List (Doc P),
    (∀ r ∈ rs, histOf (m.data db) r.id ≠ [] → PartitionsTime X r.id (histOf (m.data db) r.id)
      (effectiveOptions (histOf (m.data db) r.id) (committedOptionsOf db m)) (docs r)) ∧
    (∀ r ∈ rs, histOf (m.data db) r.id = [] → docs r = []) ∧
    ((es.docs .latest).map Prod.fst).Nodup ∧
    (∀ key d, (key, d) ∈ es.docs .latest ↔ ∃ r ∈ rs, key = some r.id ∧ d ∈ docs r ∧ d.lt = none) ∧
    es.archived.Perm (rs.flatMap (fun r => (docs r).filter (fun d => d.lt.isSome)))

/-- Archives numbered without gaps from 0, none empty, none with more than the limit, all but the last one full. -/
structure ArcsFilled {P : Type} (maxDocs : Nat) (es : ES P) : Prop where
  bound : ∀ k ∈ es.arcs, 1 ≤ (es.docs (.arc k)).length ∧ (es.docs (.arc k)).length ≤ maxDocs
  full : ∀ k ∈ es.arcs, ∀ j, j < k → j ∈ es.arcs ∧ (es.docs (.arc j)).length = maxDocs

/-- No record has uncommitted changes. -/
def NoPending (db : PyStr) (m : Mongo) : Prop := ∀ r ∈ m.data db, r.version ≠ none

/-- The same versions, whose data is the same for the parser. -/
def SameForParser {P : Type} (X : Parser P) (h h' : List (Int × Dict)) : Prop :=
  List.Forall₂ (fun a b => a.1 = b.1 ∧ (∀ o, X.parse a.2 o = X.parse b.2 o) ∧ (a.2 = [] ↔ b.2 = [])) h h'

/-- `m'` is the database some time after it was `m`: commits since then had versions above `t`, those
before at most `t`, and what had been committed before is unchanged (C07, C27). -/
structure Later {P : Type} (X : Parser P) (db : PyStr) (t : Int) (m m' : Mongo) : Prop where
  hist : ∀ id, SameForParser X (histOf (m.data db) id) ((histOf (m'.data db) id).filter (fun vd => decide (vd.1 ≤ t)))
  opts : ∀ v o, (v, o) ∈ committedOptionsOf db m ↔ (v, o) ∈ committedOptionsOf db m' ∧ v ≤ t

/-- The same for one record. -/
structure LaterFor {P : Type} (X : Parser P) (db : PyStr) (id : PyStr) (t : Int) (m m' : Mongo) : Prop where
  hist : SameForParser X (histOf (m.data db) id) ((histOf (m'.data db) id).filter (fun vd => decide (vd.1 ≤ t)))
  opts : ∀ v o, (v, o) ∈ committedOptionsOf db m ↔ (v, o) ∈ committedOptionsOf db m' ∧ v ≤ t

theorem Later.one {P : Type} {X : Parser P} {db : PyStr} {t : Int} {m m' : Mongo} (h : Later X db t m m') (id : PyStr) :
    LaterFor X db id t m m' := ⟨h.hist id, h.opts⟩

/-- The record has been deleted, in its newest version. -/
def DeletedNow (hist : List (Int × Dict)) : Prop := ∃ v, hist.head? = some (v, [])

/-- The record, if it existed at version `t`, has not been changed and then deleted since: if it is deleted now, then it
has not existed at any version after `t`. -/
def NoUpdateDeleteOf (db : PyStr) (id : PyStr) (t : Int) (m : Mongo) : Prop :=
  Alive (histOf (m.data db) id) t → DeletedNow (histOf (m.data db) id) →
    ∀ v, t < v → v ∈ (histOf (m.data db) id).map Prod.fst ∨ v ∈ (committedOptionsOf db m).map Prod.fst →
      ¬ Alive (histOf (m.data db) id) v

/-- No record that existed at version `t` has been changed and then deleted since. -/
def NoUpdateDelete (db : PyStr) (t : Int) (m : Mongo) : Prop := ∀ id, NoUpdateDeleteOf db id t m

/-- Records with uncommitted changes have no committed version, of their own or of the options, that is newer than
`t` (or not in `t`, if that is `none`). -/
def PendingOld (db : PyStr) (t : Option Int) (m : Mongo) : Prop :=
  ∀ r ∈ m.data db, r.version = none → histOf (m.data db) r.id ≠ [] →
    ∃ t', t = some t' ∧ (∀ w ∈ (histOf (m.data db) r.id).map Prod.fst, w ≤ t') ∧
      ∀ w ∈ (committedOptionsOf db m).map Prod.fst, w ≤ t'

/-- The database at several times, the later ones with the condition `extra`, which is given a version between the
commits before and after. -/
def Timeline {P : Type} (X : Parser P) (db : PyStr) (extra : Int → Mongo → Prop) : List Mongo → Prop
  | [] => True
  | [m] => DbOk db m
  | m :: m' :: rest => DbOk db m ∧ (∃ t, Later X db t m m' ∧ extra t m') ∧ Timeline X db extra (m' :: rest)

/-- Reading the records with a filter while the database is in the states `during`, one after the other: no
record comes twice, each is as it is in one of the states, and matches the filter there, and each that
matches the filter all the time is among them. -/
structure Scanned (db : PyStr) (during : List Mongo) (sel : MongoRecord → Bool) (scan : List MongoRecord) : Prop where
  once : (scan.map MongoRecord.id).Nodup
  was : ∀ r ∈ scan, ∃ m ∈ during, r ∈ m.data db ∧ sel r = true
  all : ∀ id, (∀ m ∈ during, ∃ r ∈ m.data db, r.id = id ∧ sel r = true) → id ∈ scan.map MongoRecord.id

/-- A sync that runs while others write: the states that the database is in meanwhile, the first one when it
starts, and what its cursor gives for each filter. -/
structure LongSync where
  start : Mongo
  others : List Mongo
  cursor : (MongoRecord → Bool) → List MongoRecord

/-- The states of the database during a sync. -/
def LongSync.during (s : LongSync) : List Mongo := s.start :: s.others

/-- What is committed is the same. -/
structure SameCommitted {P : Type} (X : Parser P) (db : PyStr) (m m' : Mongo) : Prop where
  hist : ∀ id, SameForParser X (histOf (m.data db) id) (histOf (m'.data db) id)
  opts : ∀ v o, (v, o) ∈ committedOptionsOf db m ↔ (v, o) ∈ committedOptionsOf db m'

/-- Nothing is committed during the sync. -/
structure LongSync.Quiet {P : Type} (X : Parser P) (db : PyStr) (s : LongSync) : Prop where
  dbOk : ∀ m ∈ s.during, DbOk db m
  same : ∀ m ∈ s.during, SameCommitted X db s.start m
  cursor : ∀ sel, Scanned db s.during sel (s.cursor sel)

/-- Syncs one after the other, nothing being committed during any of them. No record is changed and then deleted
between two of them, and records that have uncommitted changes at any time during a sync have no committed
versions since the one before. -/
def QuietTimeline {P : Type} (X : Parser P) (db : PyStr) : List LongSync → Prop
  | [] => True
  | [s] => s.Quiet X db
  | s :: s' :: rest => s.Quiet X db ∧
      (∃ t, Later X db t s.start s'.start ∧ NoUpdateDelete db t s'.start ∧ ∀ m ∈ s'.during, PendingOld db (some t) m) ∧
      QuietTimeline X db (s' :: rest)

/-- Syncs one after the other. -/
def runLongSyncs {P : Type} (X : Parser P) (maxDocs : Nat) (db : PyStr) : ES P → List LongSync → Except PyErr (ES P)
  | es, [] => .ok es
  | es, s :: rest =>
    match syncOver X maxDocs db s.start s.cursor es with
    | .error e => .error e
    | .ok es => runLongSyncs X maxDocs db es rest

/-- Syncing a database as it is at several times. -/
def runSyncs {P : Type} (X : Parser P) (maxDocs : Nat) (db : PyStr) : ES P → List Mongo → Except PyErr (ES P)
  | es, [] => .ok es
  | es, m :: ms =>
    match sync X maxDocs db false m es with
    | .error e => .error e
    | .ok es => runSyncs X maxDocs db es ms

end Splitgill
