import Verif.Model.Manager
import Verif.Spec.Value
import Mathlib.Data.List.Forall2
/-!
# Specification: what ingest, commit and rollback mean for the history of a record
-/

namespace Splitgill

/-- What there is to know about a record: its committed versions, newest first, and its uncommitted data.
Empty data stands for a deleted record. Without any of it the record does not exist. -/
structure Hist where
  committed : List (Int × Dict) := []
  pending : Option Dict := none

/-- The states of the record, newest first: the uncommitted one (version `None`), then the committed
ones. -/
def Hist.states (h : Hist) : List VersionedData :=
  (h.pending.map (fun d => (none, d))).toList ++ h.committed.map (fun vd => (some vd.1, vd.2))

/-- The new data says the same as the old: they are equal, or, with a modified field that both have, equal
apart from it. -/
def sameData (modifiedField : Option PyStr) (new old : Dict) : Bool :=
  match modifiedField with
  | none => pyEq (.dict new) (.dict old)
  | some m =>
    if ahas m new && ahas m old then
      pyEq (.dict (new.filter (fun kv => decide (kv.1 ≠ m)))) (.dict (old.filter (fun kv => decide (kv.1 ≠ m))))
    else pyEq (.dict new) (.dict old)

/-- New data for a record: it becomes the uncommitted data, unless it says the same as the last
committed version. -/
def Hist.ingest (mf : Option PyStr) (new : Dict) (h : Hist) : Hist :=
  match h.committed with
  | [] => { h with pending := if new.isEmpty then none else some new }
  | (_, old) :: _ => { h with pending := if sameData mf new old then none else some new }

/-- The uncommitted data becomes version `v`. -/
def Hist.commit (v : Int) (h : Hist) : Hist :=
  match h.pending with
  | none => h
  | some d => { committed := (v, d) :: h.committed, pending := none }

/-- The uncommitted data is dropped. -/
def Hist.rollback (h : Hist) : Hist := { h with pending := none }

/-- The histories of all records. -/
abbrev Store := PyStr → Hist

def Store.empty : Store := fun _ => {}

/-- The records one after another. -/
def Store.ingest (U : Unicode) (mf : Option PyStr) (records : List Record) (s : Store) : Store :=
  records.foldl (fun s r => fun id =>
    if id = r.id then (s id).ingest mf (prepareRecordData U r) else s id) s

/-- What each event may do. After a crash, each record is in its state before or after. -/
def Event.Spec (U : Unicode) (s s' : Store) : Event → Prop
  | .ingest mf rs => ∀ id, s' id = s.ingest U mf rs id
  | .commit v => ∀ id, s' id = (s id).commit v
  | .rollback => ∀ id, s' id = (s id).rollback
  | .ingestCrash mf rs _ => ∀ id, s' id = s id ∨ s' id = s.ingest U mf rs id
  | .commitCrash v done => ∀ id, s' id = if done id then (s id).commit v else s id
  | .rollbackCrash _ => ∀ id, s' id = s id ∨ s' id = (s id).rollback

/-- A sequence of events. -/
inductive SpecRun (U : Unicode) : Store → List Event → Store → Prop
  | nil {s} : SpecRun U s [] s
  | cons {s s' s'' e es} : e.Spec U s s' → SpecRun U s' es s'' → SpecRun U s (e :: es) s''

/-- The versions given by an event. -/
def Event.version : Event → Option Int
  | .commit v => some v
  | .commitCrash v _ => some v
  | _ => none

/-- The stream of records passed to an event. -/
def Event.stream : Event → List Record
  | .ingest _ rs => rs
  | .ingestCrash _ rs _ => rs
  | _ => []

/-- No id occurs in two different lookup batches of the stream (see C14). Holds for streams without repeated
ids and for streams of at most `size` records. -/
def NoSpan (size : Nat) (records : List Record) : Prop :=
  (partition records size).Pairwise (fun a b => ∀ r ∈ a, ∀ r' ∈ b, r.id ≠ r'.id)

/-- The clock goes strictly forward from one commit to the next, and no id spans two lookup batches. -/
structure Regular (es : List Event) : Prop where
  clock : (es.filterMap Event.version).Pairwise (· < ·)
  noSpan : ∀ e ∈ es, NoSpan 200 e.stream

/-- `items` are the states, with data equal in Python's sense (NaN equal to itself). -/
def SameStates (items states : List VersionedData) : Prop :=
  List.Forall₂ (fun a b => a.1 = b.1 ∧ simEq (.dict a.2) (.dict b.2) = true) items states

/-- What a user sees of a record: `list(record.iter())`, or nothing if there is no such record. -/
def history (c : Coll) (id : PyStr) : Except PyErr (List VersionedData) :=
  match findRecord id c with
  | none => .ok []
  | some doc => doc.iter

/-- The committed ones of the states. -/
def committedOf (items : List VersionedData) : List (Int × Dict) :=
  items.filterMap (fun vd => vd.1.map (fun v => (v, vd.2)))

/-- The same versions with equal data (NaN equal to itself). -/
def SameVersions (a b : List (Int × Dict)) : Prop :=
  List.Forall₂ (fun x y => x.1 = y.1 ∧ simEq (.dict x.2) (.dict y.2) = true) a b

/-- `items` are the states, with the same data but for the order of keys: every scalar is the same, also in its type. -/
def ExactStates (items states : List VersionedData) : Prop :=
  List.Forall₂ (fun a b => a.1 = b.1 ∧ strictEq (.dict a.2) (.dict b.2) = true) items states

/-- No two data given for a record hold, at the same place, two scalars that Python considers equal although they are
different. -/
def NoPunsAmong (U : Unicode) (records : List Record) : Prop :=
  ∀ r ∈ records, ∀ r' ∈ records, r.id = r'.id → NoPun (.dict (prepareRecordData U r)) (.dict (prepareRecordData U r'))

end Splitgill
