import Verif.Spec.Index
import Verif.Spec.World
/-!
# Specification vocabulary: a database that is written through the API
-/

namespace Splitgill

/-- The clock value a call gives as a version, if it commits. -/
def ApiCall.clock? : ApiCall → Option Int
  | .ingest _ _ doCommit clock => if doCommit then some clock else none
  | .commit clock => some clock
  | .updateOptions _ doCommit clock => if doCommit then some clock else none
  | .rollbackOptions => none
  | .rollbackRecords => none

/-- The records passed to a call. -/
def ApiCall.stream : ApiCall → List Record
  | .ingest _ rs _ _ => rs
  | _ => []

/-- The clock goes strictly forward from one commit to the next, and no id spans two lookup batches of an
ingest (see C14). -/
structure Orderly (calls : List ApiCall) : Prop where
  clock : (calls.filterMap ApiCall.clock?).Pairwise (· < ·)
  noSpan : ∀ c ∈ calls, NoSpan 200 c.stream

/-- A client's MongoDB after calls on one database. -/
def afterCalls (U : Unicode) (db : PyStr) (calls : List ApiCall) : Mongo :=
  runCalls U Mongo.empty (calls.map (fun c => (db, c)))

/-- What a call does to the histories of the records when it returns `ret` (the version of its commit, or `None`): records are
ingested or rolled back, and then what is uncommitted gets the version that is returned. -/
def ApiCall.effect (U : Unicode) (ret : Option Int) (s : Store) (call : ApiCall) : Store :=
  let s' : Store := match call with
    | .ingest mf rs _ _ => s.ingest U mf rs
    | .rollbackRecords => fun id => (s id).rollback
    | _ => s
  match ret with
  | some v => fun id => (s' id).commit v
  | none => s'

/-- The histories of the records after calls on a database in state `m`, from what the calls were given and what they returned. -/
def ingestedFrom (U : Unicode) (db : PyStr) (m : Mongo) (s : Store) : List ApiCall → Store
  | [] => s
  | call :: calls =>
    match call.run U db m with
    | (.ok ret, m') => ingestedFrom U db m' (call.effect U ret s) calls
    | (.error _, m') => ingestedFrom U db m' s calls

/-- The histories of the records after calls on a new database, from what the calls were given and what they returned. -/
def ingested (U : Unicode) (db : PyStr) (calls : List ApiCall) : Store := ingestedFrom U db Mongo.empty Store.empty calls

/-- The parser gives the same for data that is equal in Python's sense. -/
def Parser.Respects {P : Type} (X : Parser P) : Prop :=
  ∀ d d' o, simEq (.dict d) (.dict d') = true → X.parse d o = X.parse d' o

/-- The states of MongoDB after some calls, and then at the end of each of several more parts of the sequence of calls. -/
def statesOf (U : Unicode) (db : PyStr) (before : List ApiCall) : List (List ApiCall) → List Mongo
  | [] => [afterCalls U db before]
  | part :: parts => afterCalls U db before :: statesOf U db (before ++ part) parts

/-- `extra t m` for the state `m` at the end of each part but the first, with `t` the last clock value before the
part. -/
def EachPart (extra : Int → Mongo → Prop) (U : Unicode) (db : PyStr) (before : List ApiCall) : List (List ApiCall) → Prop
  | [] => True
  | part :: parts =>
    (∀ t, (before.filterMap ApiCall.clock?).getLast? = some t → extra t (afterCalls U db (before ++ part))) ∧
      EachPart extra U db (before ++ part) parts

end Splitgill
