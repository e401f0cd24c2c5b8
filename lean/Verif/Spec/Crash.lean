import Verif.Model.Crash
import Verif.Spec.Life
/-!
# Specification vocabulary: databases whose calls may be stopped half way
-/

namespace Splitgill

/-- The clock value a step may give as a version. -/
def Step.clock? : Step → Option Int
  | .call c => c.clock?
  | .commitStops clock _ _ => some clock
  | _ => none

/-- The records passed to a step. -/
def Step.stream : Step → List Record
  | .call c => c.stream
  | .ingestStops _ rs _ => rs
  | _ => []

/-- The clock goes strictly forward from one commit to the next, and no id spans two lookup batches of an
ingest (see C14). -/
structure OrderlySteps (steps : List Step) : Prop where
  clock : (steps.filterMap Step.clock?).Pairwise (· < ·)
  noSpan : ∀ c ∈ steps, NoSpan 200 c.stream

/-- A client's MongoDB after steps on one database. -/
def afterSteps (U : Unicode) (db : PyStr) (steps : List Step) : Mongo := runSteps U db Mongo.empty steps

/-- What a step may do to the histories of the records of the database in state `m`. After a call that is stopped,
each record is in its state before or after. A call that raises has not committed. -/
def Step.Spec (U : Unicode) (db : PyStr) (m : Mongo) (s s' : Store) : Step → Prop
  | .call c =>
    match (c.run U db m).1 with
    | .ok ret => ∀ id, s' id = c.effect U ret s id
    | .error _ => ∀ id, s' id = c.effect U none s id
  | .ingestStops mf rs _ => ∀ id, s' id = s id ∨ s' id = s.ingest U mf rs id
  | .rollbackStops _ => ∀ id, s' id = s id ∨ s' id = (s id).rollback
  | .optionsStop _ => ∀ id, s' id = s id
  | .commitStops clock _ _ =>
    (isLocked db m = true → ∀ id, s' id = s id) ∧ ∀ id, s' id = s id ∨ s' id = (s id).commit clock
  | .release => ∀ id, s' id = s id

/-- `s'` can be the histories of the records after the steps, if they were `s` before. -/
def StepsSpec (U : Unicode) (db : PyStr) : Mongo → Store → List Step → Store → Prop
  | _, s, [], s' => ∀ id, s' id = s id
  | m, s, st :: steps, s'' => ∃ s', st.Spec U db m s s' ∧ StepsSpec U db (st.run U db m) s' steps s''

/-- `s` can be the histories of the records of a new database after the steps. -/
def PossibleHistories (U : Unicode) (db : PyStr) (steps : List Step) (s : Store) : Prop :=
  StepsSpec U db Mongo.empty Store.empty steps s

/-- The states of MongoDB after some steps, and then at the end of each of several more parts of the sequence. -/
def stepStates (U : Unicode) (db : PyStr) (before : List Step) : List (List Step) → List Mongo
  | [] => [afterSteps U db before]
  | part :: parts => afterSteps U db before :: stepStates U db (before ++ part) parts

/-- `extra t m` for the state `m` at the end of each part but the first, with `t` the last clock value before the
part. -/
def EachStepPart (extra : Int → Mongo → Prop) (U : Unicode) (db : PyStr) (before : List Step) : List (List Step) → Prop
  | [] => True
  | part :: parts =>
    (∀ t, (before.filterMap Step.clock?).getLast? = some t → extra t (afterSteps U db (before ++ part))) ∧
      EachStepPart extra U db (before ++ part) parts

end Splitgill
