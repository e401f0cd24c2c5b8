import Verif.Spec.Crash
/-!
# Specification: the history of the options of a database
-/

namespace Splitgill

/-- The committed options of a database with their versions, the oldest first, and the uncommitted ones. -/
structure OptHist where
  committed : List (Int × ParsingOptions)
  pending : Option ParsingOptions

/-- A new database. -/
def OptHist.empty : OptHist := ⟨[], none⟩

/-- Options are given to `update_options`: they replace the uncommitted ones. Those that are equal (in Python's sense) to the
newest committed ones are not kept. -/
def OptHist.update (h : OptHist) (o : ParsingOptions) : OptHist :=
  match h.committed.getLast? with
  | some (_, latest) => if latest.pyEq o then { h with pending := none } else { h with pending := some o }
  | none => { h with pending := some o }

/-- The uncommitted options are dropped. -/
def OptHist.rollback (h : OptHist) : OptHist := { h with pending := none }

/-- A database without options gets the default ones, uncommitted. -/
def OptHist.orDefault (h : OptHist) : OptHist :=
  match h.committed, h.pending with
  | [], none => ⟨[], some startOptions⟩
  | _, _ => h

/-- The uncommitted options get a version. -/
def OptHist.give (h : OptHist) (v : Int) : OptHist :=
  match h.pending with
  | some o => ⟨h.committed ++ [(v, o)], none⟩
  | none => h

/-- A commit at `v`. -/
def OptHist.commit (h : OptHist) (v : Int) : OptHist := h.orDefault.give v

/-- What a call does to the options when it returns `ret` (the version of its commit, or `None`). -/
def ApiCall.optEffect (ret : Option Int) (h : OptHist) (call : ApiCall) : OptHist :=
  let h' := match call with
    | .updateOptions o _ _ => h.update o
    | .rollbackOptions => h.rollback
    | _ => h
  match ret with
  | some v => h'.commit v
  | none => h'

/-- The options after calls on a database in state `m`, from what the calls were given and what they returned. A call that
raises has not committed. -/
def optionsFrom (U : Unicode) (db : PyStr) (m : Mongo) (h : OptHist) : List ApiCall → OptHist
  | [] => h
  | call :: calls =>
    match call.run U db m with
    | (.ok ret, m') => optionsFrom U db m' (call.optEffect ret h) calls
    | (.error _, m') => optionsFrom U db m' (call.optEffect none h) calls

/-- The options after calls on a new database. -/
def optionsGiven (U : Unicode) (db : PyStr) (calls : List ApiCall) : OptHist := optionsFrom U db Mongo.empty OptHist.empty calls

/-- The options passed to a call. -/
def ApiCall.options? : ApiCall → Option ParsingOptions
  | .updateOptions o _ _ => some o
  | _ => none

/-- The options passed to a step. -/
def Step.options? : Step → Option ParsingOptions
  | .call c => c.options?
  | _ => none

/-- What a step may do to the options of the database in state `m`. -/
def Step.OptSpec (U : Unicode) (db : PyStr) (m : Mongo) (h h' : OptHist) : Step → Prop
  | .call c =>
    match (c.run U db m).1 with
    | .ok ret => h' = c.optEffect ret h
    | .error _ => h' = c.optEffect none h
  | .optionsStop _ => h' = h ∨ h' = h.rollback
  | .commitStops clock _ _ => h' = h ∨ (isLocked db m = false ∧ (h' = h.orDefault ∨ h' = h.commit clock))
  | _ => h' = h

/-- `h'` can be the options after the steps, if they were `h` before. -/
def OptStepsSpec (U : Unicode) (db : PyStr) : Mongo → OptHist → List Step → OptHist → Prop
  | _, h, [], h' => h' = h
  | m, h, st :: steps, h'' => ∃ h', st.OptSpec U db m h h' ∧ OptStepsSpec U db (st.run U db m) h' steps h''

/-- `h` can be the options of a new database after the steps. -/
def PossibleOptions (U : Unicode) (db : PyStr) (steps : List Step) (h : OptHist) : Prop :=
  OptStepsSpec U db Mongo.empty OptHist.empty steps h

end Splitgill
