import Verif.Model.Parse
import Verif.Spec.Life
/-!
# Specification: the versions at which records change
-/

namespace Splitgill

mutual
/-- There is no NaN in the value. -/
def Value.noNaN : Value → Bool
  | .float f => decide (f ≠ .nan)
  | .list l => noNaNList l
  | .dict d => noNaNDict d
  | _ => true
def noNaNList : List Value → Bool
  | [] => true
  | v :: r => v.noNaN && noNaNList r
def noNaNDict : Dict → Bool
  | [] => true
  | (_, v) :: r => v.noNaN && noNaNDict r
end

/-- `try_float` with `nan=None` gives no NaN (parser.py:190). -/
def ParseEnv.NumbersExist (E : ParseEnv) : Prop := ∀ s f, E.toNumber s = some f → f ≠ .nan

/-- What is read of a record at a version: nothing if it does not exist then, otherwise the parse of its data with the options,
each as of the version. -/
def ReadAt (E : ParseEnv) (hist : List (Int × Dict)) (opts : List (Int × ParsingOptions)) (v : Int) : Option ParsedData → Prop
  | none => ¬ Alive hist v
  | some p => ∃ a o, AsOf hist v a ∧ a ≠ [] ∧ OptionsAsOf (effectiveOptions hist opts) v o ∧ parse E o a = .ok p

/-- Python's `==` of two results of `parse`. -/
def ParsedData.Equal (p q : ParsedData) : Prop :=
  pyEq (.dict p.parsed) (.dict q.parsed) = true ∧ p.dataTypes = q.dataTypes ∧ p.parsedTypes = q.parsedTypes

/-- The record appears, disappears or is read differently at version `v`. -/
def ChangesAt (E : ParseEnv) (hist : List (Int × Dict)) (opts : List (Int × ParsingOptions)) (v : Int) : Prop :=
  (ReadAt E hist opts (v - 1) none ∧ ∃ q, ReadAt E hist opts v (some q)) ∨
  ((∃ p, ReadAt E hist opts (v - 1) (some p)) ∧ ReadAt E hist opts v none) ∨
  ∃ p q, ReadAt E hist opts (v - 1) (some p) ∧ ReadAt E hist opts v (some q) ∧ ¬ p.Equal q

/-- The record appears at version `v`. -/
def AppearsAt (hist : List (Int × Dict)) (v : Int) : Prop := ¬ Alive hist (v - 1) ∧ Alive hist v

/-- Some call returned this version. -/
def Returned (U : Unicode) (db : PyStr) (calls : List ApiCall) (v : Int) : Prop :=
  ∃ before call after, calls = before ++ call :: after ∧ (call.run U db (afterCalls U db before)).1 = .ok (some v)

end Splitgill
