import Verif.Spec.Value
import Verif.Model.Prepare
/-!
# Specification vocabulary for the cleaning of data before storage
-/

namespace Splitgill

/-- The facts about the unicode tables that matter: the characters of `-` and `_id` are neither control characters nor
white space. -/
structure Unicode.Sane (U : Unicode) : Prop where
  c_hyphen : U.isC '-' = false
  c_under : U.isC '_' = false
  c_i : U.isC 'i' = false
  c_d : U.isC 'd' = false
  s_hyphen : U.isSpace '-' = false
  s_under : U.isSpace '_' = false
  s_i : U.isSpace 'i' = false
  s_d : U.isSpace 'd' = false

/-- A clean field name. -/
structure CleanName (U : Unicode) (n : PyStr) : Prop where
  nonempty : n ≠ []
  no_dot : '.' ∉ n
  no_control : ∀ c ∈ n, U.isC c = false
  no_space_left : ∀ c, n.head? = some c → U.isSpace c = false
  no_space_right : ∀ c, n.getLast? = some c → U.isSpace c = false
  no_underscore : n.head? = some '_' → n = "_id".toList

/-- A clean text: no control character other than newline, carriage return and tab. -/
def CleanText (U : Unicode) (s : PyStr) : Prop :=
  ∀ c ∈ s, U.isC c = true → c = '\n' ∨ c = '\r' ∨ c = '\t'

/-- Every field name, at every depth, is clean. -/
def NamesClean (U : Unicode) (v : Value) : Prop :=
  ∀ p d, getAt p v = some (.dict d) → ∀ k ∈ akeys d, CleanName U k

/-- Every string, at every depth, is clean. -/
def TextsClean (U : Unicode) (v : Value) : Prop :=
  ∀ p s, getAt p v = some (.str s) → CleanText U s

mutual
/-- The texts that `prepare_data` takes over as they are (of `datetime`, `date` and fallback objects)
are clean. -/
def Raw.TextsOk (U : Unicode) : Raw → Prop
  | .datetime t => CleanText U t
  | .date t => CleanText U t
  | .other t => CleanText U t
  | .list l => Raw.TextsOkList U l
  | .dict d => Raw.TextsOkDict U d
  | _ => True
def Raw.TextsOkList (U : Unicode) : List Raw → Prop
  | [] => True
  | v :: r => Raw.TextsOk U v ∧ Raw.TextsOkList U r
def Raw.TextsOkDict (U : Unicode) : List (RawKey × Raw) → Prop
  | [] => True
  | (_, v) :: r => Raw.TextsOk U v ∧ Raw.TextsOkDict U r
end

mutual
/-- A stored value given to `prepare_data` again. -/
def Value.toRaw : Value → Raw
  | .none => .none
  | .bool b => .bool b
  | .int i => .int i
  | .float f => .float f
  | .str s => .str s
  | .list l => .list (toRawList l)
  | .dict d => .dict (toRawDict d)
def toRawList : List Value → List Raw
  | [] => []
  | v :: r => v.toRaw :: toRawList r
def toRawDict : Dict → List (RawKey × Raw)
  | [] => []
  | (k, v) :: r => (.str k, v.toRaw) :: toRawDict r
end

end Splitgill
