import Verif.Model.IndexNames
/-!
# Specification of the names that databases can have
-/

namespace Splitgill

/-- A name with which no index is refused for its characters: none of `\ / * ? " < > | , # :` and space, and nothing that lowercasing
would change. -/
def NameChars (E : NameEnv) (db : PyStr) : Prop := ∀ c ∈ db, E.lowered c = true ∧ c ∉ "\\/*?\"<>| ,#:".toList

/-- The bytes of the name of an index beside the name of its database: `data-` and `-latest`, or `data-`, `-arc-` and the digits of a
number. -/
def addedBytes : Ix → Nat
  | .latest => 5 + 7
  | .arc n => 5 + 5 + (Nat.toDigits 10 n).length

/-- Elasticsearch takes the name of an index of a database. -/
def NameFits (E : NameEnv) (db : PyStr) (ix : Ix) : Prop := NameChars E db ∧ utf8Len db + addedBytes ix ≤ 255

end Splitgill
