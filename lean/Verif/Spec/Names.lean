import Verif.Model.Names
/-!
# What the names of indices are expected to do
-/

namespace Splitgill

/-- No other database of the cluster has a name that starts with that of `db` and a dash, and `db` is not the name of
another one followed by `-arc`. -/
def Isolated {P : Type} (db : PyStr) (c : Cluster P) : Prop :=
  ∀ k ∈ akeys c, k.1 ≠ db → ¬ (db ++ "-".toList) <+: k.1 ∧ db ≠ k.1 ++ "-arc".toList

/-! ## JSON -/

/-- The value of a hexadecimal digit. -/
def hexVal (c : Char) : Option Nat :=
  if c.isDigit then some (c.toNat - 48)
  else if 'a' ≤ c ∧ c ≤ 'f' then some (c.toNat - 87)
  else if 'A' ≤ c ∧ c ≤ 'F' then some (c.toNat - 55)
  else none

/-- `\uXXXX` for one character (without surrogates). -/
def hex4 (a b c d : Char) : Option Char :=
  match hexVal a, hexVal b, hexVal c, hexVal d with
  | some a, some b, some c, some d =>
    let n := ((a * 16 + b) * 16 + c) * 16 + d
    if n < 0xd800 ∨ 0xdfff < n then some (Char.ofNat n) else none
  | _, _, _, _ => none

/-- A JSON escape with one character. -/
def unescape (c : Char) : Option Char :=
  if c = '"' then some '"' else if c = '\\' then some '\\' else if c = '/' then some '/'
  else if c = 'b' then some (Char.ofNat 8) else if c = 'f' then some (Char.ofNat 12)
  else if c = 'n' then some (Char.ofNat 10) else if c = 'r' then some (Char.ofNat 13)
  else if c = 't' then some (Char.ofNat 9) else none

/-- The rest of a JSON string, after its opening quote: its value and what comes after its closing quote. -/
def jsonString : PyStr → Option (PyStr × PyStr)
  | [] => none
  | '"' :: rest => some ([], rest)
  | '\\' :: 'u' :: a :: b :: c :: d :: rest =>
    match hex4 a b c d, jsonString rest with
    | some x, some (s, r) => some (x :: s, r)
    | _, _ => none
  | '\\' :: e :: rest =>
    match unescape e, jsonString rest with
    | some x, some (s, r) => some (x :: s, r)
    | _, _ => none
  | c :: rest =>
    if c.toNat < 32 ∨ c = '\\' then none
    else
      match jsonString rest with
      | some (s, r) => some (c :: s, r)
      | none => none

/-- What comes after a given text. -/
def expect : PyStr → PyStr → Option PyStr
  | [], s => some s
  | c :: p, d :: s => if c = d then expect p s else none
  | _ :: _, [] => none

/-- The index and the id of a line `{"delete":{"_index":"...","_id":"..."}}`. -/
def decodeDelete (line : PyStr) : Option (PyStr × PyStr) := do
  let s ← expect "{\"delete\":{\"_index\":\"".toList line
  let (index, s) ← jsonString s
  let s ← expect ",\"_id\":\"".toList s
  let (docId, s) ← jsonString s
  let s ← expect "}}".toList s
  if s.isEmpty then some (index, docId) else none

/-- The lines of a text. -/
def lines : PyStr → List PyStr
  | [] => [[]]
  | c :: s =>
    match lines s with
    | [] => [[]]
    | l :: ls => if c = '\n' then [] :: l :: ls else (c :: l) :: ls

/-- No quotes, backslashes or control characters. -/
def PlainStr (s : PyStr) : Prop := ∀ c ∈ s, c ≠ '"' ∧ c ≠ '\\' ∧ 32 ≤ c.toNat

end Splitgill
