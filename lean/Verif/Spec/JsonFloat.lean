import Verif.Model.JsonFloat
import Verif.Spec.Json
import Verif.Spec.FloatText
import Verif.Spec.Wire
/-!
# Specification: the shortest decimals of floats, and their texts
-/

namespace Splitgill

/-- A decimal of `p` digits that is read as the float `x`. -/
def ReadAs (p : Nat) (x v : ℚ) : Prop := HasDigits 10 p v ∧ IsRounded v x

/-- The decimal of a float: no decimal with fewer digits is read as the float; it is the nearest of those with so many digits that are, and of two nearest ones
that with an even last digit. -/
def ShortestDecimal (p : Nat) (x v : ℚ) : Prop :=
  ReadAs p x v ∧ (∀ k w, ReadAs k x w → p ≤ k) ∧ (∀ w, ReadAs p x w → |x - v| ≤ |x - w|) ∧
  ∀ w, ReadAs p x w → |x - w| = |x - v| → w ≠ v → ∃ m k e : ℤ, v = m * 10 ^ e ∧ w = k * 10 ^ e ∧ |m - k| = 1 ∧ Even m

/-- The text of a positive decimal in JSON, which is never that of an int. Without an exponent: digits, a point and digits, without zeros at the start but one before the
point, and without zeros at the end but one after the point. With an exponent: one digit, maybe a point and more digits, and an exponent without needless zeros. -/
def WritesJson (plain : Int → Bool) (v : ℚ) (s : PyStr) : Prop :=
  ∃ e : Int, (10 : ℚ) ^ e ≤ v ∧ v < 10 ^ (e + 1) ∧
    if plain e then
      ∃ whole part : PyStr, s = whole ++ '.' :: part ∧ AllDigits whole ∧ AllDigits part ∧ whole ≠ [] ∧ part ≠ [] ∧
        (whole.head? = some '0' → whole = ['0']) ∧ (part.getLast? = some '0' → part = ['0']) ∧ (decimal (whole ++ part) : ℚ) / 10 ^ part.length = v
    else
      ∃ (mantissa sign digits : PyStr) (a : ℚ), s = mantissa ++ 'e' :: (sign ++ digits) ∧ ShortDecimal mantissa ∧ MantissaText mantissa a ∧ v = a * 10 ^ e ∧
        sign = (if e < 0 then ['-'] else []) ∧ AllDigits digits ∧ digits ≠ [] ∧ decimal digits = e.natAbs ∧ (digits.head? = some '0' → digits = ['0'])

/-- A float as Python has them: if finite, 53 bits and an exponent. -/
def PyFloat.Double : PyFloat → Prop
  | .fin q => IsDouble q
  | _ => True

/-- If the value is a float, it is one as Python has them. -/
def DoubleValue (v : Value) : Prop := ∀ f, v = .float f → f.Double

/-- As `Sendable`, but for the values: the ids, the versions, the options, the number of fields and the lengths of the texts of the types. -/
structure NamesSendable (E : ParseEnv) (fields : List (List PyStr)) (db : PyStr) (m : Mongo) : Prop where
  ids : ∀ r ∈ m.data db, PlainStr r.id ∧ utf8Len r.id ≤ 32766
  versions : ∀ v, IsVersion m db v → -2 ^ 63 ≤ v ∧ v < 2 ^ 63
  options : ∀ x ∈ committedOptionsOf db m, ShortKeywords x.2
  names : ∀ r ∈ m.data db, ∀ items, r.iter = .ok items → ∀ x ∈ items, ∀ q ∈ fieldsOfDict x.2, q ∈ fields
  types : ∀ r ∈ m.data db, ∀ items, r.iter = .ok items → ∀ x ∈ items, ∀ o ∈ committedOptionsOf db m, ∀ p,
    (realParser E).parse x.2 o.2 = some p → (∀ s ∈ p.dataTypes, utf8Len s ≤ 32766) ∧ ∀ s ∈ p.parsedTypes, utf8Len s ≤ 32766

/-- All floats given are as Python has them, and all ints fit into 64 bits. -/
def NumbersGiven (U : Unicode) (records : List Record) : Prop :=
  ∀ r ∈ records, AllLeavesDict (fun v => IntFits v ∧ DoubleValue v) (prepareRecordData U r)

end Splitgill
