import Verif.Model.FloatText
import Verif.Spec.Time
import Verif.Spec.NumberText
/-!
# Specification: decimals with a number of digits
-/

namespace Splitgill

/-- The numbers that can be written with `p` digits of the base `b` and an exponent. -/
def HasDigits (b : Nat) (p : Nat) (r : ℚ) : Prop := ∃ m e : ℤ, |m| < (b : ℤ) ^ p ∧ r = m * (b : ℚ) ^ e

/-- A decimal of `p` digits that is closest to a number. -/
def NearestDecimal (p : Nat) (x r : ℚ) : Prop := HasDigits 10 p r ∧ ∀ s, HasDigits 10 p s → |x - r| ≤ |x - s|

/-- The decimal of `p` digits a number is rounded to: the closest one, and of two closest ones that with an even last digit. -/
def RoundedDecimal (p : Nat) (x r : ℚ) : Prop :=
  NearestDecimal p x r ∧ ∀ s, NearestDecimal p x s → s ≠ r → ∃ m k e : ℤ, r = m * 10 ^ e ∧ s = k * 10 ^ e ∧ |m - k| = 1 ∧ Even m

/-- Digits without needless zeros: none at the start but one before a point, none at the end after a point. -/
inductive ShortDecimal : PyStr → Prop
  | whole (c : Char) (w : PyStr) : c ≠ '0' → ShortDecimal (c :: w)
  | point (c : Char) (w p : PyStr) (d : Char) : c ≠ '0' ∨ w = [] → d ≠ '0' → ShortDecimal (c :: (w ++ '.' :: (p ++ [d])))

/-- The text of a positive decimal: the digits if it is at least 0.0001 and has at most `p` digits before the point; otherwise one digit, maybe a point and
more digits, and an exponent with a sign and at least two digits. -/
def WritesDecimal (p : Nat) (v : ℚ) (s : PyStr) : Prop :=
  if 1 / 10000 ≤ v ∧ v < 10 ^ p then ShortDecimal s ∧ MantissaText s v
  else ∃ (mantissa : PyStr) (sign : Char) (digits : PyStr) (a : ℚ) (e : Int), s = mantissa ++ 'e' :: sign :: digits ∧ ShortDecimal mantissa ∧ MantissaText mantissa a ∧
    1 ≤ a ∧ a < 10 ∧ sign = (if e < 0 then '-' else '+') ∧ AllDigits digits ∧ decimal digits = e.natAbs ∧ 2 ≤ digits.length ∧ (digits.head? = some '0' → digits.length = 2) ∧
    v = a * 10 ^ e

/-- `str.format` writes floats as `formatG` says, with the formats of this form. -/
def ParseEnv.FormatsG (E : ParseEnv) : Prop := ∀ p < 2 ^ 31 - 1, ∀ x, E.formatFloat (gFormat p) x = formatG p x

end Splitgill
