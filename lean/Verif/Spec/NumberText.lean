import Verif.Model.NumberText
import Verif.Spec.DateReads
/-!
# Specification: the texts of numbers
-/

namespace Splitgill

/-- Only spaces, tabs and newlines. -/
def AllBlanks (w : PyStr) : Prop := ∀ c ∈ w, c = ' ' ∨ ('\t'.toNat ≤ c.toNat ∧ c.toNat ≤ '\r'.toNat)

/-- The text is a sign, or missing; with whether it is a minus. -/
inductive SignText : PyStr → Bool → Prop
  | missing : SignText [] false
  | plus : SignText ['+'] false
  | minus : SignText ['-'] true

/-- The text is an exponent, or missing; with the number that it writes. -/
inductive ExponentText : PyStr → Int → Prop
  | missing : ExponentText [] 0
  | given (e : Char) (sign digits : PyStr) (neg : Bool) : e = 'e' ∨ e = 'E' → SignText sign neg → AllDigits digits → digits ≠ [] →
      ExponentText (e :: (sign ++ digits)) (if neg then -(decimal digits : Int) else decimal digits)

/-- The text is one of digits with a point or not; with the number that it writes. -/
inductive MantissaText : PyStr → ℚ → Prop
  | whole (w : PyStr) : AllDigits w → w ≠ [] → MantissaText w (decimal w)
  | point (w p : PyStr) : AllDigits w → AllDigits p → w ++ p ≠ [] → MantissaText (w ++ '.' :: p) ((decimal (w ++ p) : ℚ) / 10 ^ p.length)

/-- The text writes a number, maybe between blanks: whether with a minus, and the number without it. -/
def Numeral (s : PyStr) (neg : Bool) (q : ℚ) : Prop :=
  ∃ before sign mantissa exponent after : PyStr, ∃ (m : ℚ) (e : Int), s = before ++ (sign ++ (mantissa ++ (exponent ++ after))) ∧
    AllBlanks before ∧ AllBlanks after ∧ SignText sign neg ∧ MantissaText mantissa m ∧ ExponentText exponent e ∧ q = m * 10 ^ e

/-- The number with its sign. -/
def signed (neg : Bool) (q : ℚ) : ℚ := if neg then -q else q

/-- Printable ASCII characters and blanks. -/
def Printable (s : PyStr) : Prop := ∀ c ∈ s, ('\t'.toNat ≤ c.toNat ∧ c.toNat ≤ '\r'.toNat) ∨ (' '.toNat ≤ c.toNat ∧ c.toNat < 127)

/-- Zero, or neither too small for a normal double nor too large for a double. -/
def InDoubles (q : ℚ) : Prop := q = 0 ∨ ((2 : ℚ) ^ (-1022 : Int) ≤ q ∧ q ≤ 2 ^ (1023 : Int))

/-- `try_float` reads texts as `textNumber` says, and rounds to the nearest double. Nothing is said about other characters and about numbers beyond the
normal doubles. -/
def ParseEnv.ReadsNumbers (E : ParseEnv) : Prop := ∀ s, Printable s →
  (textNumber s = none → E.toNumber s = none) ∧
  ∀ neg q, textNumber s = some (neg, q) → InDoubles q → E.toNumber s = some (floatOf (neg, q))

end Splitgill
