import Verif.Model.DateText
/-!
# Model of reading texts as numbers (`splitgill/indexing/parser.py:185-192`)

`fastnumbers.try_float(s, inf=None, nan=None, on_fail=None)` for texts of printable ASCII characters, spaces, tabs and newlines.
-/

namespace Splitgill

/-- Spaces, tabs and newlines. -/
def isBlank (c : Char) : Bool := c == ' ' || inRange '\t' '\r' c

/-- Without blanks at the start and at the end. -/
def stripBlanks (s : PyStr) : PyStr := ((s.dropWhile isBlank).reverse.dropWhile isBlank).reverse

/-- The number that digits write. -/
def digitsNumber (w : PyStr) : Nat := w.foldl (fun n c => 10 * n + digitVal c) 0

/-- The digits at the start, maybe with a point before, after or between them: the number and what follows. -/
def readMantissa (s : PyStr) : Option (ℚ × PyStr) :=
  let whole := s.takeWhile isDig
  match s.dropWhile isDig with
  | '.' :: r =>
    let part := r.takeWhile isDig
    if whole.isEmpty && part.isEmpty then none
    else some ((digitsNumber (whole ++ part) : ℚ) / 10 ^ part.length, r.dropWhile isDig)
  | r => if whole.isEmpty then none else some ((digitsNumber whole : ℚ), r)

/-- Only digits, at least one. -/
def onlyDigits (s : PyStr) : Option Nat := if s.isEmpty || !s.all isDig then none else some (digitsNumber s)

/-- The exponent without its letter. -/
def signedDigits : PyStr → Option Int
  | '-' :: r => (onlyDigits r).map (fun n : Nat => -(n : Int))
  | '+' :: r => (onlyDigits r).map (fun n : Nat => (n : Int))
  | r => (onlyDigits r).map (fun n : Nat => (n : Int))

/-- The exponent, up to the end of the text. -/
def textExponent : PyStr → Option Int
  | [] => some 0
  | c :: r => if c = 'e' || c = 'E' then signedDigits r else none

/-- A number without a sign. -/
def readUnsigned (s : PyStr) : Option ℚ := (readMantissa s).bind (fun x => (textExponent x.2).map (fun e => x.1 * 10 ^ e))

/-- A number with or without a sign: whether there is a minus, and the number without it. -/
def textSigned : PyStr → Option (Bool × ℚ)
  | '-' :: r => (readUnsigned r).map (fun q => (true, q))
  | '+' :: r => (readUnsigned r).map (fun q => (false, q))
  | r => (readUnsigned r).map (fun q => (false, q))

/-- The number that a text writes, if it does. The words for infinities and NaN give `None` (`inf=None, nan=None`), and so does what is not a number
(`on_fail=None`, parser.py:190). Underscores are not allowed, which is the default. -/
def textNumber (s : PyStr) : Option (Bool × ℚ) := textSigned (stripBlanks s)

/-- The float of such a number. Simplified: for numbers that are not too large or small, see `ParseEnv.ReadsNumbers`. -/
def floatOf (x : Bool × ℚ) : PyFloat :=
  if x.2 = 0 then (if x.1 then .negZero else .fin 0) else .fin (fl (if x.1 then -x.2 else x.2))

end Splitgill
