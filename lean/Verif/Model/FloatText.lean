import Verif.Model.Time
import Verif.Model.Parse
/-!
# Model of the texts of floats (`splitgill/indexing/parser.py:158-159`, `splitgill/indexing/options.py:21`)

`options.float_format.format(value)` for the formats `{0:.Pg}` with a number `P`, of which `{0:.15g}` is the default.
-/

namespace Splitgill

/-- The format `{0:.Pg}`; the default is this with 15 (options.py:21). -/
def gFormat (p : Nat) : PyStr := "{0:.".toList ++ (Nat.toDigits 10 p ++ "g}".toList)

/-- The first `p` digits of a positive number, rounded to the nearest or to the even one of two, and the exponent of the first of them. -/
def sigDigits (p : Nat) (q : ℚ) : Nat × Int :=
  let e := Int.log 10 q
  let m := (roundEven (q / 10 ^ (e - (p - 1 : Nat)))).toNat
  if m = 10 ^ p then (10 ^ (p - 1), e + 1) else (m, e)

/-- Without zeros at the end. -/
def dropZeros (s : PyStr) : PyStr := (s.reverse.dropWhile (· == '0')).reverse

/-- Digits before and after a point, without zeros at the end, and without the point if nothing follows it. -/
def pointText (whole part : PyStr) : PyStr :=
  let part := dropZeros part
  if part.isEmpty then whole else whole ++ '.' :: part

/-- The exponent: a sign and at least two digits. -/
def expText (e : Int) : PyStr :=
  let ds := Nat.toDigits 10 e.natAbs
  'e' :: (if e < 0 then '-' else '+') :: (if ds.length < 2 then '0' :: ds else ds)

/-- The text of `p` digits with the exponent of the first: without an exponent if it is at least -4 and less than `p`. -/
def gText (p m : Nat) (e : Int) : PyStr :=
  let ds := Nat.toDigits 10 m
  if -4 ≤ e ∧ e < p then
    if 0 ≤ e then pointText (ds.take (e.toNat + 1)) (ds.drop (e.toNat + 1))
    else pointText ['0'] (List.replicate (-e - 1).toNat '0' ++ ds)
  else pointText (ds.take 1) (ds.drop 1) ++ expText e

/-- A positive number. A precision of 0 is one of 1. -/
def gPositive (p : Nat) (q : ℚ) : PyStr :=
  let x := sigDigits (max p 1) q
  gText (max p 1) x.1 x.2

/-- `'{0:.Pg}'.format(x)` of a float -/
def formatG (p : Nat) : PyFloat → PyStr
  | .nan => "nan".toList
  | .pinf => "inf".toList
  | .ninf => "-inf".toList
  | .negZero => "-0".toList
  | .fin q => if q = 0 then "0".toList else if q < 0 then '-' :: gPositive p (-q) else gPositive p q

end Splitgill
