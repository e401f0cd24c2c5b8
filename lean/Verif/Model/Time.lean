import Mathlib.Data.Int.Log
import Mathlib.Data.Rat.Floor
/-!
# Model of `to_timestamp` (`splitgill/utils.py:12-29`)

A float is the rational number it stands for; operations on floats are the exact operations, rounded.
-/

namespace Splitgill

/-- Rounding to an integer: to the nearest, to the even one of two. -/
def roundEven (y : ℚ) : ℤ :=
  if y - ⌊y⌋ < 1 / 2 then ⌊y⌋
  else if 1 / 2 < y - ⌊y⌋ then ⌊y⌋ + 1
  else if ⌊y⌋ % 2 = 0 then ⌊y⌋ else ⌊y⌋ + 1

/-- The distance of the floats next to a positive number (IEEE 754 binary64, 53 bits) as an exponent of two. Simplified:
the smallest and largest exponents are not modelled. -/
def flExp (x : ℚ) : ℤ := Int.log 2 x - 52

/-- The float a positive number is rounded to. -/
def flPos (x : ℚ) : ℚ := roundEven (x / 2 ^ flExp x) * 2 ^ flExp x

/-- The float a number is rounded to. -/
def fl (x : ℚ) : ℚ := if x = 0 then 0 else if 0 < x then flPos x else - flPos (-x)

/-- `int(x)` of a float -/
def truncate (x : ℚ) : ℤ := if 0 ≤ x then ⌊x⌋ else - ⌊-x⌋

/-- `int(moment.timestamp() * 1000)` (utils.py:27) of a time zone aware datetime, given as microseconds since the epoch:
`datetime.timestamp` divides the microseconds by `10**6` (a correctly rounded division of ints). -/
def toTimestamp (us : ℤ) : ℤ := truncate (fl (fl ((us : ℚ) / 10 ^ 6) * 1000))

/-- `int(moment.timestamp() * 1000)` (utils.py:27, 29) of a datetime without a time zone, or of a date: `datetime.timestamp` takes it as local
time, finds the whole seconds since the epoch, and adds the microseconds divided by `1e6` as floats. Simplified: which second it is in local
time is given. -/
def naiveTimestamp (seconds : ℤ) (us : ℕ) : ℤ := truncate (fl (fl (seconds + fl ((us : ℚ) / 10 ^ 6)) * 1000))

end Splitgill
