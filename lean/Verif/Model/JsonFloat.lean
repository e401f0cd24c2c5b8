import Verif.Model.Json
import Verif.Model.FloatText
import Verif.Model.NumberText
/-!
# Model of how floats are written in the JSON that is sent to Elasticsearch

`orjson.dumps` (indexing/index.py:105-109) writes finite floats with the digits of the algorithm Ryū: as few as tell the float from the others.
Elasticsearch reads them as Java's `Double.parseDouble` does, to the nearest double. Simplified: the limits of the exponents of doubles are not
modelled, as in `fl`.
-/

namespace Splitgill

/-- Digits (`p` of them, or a one with `p` zeros) and the exponent of the last one, that are read as this positive float (indexing/index.py:105-109,
`orjson`): the nearest decimal with so many digits, or else the one on the other side. -/
def digitsFor (p : Nat) (q : ℚ) : Option (Nat × Int) :=
  let u := Int.log 10 q - (p - 1 : Nat)
  let x := q / 10 ^ u
  let m := roundEven x
  let m' := if (m : ℚ) ≤ x then m + 1 else m - 1
  if fl (m * 10 ^ u) = q then some (m.toNat, u)
  else if fl (m' * 10 ^ u) = q then some (m'.toNat, u)
  else none

/-- The first numbers of digits for which there are some; 17 are always enough (indexing/index.py:105-109, `orjson`). -/
def shortDigits (q : ℚ) : Nat × Int :=
  ((List.range 17).findSome? (fun n => digitsFor (n + 1) q)).getD (0, 0)

/-- The text of digits `ds`, the first of which has the exponent `e` (indexing/index.py:105-109, `orjson`). `plain` says for which exponents of the
first digit numbers are written without an exponent. -/
def layout (plain : Int → Bool) (ds : PyStr) (e : Int) : PyStr :=
  if plain e then
    if 0 ≤ e then
      let n := e.toNat + 1
      if ds.length ≤ n then ds ++ (List.replicate (n - ds.length) '0' ++ ".0".toList)
      else ds.take n ++ '.' :: ds.drop n
    else "0.".toList ++ (List.replicate (-e - 1).toNat '0' ++ ds)
  else (if ds.length ≤ 1 then ds else ds.take 1 ++ '.' :: ds.drop 1) ++ 'e' :: intStr e

/-- The text of a positive float (indexing/index.py:105-109, `orjson`). -/
def jsonPositive (plain : Int → Bool) (q : ℚ) : PyStr :=
  let x := shortDigits q
  let ds := Nat.toDigits 10 x.1
  layout plain (dropZeros ds) (x.2 + (ds.length - 1 : Nat))

/-- The text of a finite float (indexing/index.py:105-109, `orjson`). -/
def jsonFloat (plain : Int → Bool) : PyFloat → PyStr
  | .negZero => "-0.0".toList
  | .fin q => if q = 0 then "0.0".toList else if q < 0 then '-' :: jsonPositive plain (-q) else jsonPositive plain q
  | _ => []

/-- Floats are written by `orjson` and read by Elasticsearch to the nearest double (indexing/index.py:105-109). -/
def jsonFloats (plain : Int → Bool) : FloatText where
  write := jsonFloat plain
  read := fun s => (textNumber s).map floatOf

/-- Without an exponent from `0.00001` up to below `10 ** 16` (indexing/index.py:105-109, the `ryu` library of `orjson`). -/
def ryuPlain (e : Int) : Bool := decide (-5 ≤ e ∧ e < 16)

end Splitgill
