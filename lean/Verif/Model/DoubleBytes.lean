import Verif.Model.BsonBytes
import Mathlib.Data.Int.Log
/-!
# Model of the bytes of a float (IEEE 754 binary64, as BSON has it: bsonspec.org, type 0x01)
-/

namespace Splitgill

/-- The exponent of the last digit of a positive double. -/
def doubleExp (q : ℚ) : Int := max (Int.log 2 q - 52) (-1074)

/-- The bits of a positive double. Below `2 ^ 52` there is no leading digit that is left out. -/
def positiveBits (q : ℚ) : Nat :=
  let m := (q / 2 ^ doubleExp q).floor.toNat
  if m < 2 ^ 52 then m else (doubleExp q + 1075).toNat * 2 ^ 52 + (m - 2 ^ 52)

/-- The bits of a float (`struct.pack("<d", value)` of the client). -/
def doubleBits : PyFloat → Nat
  | .nan => 2047 * 2 ^ 52 + 2 ^ 51
  | .pinf => 2047 * 2 ^ 52
  | .ninf => 2 ^ 63 + 2047 * 2 ^ 52
  | .negZero => 2 ^ 63
  | .fin q => if q = 0 then 0 else if 0 < q then positiveBits q else 2 ^ 63 + positiveBits (-q)

/-- The number that is not negative with these bits. -/
def positiveOf (n : Nat) : ℚ :=
  if n / 2 ^ 52 = 0 then n * 2 ^ (-1074 : Int) else (2 ^ 52 + n % 2 ^ 52 : Nat) * 2 ^ ((n / 2 ^ 52 : Nat) - 1075 : Int)

/-- The float with these bits. Simplified: there is one NaN. -/
def ofDoubleBits (n : Nat) : PyFloat :=
  if n % 2 ^ 63 / 2 ^ 52 = 2047 then
    (if n % 2 ^ 52 ≠ 0 then .nan else if n < 2 ^ 63 then .pinf else .ninf)
  else if n = 2 ^ 63 then .negZero
  else if n < 2 ^ 63 then .fin (positiveOf n)
  else .fin (-positiveOf (n - 2 ^ 63))

/-- Floats in eight bytes. -/
def doubles : FloatBytes where
  write f := leBytes 8 (doubleBits f)
  read bs := ofDoubleBits (ofLeBytes bs)
  eight _ := by simp [leBytes]

end Splitgill
