import Mathlib.Data.Rat.Floor
import Mathlib.Algebra.Ring.Parity
/-!
# Floats
-/

namespace Splitgill

/-- The rational numbers that are floats (but for the limits of the exponent): 53 bits and an exponent. -/
def IsDouble (r : ℚ) : Prop := ∃ m e : ℤ, |m| < 2 ^ 53 ∧ r = m * 2 ^ e

/-- A float that is closest to a number. -/
def IsNearest (x r : ℚ) : Prop := IsDouble r ∧ ∀ s, IsDouble s → |x - r| ≤ |x - s|

/-- The float a number is rounded to: the closest one, and of two closest ones that with an even last digit. -/
def IsRounded (x r : ℚ) : Prop :=
  IsNearest x r ∧ ∀ s, IsNearest x s → s ≠ r → ∃ m k e : ℤ, r = m * 2 ^ e ∧ s = k * 2 ^ e ∧ |m - k| = 1 ∧ Even m

end Splitgill
