import Verif.Model.Zeros
import Verif.Spec.Filter
/-!
# Specification: negative zeros
-/

namespace Splitgill

/-- The value is `-0.0`, or a text that reads as it, like `"-0"`. -/
def IsNegZero (E : ParseEnv) (o : ParsingOptions) : Value → Prop
  | .int _ => False
  | .float f => f = .negZero
  | v => E.toNumber (textOf E o v) = some .negZero

/-- Does `-0.0` keep the bounds, if it is the number just before `0`? -/
def Bounds.HoldsNegZero (b : Bounds ℚ) : Prop :=
  (∀ y, b.gte = some y → y < 0) ∧ (∀ y, b.lt = some y → 0 ≤ y) ∧ (∀ y, b.gt = some y → y < 0) ∧ (∀ y, b.lte = some y → 0 ≤ y)

/-- There is no negative zero in the data. -/
def NoNegZeros (E : ParseEnv) (o : ParsingOptions) (d : Dict) : Prop :=
  ∀ p v, getAt p (.dict d) = some v → ¬ IsNegZero E o v

end Splitgill
