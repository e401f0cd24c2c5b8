import Verif.Model.OptionsBytes
import Verif.Model.DoubleBytes
/-!
# Specification: options that can be stored
-/

namespace Splitgill

/-- The options given to a call (manager.py:339-371). -/
def ApiCall.givenOptions : ApiCall → List ParsingOptions
  | .updateOptions o _ _ => [o]
  | _ => []

/-- The numbers of options are of 64 bits, and their document for the database is not too long, with whatever version (of eight bytes). -/
structure OptionsStorable (db : PyStr) (o : ParsingOptions) : Prop where
  keywordLength : -2 ^ 63 ≤ o.keywordLength ∧ o.keywordLength < 2 ^ 63
  segments : ∀ h ∈ o.geoHints, -2 ^ 63 ≤ h.segments ∧ h.segments < 2 ^ 63
  bytes : (bsonBytes doubles (OptDoc.mk db (some (2 ^ 62)) o.toDoc).toBson).length < 2 ^ 31

end Splitgill
