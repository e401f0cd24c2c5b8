import Verif.Spec.WriterHist
/-!
# Specification: the steps of an ingest
-/

namespace Splitgill

/-- The action is a step of the process `p`. -/
def WriterAct.isStep (p : Nat) : WriterAct → Bool
  | .step q _ _ => decide (q = p)
  | _ => false

/-- None of the commands of the process raises, and it does not die. -/
def Undisturbed (p : Nat) (acts : List WriterAct) : Prop := ∀ a ∈ acts, a ≠ .raise p ∧ a ≠ .crash p

end Splitgill
