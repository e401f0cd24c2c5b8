import Verif.Model.Size
import Verif.Spec.Crash
/-!
# Specification of calls that are refused for the size of a document
-/

namespace Splitgill

/-- What a call is when it ends or is stopped: itself; an ingest or a rollback that stops after some of its writes; or a commit that stops
half way and releases the lock, after what an ingest or a change of options does before it. -/
inductive StepsOf : ApiCall → List Step → Prop
  | done (c) : StepsOf c [.call c]
  | ingest (mf rs doCommit clock n) : StepsOf (.ingest mf rs doCommit clock) [.ingestStops mf rs n]
  | rollback (n) : StepsOf .rollbackRecords [.rollbackStops n]
  | commit (clock picks) : StepsOf (.commit clock) [.commitStops clock picks false]
  | ingestCommit (mf rs clock picks) : StepsOf (.ingest mf rs true clock) [.call (.ingest mf rs false clock), .commitStops clock picks false]
  | optionsCommit (o clock picks) : StepsOf (.updateOptions o true clock) [.call (.updateOptions o false clock), .commitStops clock picks false]

end Splitgill
