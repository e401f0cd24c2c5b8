import Verif.Model.Names
import Verif.Model.Parse
/-!
# Model of `get_current_indices` (`splitgill/manager.py:126-134`)
-/

namespace Splitgill

/-- `get_current_indices()` of one of the databases (manager.py:126-134): the names that match `wildcard`, sorted. -/
def Cluster.currentIndices {P : Type} (db : PyStr) (c : Cluster P) : List PyStr :=
  sortBy strLe ((c.matching (wildcardName db)).map (fun x => indexName x.1.1 x.1.2))

end Splitgill
