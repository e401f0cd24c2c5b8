import Verif.Model.Names
/-!
# Specification: an Elasticsearch that only databases write to, and their names
-/

namespace Splitgill

/-- An Elasticsearch as some databases can leave it with any number of syncs, resyncs and rebuilds of archives, in any order and of
whatever is in the stores. -/
inductive SyncedCluster {P : Type} (X : Parser P) (maxDocs : Nat) (dbs : List PyStr) : Cluster P → Prop
  | none : SyncedCluster X maxDocs dbs []
  | sync {c c' : Cluster P} {db : PyStr} {resync : Bool} {m : Mongo} : SyncedCluster X maxDocs dbs c → db ∈ dbs →
      c.sync X maxDocs db resync m = .ok c' → SyncedCluster X maxDocs dbs c'
  | arcs {c c' : Cluster P} {db : PyStr} {m : Mongo} : SyncedCluster X maxDocs dbs c → db ∈ dbs →
      c.resyncArcs X maxDocs db m = .ok c' → SyncedCluster X maxDocs dbs c'

/-- Names of databases that do not get into each other's way: no `*`, none is another one with a dash and more, or with `-arc`. -/
structure SeparateNames (dbs : List PyStr) : Prop where
  star : ∀ db ∈ dbs, '*' ∉ db
  apart : ∀ db ∈ dbs, ∀ d ∈ dbs, d ≠ db → ¬ (db ++ "-".toList) <+: d ∧ db ≠ d ++ "-arc".toList

end Splitgill
