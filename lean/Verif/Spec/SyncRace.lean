import Verif.Spec.Each
import Verif.Spec.Procs
/-!
# Syncs while others ingest and commit
-/

namespace Splitgill

/-- A sync, with the calls before it (since the sync before it), the calls that others make while it runs, and what its cursor gives for
each filter. -/
structure BusySync where
  before : List ApiCall
  meanwhile : List ApiCall
  cursor : (MongoRecord → Bool) → List MongoRecord

/-- All calls of it. -/
def BusySync.calls (b : BusySync) : List ApiCall := b.before ++ b.meanwhile

/-- The sync with the states of the database when it starts and after each of the calls of others, if `calls` were made first. -/
def BusySync.long (U : Unicode) (db : PyStr) (calls : List ApiCall) (b : BusySync) : LongSync where
  start := afterCalls U db (calls ++ b.before)
  others := (statesOf U db (calls ++ b.before) (b.meanwhile.map (fun c => [c]))).tail
  cursor := b.cursor

/-- Several such syncs, one after the other. -/
def longSyncs (U : Unicode) (db : PyStr) (calls : List ApiCall) : List BusySync → List LongSync
  | [] => []
  | b :: bs => b.long U db calls :: longSyncs U db (calls ++ b.calls) bs

/-- `extra t m` for the state `m` at the start of each sync but the first, with `t` the last clock value before the sync before it ended. -/
def BetweenSyncs (extra : Int → Mongo → Prop) (U : Unicode) (db : PyStr) (calls : List ApiCall) : List BusySync → Prop
  | [] => True
  | [_] => True
  | b :: b' :: bs =>
    (∀ t, ((calls ++ b.calls).filterMap ApiCall.clock?).getLast? = some t → extra t (afterCalls U db (calls ++ b.calls ++ b'.before))) ∧
      BetweenSyncs extra U db (calls ++ b.calls) (b' :: bs)

/-- A record that nobody ingests while a sync runs. The other conditions are those of `QuietRecord`: it has nothing uncommitted when syncs
start, it is not changed and then deleted between two syncs, and no two data given for it hold equal but different scalars at the same
place. Nothing is said about other records. -/
structure UndisturbedRecord (U : Unicode) (db : PyStr) (bs : List BusySync) (id : PyStr) : Prop where
  notIngested : ∀ b ∈ bs, ∀ c ∈ b.meanwhile, ∀ r ∈ c.stream, r.id ≠ id
  noPending : ∀ l ∈ longSyncs U db [] bs, NoPendingOf db id l.start
  noUpdateDelete : BetweenSyncs (NoUpdateDeleteOf db id) U db [] bs
  noPuns : NoPunsAmong U (((bs.flatMap BusySync.calls).flatMap ApiCall.stream).filter (fun r => decide (r.id = id)))

/-- Syncs whose cursors read the states of the database meanwhile, and during which no options are committed. -/
structure SyncsRead (U : Unicode) (db : PyStr) (bs : List BusySync) : Prop where
  cursors : ∀ l ∈ longSyncs U db [] bs, ∀ sel, Scanned db l.during sel (l.cursor sel)
  options : ∀ l ∈ longSyncs U db [] bs, ∀ m ∈ l.during, committedOptionsOf db m = committedOptionsOf db l.start

end Splitgill
