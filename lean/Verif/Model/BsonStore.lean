import Verif.Model.Size
import Verif.Model.DoubleBytes
import Verif.Model.OptionsBytes
import Verif.Spec.BsonBytes
/-!
# Calls that work on the bytes in MongoDB

MongoDB's client writes each document as BSON (`bulk_write`, manager.py:328, 396) and makes dicts from BSON when it reads
documents (`find`), from which splitgill makes `MongoRecord`s (ingest.py:84-85, 191-192, manager.py:438). Here all data and
the options are read from their bytes before each call. Simplified: the locks are kept as they are, and the ObjectIds are left out.
-/

namespace Splitgill

/-- The data collection of the database read from its bytes (`MongoRecord(**doc)`, ingest.py:84-85, 191-192, manager.py:438), and the options
from theirs (manager.py:422-426); `none` if a document cannot be read. -/
def Mongo.reread (db : PyStr) (m : Mongo) : Option Mongo :=
  ((m.data db).mapM (fun r => readRecord doubles (r.bytes doubles))).bind fun data =>
  (m.options.mapM (fun d => (readDocument doubles (bsonBytes doubles d.toBson)).bind OptDoc.ofBson)).map fun options =>
    { m.setData db data with options := options }

/-- Calls (manager.py:250-396) one after the other (see `afterSized`), each of which works on what is read from the bytes that the one before has left. -/
def afterBytes (U : Unicode) (db : PyStr) (limit : Nat) (m : Mongo) : List (ApiCall × Reached) → Option Mongo
  | [] => m.reread db
  | c :: calls => (m.reread db).bind (fun m => afterBytes U db limit (c.1.runSized U db limit c.2 m).2 calls)

end Splitgill
