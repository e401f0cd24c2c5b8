import Verif.Model.BsonBytes
import Verif.Spec.Json
import Verif.Spec.Bson
/-!
# Specification vocabulary: values that BSON can hold
-/

namespace Splitgill

mutual
/-- All names of fields inside. -/
def NamesAll (q : PyStr → Prop) : Value → Prop
  | .list l => NamesAllList q l
  | .dict d => NamesAllDict q d
  | _ => True
def NamesAllList (q : PyStr → Prop) : List Value → Prop
  | [] => True
  | v :: r => NamesAll q v ∧ NamesAllList q r
def NamesAllDict (q : PyStr → Prop) : Dict → Prop
  | [] => True
  | (k, v) :: r => (q k ∧ NamesAll q v) ∧ NamesAllDict q r
end

/-- A name without NUL. -/
def NoNul (s : PyStr) : Prop := '\x00' ∉ s

/-- A float that is kept. -/
def FloatBytes.Keeps (F : FloatBytes) (v : Value) : Prop := ∀ f, v = .float f → F.read (F.write f) = f

/-- A number that is a float of Python: 53 binary digits, and an exponent within limits. -/
def FiniteDouble (q : ℚ) : Prop := ∃ m e : ℤ, |m| < 2 ^ 53 ∧ -1074 ≤ e ∧ e ≤ 971 ∧ q = m * 2 ^ e

/-- BSON can hold the value: the ints fit into 64 bits, floats are kept, and no name has a NUL. -/
def Bsonable (F : FloatBytes) (v : Value) : Prop := AllLeaves (fun v => Int64 v ∧ F.Keeps v) v ∧ NamesAll NoNul v

/-- The names in the values of a diff. -/
structure DiffOp.Names (p : PyStr → Prop) (o : DiffOp) : Prop where
  dn : ∀ d, o.ops.dn = some d → NamesAllDict p d
  dc : ∀ d, o.ops.dc = some d → NamesAllDict p d
  lc : ∀ cs, o.ops.lc = some cs → ∀ c ∈ cs, NamesAll p c.2
  ln : ∀ l, o.ops.ln = some l → NamesAllList p l

/-- The names in the data and diffs of a record. -/
structure MongoRecord.Names (p : PyStr → Prop) (r : MongoRecord) : Prop where
  data : NamesAllDict p r.data
  diffs : ∀ vd ∈ r.diffs, ∀ o ∈ vd.2, o.Names p

mutual
/-- All lists inside have less than `2 ^ 63` items, as lists of Python do. -/
def ShortLists : Value → Prop
  | .list l => l.length < 2 ^ 63 ∧ ShortListsList l
  | .dict d => ShortListsDict d
  | _ => True
def ShortListsList : List Value → Prop
  | [] => True
  | v :: r => ShortLists v ∧ ShortListsList r
def ShortListsDict : Dict → Prop
  | [] => True
  | (_, v) :: r => ShortLists v ∧ ShortListsDict r
end

/-- A position that fits into 64 bits: no list of Python has more items. -/
def PathEl.Fits : PathEl → Prop
  | .key _ => True
  | .idx i => i < 2 ^ 63

/-- The positions in a diff fit into 64 bits. -/
structure DiffOp.Fits (o : DiffOp) : Prop where
  path : ∀ e ∈ o.path, e.Fits
  lc : ∀ cs, o.ops.lc = some cs → ∀ c ∈ cs, c.1 < 2 ^ 63
  ld : ∀ n, o.ops.ld = some n → n < 2 ^ 63

/-- The version and the positions in the diffs fit into 64 bits. -/
structure MongoRecord.NumbersFit (r : MongoRecord) : Prop where
  version : ∀ v, r.version = some v → -2 ^ 63 ≤ v ∧ v < 2 ^ 63
  diffs : ∀ vd ∈ r.diffs, ∀ o ∈ vd.2, o.Fits

/-- The bytes of a record in MongoDB. -/
def MongoRecord.bytes (F : FloatBytes) (r : MongoRecord) : List UInt8 := bsonBytes F r.toBson

/-- The record that is read from bytes. -/
def readRecord (F : FloatBytes) (bs : List UInt8) : Option MongoRecord := (readDocument F bs).bind MongoRecord.ofBson

end Splitgill
