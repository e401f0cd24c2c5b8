import Verif.Model.Size
import Verif.Model.NumberText
/-!
# Model of the bytes that records are stored as (`bulk_write` in `splitgill/manager.py:324-328, 386-396`, `find` in
`splitgill/manager.py:428-439` and `splitgill/ingest.py:83-86, 190-192`)

The client of MongoDB writes documents in BSON (bsonspec.org, version 1.1), and reads them from it. Simplified: of the types of BSON there are those
that the data has; ObjectIds are left out; and what the server does with the bytes is not modelled: it gives back what it got.
-/

namespace Splitgill

/-- A number of `k` bytes, the lowest first. -/
def leBytes : Nat → Nat → List UInt8
  | 0, _ => []
  | k + 1, n => UInt8.ofNat (n % 256) :: leBytes k (n / 256)

/-- The number. -/
def ofLeBytes : List UInt8 → Nat
  | [] => 0
  | b :: r => b.toNat + 256 * ofLeBytes r

/-- An int of `k` bytes, in two's complement. -/
def signedBytes (k : Nat) (i : Int) : List UInt8 := leBytes k (i % 2 ^ (8 * k)).toNat

/-- The int. -/
def ofSigned (bs : List UInt8) : Int :=
  if ofLeBytes bs < 2 ^ (8 * bs.length - 1) then ofLeBytes bs else (ofLeBytes bs : Int) - 2 ^ (8 * bs.length)

/-- How floats are written in eight bytes, and read. -/
structure FloatBytes where
  write : PyFloat → List UInt8
  read : List UInt8 → PyFloat
  eight : ∀ f, (write f).length = 8

/-- A text in UTF-8. -/
def utf8 (s : PyStr) : List UInt8 := s.flatMap String.utf8EncodeChar

/-- The text; `none` if it is not UTF-8. -/
def readUtf8 (bs : List UInt8) : Option PyStr := bs.toByteArray.utf8Decode?.map Array.toList

/-- The byte for the type of a value. -/
def bsonType : Value → UInt8
  | .none => 0x0A
  | .bool _ => 0x08
  | .int i => if -2 ^ 31 ≤ i ∧ i < 2 ^ 31 then 0x10 else 0x12
  | .float _ => 0x01
  | .str _ => 0x02
  | .list _ => 0x04
  | .dict _ => 0x03

mutual
/-- A value in BSON, without its type. -/
def bsonBytes (F : FloatBytes) : Value → List UInt8
  | .none => []
  | .bool b => [if b then 1 else 0]
  | .int i => if -2 ^ 31 ≤ i ∧ i < 2 ^ 31 then signedBytes 4 i else signedBytes 8 i
  | .float f => F.write f
  | .str s => leBytes 4 ((utf8 s).length + 1) ++ utf8 s ++ [0]
  | .list l => leBytes 4 ((bsonItems F 0 l).length + 5) ++ bsonItems F 0 l ++ [0]
  | .dict d => leBytes 4 ((bsonFields F d).length + 5) ++ bsonFields F d ++ [0]
/-- The items of a list from the `i`-th: they are stored with their indexes as keys. -/
def bsonItems (F : FloatBytes) : Nat → List Value → List UInt8
  | _, [] => []
  | i, v :: r => bsonType v :: (utf8 (intStr i) ++ 0 :: (bsonBytes F v ++ bsonItems F (i + 1) r))
/-- The fields of a dict. -/
def bsonFields (F : FloatBytes) : Dict → List UInt8
  | [] => []
  | (k, v) :: r => bsonType v :: (utf8 k ++ 0 :: (bsonBytes F v ++ bsonFields F r))
end

/-- The bytes up to the first that is zero, and those after it. -/
def readCString : List UInt8 → Option (List UInt8 × List UInt8)
  | [] => none
  | b :: r => if b = 0 then some ([], r) else (readCString r).map (fun x => (b :: x.1, x.2))

/-- The bytes of a document or list between its length and the zero at its end, and those after it. -/
def readBody (bs : List UInt8) : Option (List UInt8 × List UInt8) :=
  let n := ofLeBytes (bs.take 4)
  if n < 5 ∨ bs.length < n then none
  else if (bs.drop (n - 1)).head? = some 0 then some ((bs.drop 4).take (n - 5), bs.drop n)
  else none

mutual
/-- Reading a value of a type, and the bytes after it. The number bounds the steps. -/
def readBson (F : FloatBytes) : Nat → UInt8 → List UInt8 → Option (Value × List UInt8)
  | 0, _, _ => none
  | n + 1, t, bs =>
    if t = 0x0A then some (.none, bs)
    else if t = 0x08 then
      match bs with
      | b :: r => if b = 0 then some (.bool false, r) else if b = 1 then some (.bool true, r) else none
      | [] => none
    else if t = 0x10 then (if bs.length < 4 then none else some (.int (ofSigned (bs.take 4)), bs.drop 4))
    else if t = 0x12 then (if bs.length < 8 then none else some (.int (ofSigned (bs.take 8)), bs.drop 8))
    else if t = 0x01 then (if bs.length < 8 then none else some (.float (F.read (bs.take 8)), bs.drop 8))
    else if t = 0x02 then
      let k := ofLeBytes (bs.take 4)
      if k < 1 ∨ bs.length < 4 + k then none
      else if (bs.drop (3 + k)).head? = some 0 then
        (readUtf8 ((bs.drop 4).take (k - 1))).map (fun s => (.str s, bs.drop (4 + k)))
      else none
    else if t = 0x04 then
      (readBody bs).bind (fun x => (readBsonFields F n x.1).map (fun d => (.list (d.map Prod.snd), x.2)))
    else if t = 0x03 then
      (readBody bs).bind (fun x => (readBsonFields F n x.1).map (fun d => (.dict d, x.2)))
    else none
/-- Reading fields up to the end. Simplified: that a name should not be there twice is not checked. -/
def readBsonFields (F : FloatBytes) : Nat → List UInt8 → Option Dict
  | 0, _ => none
  | _ + 1, [] => some []
  | n + 1, t :: bs =>
    (readCString bs).bind (fun x => (readUtf8 x.1).bind (fun k =>
      (readBson F n t x.2).bind (fun y => (readBsonFields F n y.2).map (fun d => (k, y.1) :: d))))
end

/-- Reading a document. -/
def readDocument (F : FloatBytes) (bs : List UInt8) : Option Value :=
  match readBson F (bs.length + 1) 0x03 bs with
  | some (v, []) => some v
  | _ => none

/-! ## Records -/

/-- An element of a path in a diff, as it is read (diffing.py:136). -/
def PathEl.ofBson : Value → Option PathEl
  | .str k => some (.key k)
  | .int (.ofNat i) => some (.idx i)
  | _ => none

/-- A text. -/
def strOf : Value → Option PyStr
  | .str s => some s
  | _ => none

/-- A dict. -/
def dictOf : Value → Option Dict
  | .dict d => some d
  | _ => none

/-- A list. -/
def listOf : Value → Option (List Value)
  | .list l => some l
  | _ => none

/-- A length or an index. -/
def natOf : Value → Option Nat
  | .int (.ofNat i) => some i
  | _ => none

/-- A change of an item of a list (diffing.py:261-266). -/
def changeOf : Value → Option (Nat × Value)
  | .list [i, v] => (natOf i).map (fun i => (i, v))
  | _ => none

/-- A field that need not be there. -/
def fieldOf {α : Type} (f : Value → Option α) (k : String) (d : Dict) : Option (Option α) :=
  match aget k.toList d with
  | none => some none
  | some v => (f v).map some

/-- The `ops` of a diff, as they are read (diffing.py:138, 322-375). -/
def Ops.ofBson (v : Value) : Option Ops :=
  (dictOf v).bind fun d =>
  (fieldOf dictOf "dn" d).bind fun dn => (fieldOf (fun v => (listOf v).bind (fun l => l.mapM strOf)) "dd" d).bind fun dd =>
  (fieldOf dictOf "dc" d).bind fun dc => (fieldOf listOf "ln" d).bind fun ln => (fieldOf natOf "ld" d).bind fun ld =>
  (fieldOf (fun v => (listOf v).bind (fun l => l.mapM changeOf)) "lc" d).map fun lc => { dn, dd, dc, lc, ln, ld }

/-- A `DiffOp`, as it is read: a list of a path and of `ops` (diffing.py:322-375). -/
def DiffOp.ofBson : Value → Option DiffOp
  | .list [.list path, ops] => (path.mapM PathEl.ofBson).bind fun path => (Ops.ofBson ops).map fun ops => ⟨path, ops⟩
  | _ => none

/-- The diffs of one version; `int(version)` (model.py:86, 103). -/
def versionDiffs (x : PyStr × Value) : Option (Int × List DiffOp) :=
  (signedDigits x.1).bind fun v => (listOf x.2).bind fun l => (l.mapM DiffOp.ofBson).map fun ops => (v, ops)

/-- `MongoRecord(**doc)` (model.py:43-54, manager.py:438), without the ObjectId. -/
def MongoRecord.ofBson (v : Value) : Option MongoRecord :=
  (dictOf v).bind fun d =>
  ((aget "id".toList d).bind strOf).bind fun id => ((aget "data".toList d).bind dictOf).bind fun data =>
  (match aget "version".toList d with | some .none => some none | some (.int v) => some (some v) | _ => none).bind fun version =>
  (fieldOf dictOf "diffs" d).bind fun diffs => (((diffs.getD []).mapM versionDiffs)).map fun diffs =>
    { id, version, data, diffs }

end Splitgill
