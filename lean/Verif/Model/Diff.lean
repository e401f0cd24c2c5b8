import Verif.Py.Value
/-!
# Model of `splitgill/diffing.py`: `diff` and `patch`
-/

namespace Splitgill

/-- An element of a `DiffOp` path: a dict key or a list index (diffing.py:136). -/
inductive PathEl
  | key (k : PyStr)
  | idx (i : Nat)
deriving DecidableEq, Repr

abbrev Path := List PathEl

/-- The `ops` dict of a `DiffOp` (diffing.py:138): its optional entries `dn` (new keys), `dd`
(deleted keys), `dc` (changed keys), `lc` (changed indexes), `ln` (new tail), `ld` (length to cut
to). -/
structure Ops where
  dn : Option Dict := none
  dd : Option (List PyStr) := none
  dc : Option Dict := none
  lc : Option (List (Nat × Value)) := none
  ln : Option (List Value) := none
  ld : Option Nat := none

/-- `bool(ops)`: the dict has an entry. -/
def Ops.truthy (o : Ops) : Bool :=
  o.dn.isSome || o.dd.isSome || o.dc.isSome || o.lc.isSome || o.ln.isSome || o.ld.isSome

/-- `DiffOp` (diffing.py:130-138). -/
structure DiffOp where
  path : Path
  ops : Ops

/-- `DictComparison` and `ListComparison` objects (diffing.py:145-158, 166, 219). -/
inductive Comparison
  | dict (path : Path) (left right : Dict)
  | list (path : Path) (left right : List Value)

/-- `x` if the collection is truthy (`if new_values: ops[...] = new_values`). -/
def nonEmpty {α : Type} (l : List α) : Option (List α) := if l.isEmpty then none else some l

/-- The `for key, left_value in self.left.items()` loop of `DictComparison.compare`
(diffing.py:193-212): the changes and the further comparisons, in order. -/
def dictLoop (path : Path) (right : Dict) : Dict → Dict × List Comparison
  | [] => ([], [])
  | (key, leftValue) :: rest =>
    let (changes, further) := dictLoop path right rest
    match aget key right with
    | none => (changes, further)
    | some rightValue =>
      if pyEq leftValue rightValue then (changes, further)
      else
        match leftValue, rightValue with
        | .dict l, .dict r => (changes, .dict (path ++ [.key key]) l r :: further)
        | .list l, .list r => (changes, .list (path ++ [.key key]) l r :: further)
        | _, _ => ((key, rightValue) :: changes, further)

/-- `DictComparison.compare` (diffing.py:171-216). -/
def dictCompare (path : Path) (left right : Dict) : Option DiffOp × List Comparison :=
  let newValues := right.filter (fun kv => !ahas kv.1 left)
  let deletedKeys := (akeys left).filter (fun k => !ahas k right)
  let (changes, further) := dictLoop path right left
  let ops : Ops := { dn := nonEmpty newValues, dd := nonEmpty deletedKeys, dc := nonEmpty changes }
  (if ops.truthy then some ⟨path, ops⟩ else none, further)

/-- What the loop of `ListComparison.compare` accumulates. -/
structure ListLoopResult where
  changes : List (Nat × Value) := []
  ln : Option (List Value) := none
  ld : Option Nat := none
  further : List Comparison := []

/-- The `enumerate(zip_longest(...))` loop of `ListComparison.compare` (diffing.py:238-268), from
index `index` on. A missing side differs from any value and ends the loop. -/
def listLoop (path : Path) : (index : Nat) → List Value → List Value → ListLoopResult
  | _, [], [] => {}
  | _, [], r :: rs => { ln := some (r :: rs) }
  | index, _ :: _, [] => { ld := some index }
  | index, l :: ls, r :: rs =>
    let res := listLoop path (index + 1) ls rs
    if pyEq l r then res
    else
      match l, r with
      | .dict a, .dict b => { res with further := .dict (path ++ [.idx index]) a b :: res.further }
      | .list a, .list b => { res with further := .list (path ++ [.idx index]) a b :: res.further }
      | _, _ => { res with changes := (index, r) :: res.changes }

/-- `ListComparison.compare` (diffing.py:225-272). -/
def listCompare (path : Path) (left right : List Value) : Option DiffOp × List Comparison :=
  let res := listLoop path 0 left right
  let ops : Ops := { ln := res.ln, ld := res.ld, lc := nonEmpty res.changes }
  (if ops.truthy then some ⟨path, ops⟩ else none, res.further)

/-- `comparison.compare()` -/
def Comparison.compare : Comparison → Option DiffOp × List Comparison
  | .dict path left right => dictCompare path left right
  | .list path left right => listCompare path left right

/-- The `while queue` loop of `diff` (diffing.py:307-314). `fuel` bounds the iterations; `diff`
passes enough (see `bfs_fuel`), so the bound is never reached. -/
def bfs : (fuel : Nat) → List Comparison → List DiffOp
  | 0, _ => []
  | _, [] => []
  | fuel + 1, c :: queue =>
    let (op, further) := c.compare
    op.toList ++ bfs fuel (queue ++ further)

/-- `list(diff(base, new))` (diffing.py:284-314). -/
def diff (base new : Value) : Except PyErr (List DiffOp) :=
  if pyEq base new then .ok []
  else
    match base, new with
    | .dict b, .dict n => .ok (bfs (Value.dict b).size [.dict [] b n])
    | _, _ => .error .diffingType

/-! ## patch -/

/-- `del target[key]` for each key (diffing.py:362-364). -/
def delKeys : List PyStr → Dict → Except PyErr Dict
  | [], d => .ok d
  | k :: ks, d => if ahas k d then delKeys ks (aerase k d) else .error .keyError

/-- `target[index] = value` for each change (diffing.py:367-369). -/
def setIndexes : List (Nat × Value) → List Value → Except PyErr (List Value)
  | [], l => .ok l
  | (i, v) :: r, l => if i < l.length then setIndexes r (l.set i v) else .error .indexError

/-- `if key in op: target.update(op[key])` -/
def updateIf (d : Dict) : Option Dict → Dict
  | some e => aupdate d e
  | none => d

/-- `if "dd" in op: for key in op["dd"]: del target[key]` -/
def delKeysIf (d : Dict) : Option (List PyStr) → Except PyErr Dict
  | some ks => delKeys ks d
  | none => .ok d

/-- `if "lc" in op: for index, value in op["lc"]: target[index] = value` -/
def setIndexesIf (l : List Value) : Option (List (Nat × Value)) → Except PyErr (List Value)
  | some cs => setIndexes cs l
  | none => .ok l

/-- `if "ln" in op: target.extend(op["ln"])` -/
def extendIf (l : List Value) : Option (List Value) → List Value
  | some vs => l ++ vs
  | none => l

/-- `if "ld" in op: del target[op["ld"]:]` -/
def truncIf (l : List Value) : Option Nat → List Value
  | some n => l.take n
  | none => l

/-- The op dict applied to its target container (diffing.py:357-373).  List ops on a dict and dict ops
on a list raise in Python, except `lc` on a dict, which would store an int key (`unsupported`). -/
def applyOps (o : Ops) : Value → Except PyErr Value
  | .dict d => do
    let d := updateIf d o.dc
    let d := updateIf d o.dn
    let d ← delKeysIf d o.dd
    match o.lc with
    | some (_ :: _) => .error .unsupported
    | _ =>
      match o.ln with
      | some _ => .error .attributeError
      | none =>
        match o.ld with
        | some _ => .error .typeError
        | none => .ok (.dict d)
  | .list l => do
    match o.dc with
    | some _ => .error .attributeError
    | none =>
      match o.dn with
      | some _ => .error .attributeError
      | none =>
        match o.dd with
        | some (_ :: _) => .error .typeError
        | _ => do
          let l ← setIndexesIf l o.lc
          let l := extendIf l o.ln
          let l := truncIf l o.ld
          .ok (.list l)
  | _ => .error .attributeError

/-- Walk down `path` copying each container, apply the ops at the end (diffing.py:350-373).  Copying a
container before changing it means the functional update below is what `new` becomes. -/
def applyAt (o : Ops) : Path → Value → Except PyErr Value
  | [], v => applyOps o v
  | .key k :: p, .dict d =>
    match aget k d with
    | some v => do .ok (.dict (aset k (← applyAt o p v) d))
    | none => .error .keyError
  | .idx i :: p, .list l =>
    match l[i]? with
    | some v => do .ok (.list (l.set i (← applyAt o p v)))
    | none => .error .indexError
  | .idx _ :: _, .dict _ => .error .keyError
  | .key _ :: _, .list _ => .error .typeError
  | _ :: _, _ => .error .attributeError

/-- `patch(base, ops)` (diffing.py:322-375). Without ops the base itself is returned; `base.copy()`
of a non-container raises. -/
def patch (base : Value) (ops : List DiffOp) : Except PyErr Value :=
  ops.foldlM (fun v op => applyAt op.ops op.path v) base

end Splitgill
