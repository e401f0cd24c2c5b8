import Verif.Model.Diff
/-!
# Model of `patch` on a heap of mutable containers (`splitgill/diffing.py:322-375`)

`Verif/Model/Diff.lean` models `patch` as a function on values.  Here containers are objects in a heap,
can be shared arbitrarily, and `patch` is the sequence of allocations, reads and writes that the
Python code performs, so that "which containers are modified" can be stated.
-/

namespace Splitgill.Heap
open Splitgill

/-- A Python reference: a scalar (immutable) or the address of a container. -/
inductive Ref
  | scalar (v : Value)
  | addr (a : Nat)

/-- A mutable container. -/
inductive Obj
  | dict (d : List (PyStr × Ref))
  | list (l : List Ref)

/-- The heap; addresses are positions, new objects are appended. -/
abbrev Heap := List Obj

/-- The op dict of a `DiffOp`.  `dc`, `dn` and `ln` are containers in the heap (given by reference);
`dd` and `lc` are only iterated and hold no other mutable container than the values. -/
structure HOps where
  dc : Option Ref := none
  dn : Option Ref := none
  dd : Option (List PyStr) := none
  lc : Option (List (Nat × Ref)) := none
  ln : Option Ref := none
  ld : Option Nat := none

/-- The state threaded through: the heap and the result or the exception raised. -/
abbrev Res (α : Type) := Heap × Except PyErr α

/-- `x.copy()`: a new container with the same items. -/
def copy (h : Heap) : Ref → Res Nat
  | .scalar _ => (h, .error .attributeError)
  | .addr a =>
    match h[a]? with
    | some o => (h ++ [o], .ok h.length)
    | none => (h, .error .attributeError)

/-- Read `target[key_or_index]`. -/
def getItem (h : Heap) (target : Nat) (e : PathEl) : Except PyErr Ref :=
  match h[target]?, e with
  | some (.dict d), .key k => match aget k d with | some r => .ok r | none => .error .keyError
  | some (.dict _), .idx _ => .error .keyError
  | some (.list l), .idx i => match l[i]? with | some r => .ok r | none => .error .indexError
  | some (.list _), .key _ => .error .typeError
  | none, _ => .error .attributeError

/-- Write `target[key_or_index] = ref` (after a successful read of the same item). -/
def setItem (h : Heap) (target : Nat) (e : PathEl) (r : Ref) : Heap :=
  match h[target]?, e with
  | some (.dict d), .key k => h.set target (.dict (aset k r d))
  | some (.list l), .idx i => h.set target (.list (l.set i r))
  | _, _ => h

/-- The `for key_or_index in path` loop (diffing.py:350-355). -/
def walk (h : Heap) (target : Nat) : Path → Res Nat
  | [] => (h, .ok target)
  | e :: p =>
    match getItem h target e with
    | .error x => (h, .error x)
    | .ok r =>
      match copy h r with
      | (h, .error x) => (h, .error x)
      | (h, .ok targetCopy) => walk (setItem h target e (.addr targetCopy)) targetCopy p

/-- `target.update(op[...])` (diffing.py:358-361). -/
def update (h : Heap) (target : Nat) : Option Ref → Res Unit
  | none => (h, .ok ())
  | some (.scalar _) => (h, .error .typeError)
  | some (.addr e) =>
    match h[target]?, h[e]? with
    | some (.dict d), some (.dict new) => (h.set target (.dict (aupdate d new)), .ok ())
    | some (.dict _), _ => (h, .error .typeError)
    | _, _ => (h, .error .attributeError)

/-- `for key in op["dd"]: del target[key]` (diffing.py:362-364). -/
def delKeys (h : Heap) (target : Nat) : List PyStr → Res Unit
  | [] => (h, .ok ())
  | k :: ks =>
    match h[target]? with
    | some (.dict d) =>
      if ahas k d then delKeys (h.set target (.dict (aerase k d))) target ks
      else (h, .error .keyError)
    | _ => (h, .error .typeError)

/-- `for index, value in op["lc"]: target[index] = value` (diffing.py:367-369). -/
def setIndexes (h : Heap) (target : Nat) : List (Nat × Ref) → Res Unit
  | [] => (h, .ok ())
  | (i, r) :: rest =>
    match h[target]? with
    | some (.list l) =>
      if i < l.length then setIndexes (h.set target (.list (l.set i r))) target rest
      else (h, .error .indexError)
    | _ => (h, .error .unsupported)

/-- `target.extend(op["ln"])` (diffing.py:370-371). -/
def extend (h : Heap) (target : Nat) : Option Ref → Res Unit
  | none => (h, .ok ())
  | some (.scalar _) => (h, .error .typeError)
  | some (.addr e) =>
    match h[target]?, h[e]? with
    | some (.list l), some (.list new) => (h.set target (.list (l ++ new)), .ok ())
    | some (.list _), _ => (h, .error .typeError)
    | _, _ => (h, .error .attributeError)

/-- `del target[op["ld"]:]` (diffing.py:372-373). -/
def truncate (h : Heap) (target : Nat) : Option Nat → Res Unit
  | none => (h, .ok ())
  | some n =>
    match h[target]? with
    | some (.list l) => (h.set target (.list (l.take n)), .ok ())
    | _ => (h, .error .typeError)

/-- Sequencing: stop at the first exception, keeping the heap as it is then. -/
def Res.andThen {α β : Type} (r : Res α) (f : Heap → α → Res β) : Res β :=
  match r with
  | (h, .ok x) => f h x
  | (h, .error e) => (h, .error e)

/-- The ops applied to the target in place (diffing.py:357-373). -/
def applyOps (h : Heap) (target : Nat) (o : HOps) : Res Unit :=
  (update h target o.dc).andThen fun h _ =>
  (update h target o.dn).andThen fun h _ =>
  (delKeys h target (o.dd.getD [])).andThen fun h _ =>
  (setIndexes h target (o.lc.getD [])).andThen fun h _ =>
  (extend h target o.ln).andThen fun h _ =>
  truncate h target o.ld

/-- The `for path, op in ops` loop (diffing.py:346-373). -/
def patchLoop (h : Heap) (new : Nat) : List (Path × HOps) → Res Nat
  | [] => (h, .ok new)
  | (path, op) :: rest =>
    (walk h new path).andThen fun h target =>
    (applyOps h target op).andThen fun h _ =>
    patchLoop h new rest

/-- `patch(base, ops)` on a heap (diffing.py:322-375): returns the new heap and the reference
returned or the exception raised. -/
def patch (h : Heap) (base : Nat) (ops : List (Path × HOps)) : Res Nat :=
  if ops.isEmpty then (h, .ok base)
  else (copy h (.addr base)).andThen fun h new => patchLoop h new ops

end Splitgill.Heap
