/-!
# Python values

The JSON-like Python values that splitgill stores (`None`, `bool`, `int`, `float`, `str`, `list`,
`dict` with `str` keys) and Python's `==` on them.
-/

namespace Splitgill

/-- A Python `str`, as its list of characters (lone surrogates are not representable). -/
abbrev PyStr := List Char

/-- A Python `float`.  `fin q` is a finite float with the (dyadic) rational value `q`, other than
negative zero.  The model does not restrict `q` to the doubles: a superset of the floats. -/
inductive PyFloat
  | nan | pinf | ninf | negZero | fin (q : Rat)
deriving DecidableEq, Repr

/-- A Python value as stored by splitgill (the result type of `prepare_data`,
`/repo/splitgill/diffing.py:46-48`).  A dict is its list of items in insertion order. -/
inductive Value
  | none
  | bool (b : Bool)
  | int (i : Int)
  | float (f : PyFloat)
  | str (s : PyStr)
  | list (l : List Value)
  | dict (d : List (PyStr × Value))

/-- A Python `dict` with `str` keys in insertion order. -/
abbrev Dict := List (PyStr × Value)

instance : Inhabited Value := ⟨.none⟩

/-- Python exceptions that the modelled code can raise. -/
inductive PyErr
  | keyError | indexError | typeError | attributeError | valueError
  /-- `splitgill.diffing.DiffingTypeComparisonException` -/
  | diffingType
  /-- `elasticsearch.NotFoundError` -/
  | notFound
  /-- behaviour outside the value universe of the model (e.g. an int key put into a dict) -/
  | unsupported
deriving DecidableEq, Repr

/-! ## Dict operations (association lists) -/

section Assoc
variable {κ : Type} [DecidableEq κ] {α : Type}

/-- `d.get(k)` -/
def aget (k : κ) : List (κ × α) → Option α
  | [] => .none
  | (k', v) :: r => if k = k' then some v else aget k r

/-- `k in d` -/
def ahas (k : κ) (d : List (κ × α)) : Bool := (aget k d).isSome

/-- `d[k] = v`: replaces in place, or appends. -/
def aset (k : κ) (v : α) : List (κ × α) → List (κ × α)
  | [] => [(k, v)]
  | (k', v') :: r => if k = k' then (k', v) :: r else (k', v') :: aset k v r

/-- `d` without key `k` (`del d[k]` when present). -/
def aerase (k : κ) : List (κ × α) → List (κ × α)
  | [] => []
  | (k', v') :: r => if k = k' then r else (k', v') :: aerase k r

/-- `d.update(e)` -/
def aupdate (d e : List (κ × α)) : List (κ × α) :=
  e.foldl (fun acc kv => aset kv.1 kv.2 acc) d

/-- The keys of a dict. -/
def akeys (d : List (κ × α)) : List κ := d.map Prod.fst

/-- A dict built from a sequence of items, `{k: v for k, v in items}`: last value wins, position of
the first occurrence is kept. -/
def aofList (l : List (κ × α)) : List (κ × α) := aupdate [] l

end Assoc

/-! ## Equality -/

/-- Numeric value of a number (`bool`s are numbers, `-0.0` is `0`). -/
def Value.num : Value → Option PyFloat
  | .bool b => some (.fin (if b then 1 else 0))
  | .int i => some (.fin i)
  | .float .negZero => some (.fin 0)
  | .float f => some f
  | _ => .none

/-- Python's `==` on scalars. `True == 1 == 1.0`, `nan != nan`. -/
def pyScalarEq (a b : Value) : Bool :=
  match a, b with
  | .none, .none => true
  | .str s, .str t => decide (s = t)
  | a, b =>
    match a.num, b.num with
    | some x, some y => decide (x = y) && decide (x ≠ .nan)
    | _, _ => false

/-- As `pyScalarEq`, but a NaN is the same as a NaN: an equivalence relation. -/
def simScalarEq (a b : Value) : Bool :=
  match a, b with
  | .none, .none => true
  | .str s, .str t => decide (s = t)
  | a, b =>
    match a.num, b.num with
    | some x, some y => decide (x = y)
    | _, _ => false

/-- Same type and same value. -/
def strictScalarEq (a b : Value) : Bool :=
  match a, b with
  | .none, .none => true
  | .bool x, .bool y => decide (x = y)
  | .int x, .int y => decide (x = y)
  | .float x, .float y => decide (x = y)
  | .str s, .str t => decide (s = t)
  | _, _ => false

mutual
/-- Structural equality of values: lists elementwise, dicts ignoring key order, scalars by `c`. -/
def eqWith (c : Value → Value → Bool) : Value → Value → Bool
  | .list a, .list b => eqListWith c a b
  | .dict a, .dict b => a.length == b.length && eqDictWith c a b
  | .list _, _ => false
  | .dict _, _ => false
  | _, .list _ => false
  | _, .dict _ => false
  | a, b => c a b
/-- Elementwise equality of lists. -/
def eqListWith (c : Value → Value → Bool) : List Value → List Value → Bool
  | [], [] => true
  | a :: as, b :: bs => eqWith c a b && eqListWith c as bs
  | _, _ => false
/-- Every item of the first dict is in the second. -/
def eqDictWith (c : Value → Value → Bool) : Dict → Dict → Bool
  | [], _ => true
  | (k, v) :: r, b =>
    (match aget k b with | some w => eqWith c v w | .none => false) && eqDictWith c r b
end

/-- Python's `a == b`. -/
def pyEq : Value → Value → Bool := eqWith pyScalarEq
/-- Python's `a == b`, except that a NaN equals a NaN. -/
def simEq : Value → Value → Bool := eqWith simScalarEq
/-- Same data with the same types; only the order of dict keys may differ. -/
def strictEq : Value → Value → Bool := eqWith strictScalarEq

mutual
/-- Well-formed: no dict at any depth has a repeated key. -/
def Value.wf : Value → Bool
  | .list l => wfList l
  | .dict d => decide (akeys d).Nodup && wfDict d
  | _ => true
def wfList : List Value → Bool
  | [] => true
  | v :: r => v.wf && wfList r
def wfDict : Dict → Bool
  | [] => true
  | (_, v) :: r => v.wf && wfDict r
end

mutual
/-- Number of nodes. -/
def Value.size : Value → Nat
  | .list l => 1 + sizeList l
  | .dict d => 1 + sizeDict d
  | _ => 1
def sizeList : List Value → Nat
  | [] => 0
  | v :: r => v.size + sizeList r
def sizeDict : Dict → Nat
  | [] => 0
  | (_, v) :: r => v.size + sizeDict r
end

/-- Python truthiness of a dict: `not d` iff it is empty. -/
def dictTruthy (d : Dict) : Bool := !d.isEmpty

end Splitgill
