import Verif.Model.Diff
/-!
# Specification vocabulary for values
-/

namespace Splitgill

/-- The value found by following a path of keys and indexes, if it exists. -/
def getAt : Path → Value → Option Value
  | [], v => some v
  | .key k :: p, .dict d => (aget k d).bind (getAt p)
  | .idx i :: p, .list l => (l[i]?).bind (getAt p)
  | _ :: _, _ => none

/-- A value that is not a container. -/
def Value.isScalar : Value → Bool
  | .list _ => false
  | .dict _ => false
  | _ => true

/-- No place holds, in the two values, two scalars that Python considers equal although they are
different (`True`/`1`/`1.0`, `0.0`/`-0.0`). -/
def NoPun (a b : Value) : Prop :=
  ∀ p v w, getAt p a = some v → getAt p b = some w → v.isScalar = true → w.isScalar = true →
    pyEq v w = true → v = w

/-- A `DiffOp`'s ops contain an actual change: a non-empty entry, or a truncation. -/
def Ops.nontrivial (o : Ops) : Prop :=
  (∃ e, o.dn = some e ∧ e ≠ []) ∨ (∃ e, o.dd = some e ∧ e ≠ []) ∨ (∃ e, o.dc = some e ∧ e ≠ []) ∨
  (∃ e, o.lc = some e ∧ e ≠ []) ∨ (∃ e, o.ln = some e ∧ e ≠ []) ∨ (∃ n, o.ld = some n)

end Splitgill
