import Verif.Model.PatchHeap
/-!
# What values objects in the heap stand for
-/

namespace Splitgill.Heap
open Splitgill

mutual
/-- A reference stands for a value: as it prints. Containers may be shared in any way. -/
def Reads (h : Heap) : Ref → Value → Prop
  | r, .dict dv => ∃ a d, r = .addr a ∧ h[a]? = some (.dict d) ∧ ReadsItems h d dv
  | r, .list lv => ∃ a l, r = .addr a ∧ h[a]? = some (.list l) ∧ ReadsElems h l lv
  | r, v => r = .scalar v
def ReadsItems (h : Heap) : List (PyStr × Ref) → Dict → Prop
  | d, [] => d = []
  | d, (k, v) :: rest => ∃ r d', d = (k, r) :: d' ∧ Reads h r v ∧ ReadsItems h d' rest
def ReadsElems (h : Heap) : List Ref → List Value → Prop
  | l, [] => l = []
  | l, v :: rest => ∃ r l', l = r :: l' ∧ Reads h r v ∧ ReadsElems h l' rest
end

/-- Both are missing, or both are there and related. -/
def Both {α β : Type} (R : α → β → Prop) : Option α → Option β → Prop
  | none, none => True
  | some a, some b => R a b
  | _, _ => False

/-- The indexes and values of `lc`. -/
def ReadsChanges (h : Heap) : List (Nat × Ref) → List (Nat × Value) → Prop
  | [], [] => True
  | (i, r) :: l, (j, v) :: m => i = j ∧ Reads h r v ∧ ReadsChanges h l m
  | _, _ => False

/-- An op dict with containers in the heap stands for one with values. -/
structure ReadsOps (h : Heap) (o : HOps) (ov : Ops) : Prop where
  dc : Both (fun r d => Reads h r (.dict d)) o.dc ov.dc
  dn : Both (fun r d => Reads h r (.dict d)) o.dn ov.dn
  dd : o.dd = ov.dd
  lc : Both (ReadsChanges h) o.lc ov.lc
  ln : Both (fun r l => Reads h r (.list l)) o.ln ov.ln
  ld : o.ld = ov.ld

/-- The ops of a diff. -/
def ReadsDiff (h : Heap) : List (Path × HOps) → List DiffOp → Prop
  | [], [] => True
  | (p, o) :: l, d :: m => p = d.path ∧ ReadsOps h o d.ops ∧ ReadsDiff h l m
  | _, _ => False

end Splitgill.Heap
