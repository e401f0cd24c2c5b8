import Verif.Proof.PatchHeap3
/-!
# C96: sharing does not change what `patch` gives

Python containers are objects: the same list can be in a dict twice, or in the base and in the ops. `Heap.patch` is `patch` on objects,
`patch` is the function on values that the other properties are about.
-/

namespace Splitgill.Props
open Splitgill

/-- **C96**: if the objects `base` and `ops` stand for a value and the ops of a diff, then what `patch(base, ops)` returns stands for
the patched value, and it raises what `patch` on values raises: however containers are shared, inside the base, inside the ops or between them. -/
theorem C96_result (h : Heap.Heap) (base : Nat) (v : Value) (hb : Heap.Reads h (.addr base) v) (ops : List (Path × Heap.HOps))
    (dops : List DiffOp) (hd : Heap.ReadsDiff h ops dops) :
    (∀ v', patch v dops = .ok v' → ∃ a, (Heap.patch h base ops).2 = .ok a ∧ Heap.Reads (Heap.patch h base ops).1 (.addr a) v') ∧
    (∀ e, patch v dops = .error e → (Heap.patch h base ops).2 = .error e) := by
  have := Heap.patch_agrees hb hd
  constructor
  · intro v' hv
    rw [hv] at this
    exact this
  · intro e hv
    rw [hv] at this
    exact this

/-- **C96**: all references still stand for what they stood for, whether `patch` returns or raises. -/
theorem C96_inputs (h : Heap.Heap) (base : Nat) (ops : List (Path × Heap.HOps)) (r : Heap.Ref) (v : Value) (hr : Heap.Reads h r v) :
    Heap.Reads (Heap.patch h base ops).1 r v := by
  have hf := Heap.patch_frame h base ops
  exact (Heap.reads_iff v r).2 (Heap.RP.frame (fun a (ha : a < h.length) => ⟨Nat.lt_of_lt_of_le ha hf.1, hf.2 a ha⟩) v r ((Heap.reads_iff v r).1 hr))

/-- The list at 0 is twice in the base at 1, and in the new values at 2. -/
def exShared : Heap.Heap := [.list [.scalar (.int 1)], .dict [(['a'], .addr 0), (['b'], .addr 0)], .dict [(['c'], .addr 0)]]
/-- The list is changed at `a`, put at `c` and emptied there. -/
def exSharedOps : List (Path × Heap.HOps) :=
  [([.key ['a']], { lc := some [(0, .scalar (.int 2))] }), ([], { dn := some (.addr 2) }), ([.key ['c']], { ld := some 0 })]
def exSharedDiff : List DiffOp :=
  [⟨[.key ['a']], { lc := some [(0, .int 2)] }⟩, ⟨[], { dn := some [(['c'], .list [.int 1])] }⟩, ⟨[.key ['c']], { ld := some 0 }⟩]
def exSharedBase : Value := .dict [(['a'], .list [.int 1]), (['b'], .list [.int 1])]

theorem exShared_reads : Heap.Reads exShared (.addr 1) exSharedBase ∧ Heap.ReadsDiff exShared exSharedOps exSharedDiff := by
  have h0 : Heap.Reads exShared (.addr 0) (.list [.int 1]) := by
    rw [Heap.Reads]
    exact ⟨0, _, rfl, rfl, .scalar (.int 1), [], rfl, rfl, rfl⟩
  constructor
  · rw [exSharedBase, Heap.Reads]
    exact ⟨1, _, rfl, rfl, .addr 0, _, rfl, h0, .addr 0, _, rfl, h0, rfl⟩
  · refine ⟨rfl, ⟨trivial, trivial, rfl, ⟨rfl, rfl, trivial⟩, trivial, rfl⟩, rfl, ⟨trivial, ?_, rfl, trivial, trivial, rfl⟩, rfl,
      ⟨trivial, trivial, rfl, trivial, trivial, rfl⟩, trivial⟩
    show Heap.Reads exShared (.addr 2) (.dict [(['c'], .list [.int 1])])
    rw [Heap.Reads]
    exact ⟨2, _, rfl, rfl, .addr 0, _, rfl, h0, rfl⟩

/-- Each place has its own list afterwards. -/
example : ∃ a, (Heap.patch exShared 1 exSharedOps).2 = .ok a ∧ Heap.Reads (Heap.patch exShared 1 exSharedOps).1 (.addr a)
    (.dict [(['a'], .list [.int 2]), (['b'], .list [.int 1]), (['c'], .list [])]) :=
  (C96_result exShared 1 exSharedBase exShared_reads.1 exSharedOps exSharedDiff exShared_reads.2).1 _ rfl

end Splitgill.Props
