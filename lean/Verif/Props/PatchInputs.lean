import Verif.Proof.PatchHeap
/-!
# C04: `patch` does not modify its inputs
-/

namespace Splitgill.Props
open Splitgill

/-- **C04** whatever the object graph, the base and the ops: after `patch(base, ops)` has returned or
raised, every container that existed before the call is unchanged (so in particular `base`, every container
reachable from it, and every container reachable from `ops`). -/
theorem C04_patch_inputs_unchanged (h : Heap.Heap) (base : Nat)
    (ops : List (Path × Heap.HOps)) (a : Nat) (ha : a < h.length) :
    (Heap.patch h base ops).1[a]? = h[a]? :=
  (Heap.patch_frame h base ops).2 a ha

/-- A heap with sharing: the base dict at 1 holds the list at 0 twice; the ops reach into it and
raise at the end. -/
example :
    let h : Heap.Heap := [.list [.scalar (.int 1)],
      .dict [(['a'], .addr 0), (['b'], .addr 0)], .dict [(['c'], .addr 0)]]
    let r := Heap.patch h 1 [([.key ['a']], { lc := some [(0, .scalar (.int 2))] }),
      ([], { dn := some (.addr 2) }), ([.key ['c']], { ld := some 0 }), ([.key ['z']], {})]
    r.1.length = 6 ∧ (match r.2 with | .error .keyError => true | _ => false) = true := by
  decide

end Splitgill.Props
