import Verif.Proof.Utils
/-!
# C55: `partition`
-/

namespace Splitgill.Props
open Splitgill

/-- **C55** the chunks are non-empty and have at most `size` elements, all but the last have exactly
`size`, and together they are the input, in order. -/
theorem C55_partition {α : Type} (l : List α) (size : Nat) (hs : 1 ≤ size) :
    (partition l size).flatten = l ∧
    (∀ c ∈ partition l size, c ≠ [] ∧ c.length ≤ size) ∧
    (∀ c ∈ (partition l size).dropLast, c.length = size) :=
  ⟨partition_flatten hs l, partitionLoop_chunks _ _, partitionLoop_full _ _⟩

example : partition [1, 2, 3, 4, 5, 6, 7] 3 = [[1, 2, 3], [4, 5, 6], [7]] := by decide

end Splitgill.Props
