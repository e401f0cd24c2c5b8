/-!
# Model of `splitgill/utils.py`: `partition`
-/

namespace Splitgill

/-- The `while chunk := list(islice(it, size))` loop (utils.py:71-73); one iteration per unit of
fuel. -/
def partitionLoop {α : Type} (size : Nat) : (fuel : Nat) → List α → List (List α)
  | 0, _ => []
  | fuel + 1, l =>
    let chunk := l.take size
    if chunk.isEmpty then [] else chunk :: partitionLoop size fuel (l.drop size)

/-- `partition(iterable, size)` (utils.py:61-73) on a finite iterable: each iteration with a non-empty chunk
consumes an element, so `length + 1` iterations suffice. -/
def partition {α : Type} (l : List α) (size : Nat) : List (List α) :=
  partitionLoop size (l.length + 1) l

end Splitgill
