/-!
# Python's `sorted`

Insertion sort: the order `sorted` produces is determined by the elements (for the total orders used here), so
the algorithm is irrelevant.
-/

namespace Splitgill

/-- Insert into a sorted list, before the first element that is not `le`-below. -/
def insertBy {α : Type} (le : α → α → Bool) (x : α) : List α → List α
  | [] => [x]
  | y :: ys => if le x y then x :: y :: ys else y :: insertBy le x ys

/-- `sorted(l)` for the order `le` (stable). -/
def sortBy {α : Type} (le : α → α → Bool) : List α → List α
  | [] => []
  | x :: xs => insertBy le x (sortBy le xs)

/-- `sorted(l)` on ints. -/
def sortAsc (l : List Int) : List Int := sortBy (fun a b => decide (a ≤ b)) l
/-- `sorted(l, reverse=True)` on ints. -/
def sortDesc (l : List Int) : List Int := sortBy (fun a b => decide (b ≤ a)) l

end Splitgill
