import Verif.Model.GeoFloat
import Verif.Spec.Geo
import Verif.Spec.Time
/-!
# Specification of the winding check with floats
-/

namespace Splitgill

/-- The coordinates are floats. -/
def FloatRing (r : List Coord) : Prop := ∀ c ∈ r, IsDouble c.x ∧ IsDouble c.y

/-- The sum of `|x2 - x1| * |y2 + y1|` over the edges of a ring. -/
def edgeSize (r : List Coord) : ℚ := ((r.zip r.tail).map (fun e => |e.2.x - e.1.x| * |e.2.y + e.1.y|)).sum

/-- The area inside a ring is not so small that rounding can hide its sign: twice the area is more than `6 * n / 2 ** 53` times the size of
its edges, for `n` coordinates. -/
def ClearRing (r : List Coord) : Prop := 6 * r.length / 2 ^ 53 * edgeSize r < 2 * |signedArea r|

/-- The rings of a shape are clear. -/
def Shape.ClearRings : Shape → Prop
  | .polygon e is => ClearRing e ∧ ∀ i ∈ is, ClearRing i
  | _ => True

/-- The coordinates are on the map and multiples of `1 / 2 ** k`, and there are not too many of them. -/
def GridRing (k : Nat) (r : List Coord) : Prop :=
  (∀ c ∈ r, c.OnMap ∧ ∃ a b : ℤ, c.x = a / 2 ^ k ∧ c.y = b / 2 ^ k) ∧ 2 ^ (16 + 2 * k) * r.length < 2 ^ 53

end Splitgill
