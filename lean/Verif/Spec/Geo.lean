import Verif.Model.Geo
/-!
# Geometry
-/

namespace Splitgill

/-- The last coordinate of a ring is the first one. -/
def ClosedRing (r : List Coord) : Prop := r.head? = r.getLast?

/-- All coordinates are pairs. -/
def Planar (r : List Coord) : Prop := ∀ c ∈ r, c.rest = []

/-- The signed area inside a closed ring (shoelace formula): positive if it is counterclockwise. -/
def signedArea (r : List Coord) : ℚ := ((r.zip r.tail).map (fun e => e.1.x * e.2.y - e.2.x * e.1.y)).sum / 2

/-- A place on the map. -/
def Coord.OnMap (c : Coord) : Prop := (-180 ≤ c.x ∧ c.x ≤ 180) ∧ (-90 ≤ c.y ∧ c.y ≤ 90)

/-- The shapes that Elasticsearch takes: points, lines and polygons on the map that are not empty. -/
inductive OnMap : Shape → Prop
  | point (cs) : cs ≠ [] → (∀ c ∈ cs, c.OnMap) → OnMap (.point cs)
  | lineString (cs) : cs ≠ [] → (∀ c ∈ cs, c.OnMap) → OnMap (.lineString cs)
  | polygon (e is) : e ≠ [] → (∀ c ∈ e, c.OnMap) → (∀ i ∈ is, ∀ c ∈ i, c.OnMap) → OnMap (.polygon e is)

/-- The right-hand rule of GeoJSON: the exterior is counterclockwise, no interior is. -/
def RightHand (e : List Coord) (is : List (List Coord)) : Prop := 0 < signedArea e ∧ ∀ i ∈ is, signedArea i ≤ 0

/-- A shape with planar closed rings, as GeoJSON without altitudes gives. -/
def Shape.Flat : Shape → Prop
  | .polygon e is => (Planar e ∧ ClosedRing e) ∧ ∀ i ∈ is, Planar i ∧ ClosedRing i
  | _ => True

/-- The right-hand rule for all shapes. -/
def Shape.RightHand : Shape → Prop
  | .polygon e is => Splitgill.RightHand e is
  | _ => True

/-- The shape is a point. -/
def Shape.IsPoint (s : Shape) : Prop := ∃ cs, s = .point cs

/-- What shapely promises: `Point(…)` gives points, and the centroid of a shape on the map is a point on the map. -/
structure GeoLib.Sane (G : GeoLib) : Prop where
  point : ∀ lon lat p, G.point lon lat = some p → p.IsPoint
  centroid : ∀ s, OnMap s → (G.centroid s).IsPoint ∧ OnMap (G.centroid s)

/-- The circle of a radius around a point is the ring from pyproj the other way around; it can be indexed if it is on the map
and counterclockwise. -/
def CircleOf (G : GeoLib) (p : Shape) (radius : Value) (segments : Int) (s : Shape) : Prop :=
  ∃ c cs r ring, p = .point (c :: cs) ∧ G.toFloat radius = some r ∧ 0 < r ∧
    ring = (G.bufferRing c.y c.x r segments).reverse ∧ s = .polygon ring [] ∧ OnMap s ∧ 0 < signedArea ring

/-- The same letter but for its case; and the letters that are `i` and `s` in other alphabets. -/
def SameLetter (c l : Char) : Prop := c.toLower = l ∨ (l = 'i' ∧ c ∈ ['İ', 'ı']) ∨ (l = 's' ∧ c = 'ſ')

/-- The text is the name of a shape, in any case, a space and a rest. -/
def StartsAsWkt (t : PyStr) : Prop :=
  ∃ name ∈ ["point".toList, "linestring".toList, "polygon".toList], ∃ start rest,
    t = start ++ ' ' :: rest ∧ List.Forall₂ SameLetter start name

end Splitgill
