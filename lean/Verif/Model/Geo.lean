import Verif.Model.Parse
import Mathlib.Data.Rat.Defs
import Mathlib.Algebra.Order.Ring.Rat
/-!
# Model of `splitgill/indexing/geo.py`

Coordinates are rational numbers. Simplified: coordinates that are not numbers are not modelled, and the sums of the winding check are
exact (for their rounding see `Verif.Model.GeoFloat`).
-/

namespace Splitgill

/-- A coordinate: longitude, latitude, and further dimensions. -/
structure Coord where
  x : ℚ
  y : ℚ
  rest : List ℚ := []
deriving DecidableEq

/-- A shapely geometry. -/
inductive Shape
  | point (coords : List Coord)
  | lineString (coords : List Coord)
  | polygon (exterior : List Coord) (interiors : List (List Coord))
  | other
deriving DecidableEq

/-- `shape.is_empty` -/
def Shape.isEmpty : Shape → Bool
  | .point cs => cs.isEmpty
  | .lineString cs => cs.isEmpty
  | .polygon e _ => e.isEmpty
  | .other => false

/-- `is_shape_valid` (geo.py:177-212) -/
def isShapeValid (s : Shape) : Bool :=
  if s.isEmpty then false
  else
    match s with
    | .other => false
    | .point cs => cs.all inRange
    | .lineString cs => cs.all inRange
    | .polygon e is => (e ++ is.flatten).all inRange
where
  /-- geo.py:209-211 -/
  inRange (c : Coord) : Bool := decide (-180 ≤ c.x) && decide (c.x ≤ 180) && decide (-90 ≤ c.y) && decide (c.y ≤ 90)

/-- The sum over the edges of a ring (geo.py:225-228, 235-238); `ValueError` if a coordinate is not a pair. -/
def edgeSum : List Coord → Except PyErr ℚ
  | a :: b :: r =>
    match a.rest, b.rest with
    | [], [] =>
      match edgeSum (b :: r) with
      | .ok s => .ok ((b.x - a.x) * (b.y + a.y) + s)
      | .error e => .error e
    | _, _ => .error .valueError
  | _ => .ok 0

/-- The check of the interior rings (geo.py:234-242). -/
def interiorsValid : List (List Coord) → Except PyErr Bool
  | [] => .ok true
  | i :: r =>
    match edgeSum i with
    | .error e => .error e
    | .ok s => if s < 0 then .ok false else interiorsValid r

/-- `is_winding_valid` (geo.py:215-244) -/
def isWindingValid (exterior : List Coord) (interiors : List (List Coord)) : Except PyErr Bool :=
  match edgeSum exterior with
  | .error e => .error e
  | .ok s => if 0 ≤ s then .ok false else interiorsValid interiors

/-- What is asked from shapely, pyproj, orjson and fastnumbers. -/
structure GeoLib where
  /-- `from_wkt(candidate, on_invalid="ignore")` -/
  fromWkt : PyStr → Option Shape
  /-- `from_geojson(orjson.dumps(candidate), on_invalid="ignore")` -/
  fromGeojson : Dict → Option Shape
  /-- `Point(longitude, latitude)`; `none` for `ValueError` and `TypeError` -/
  point : Value → Value → Option Shape
  /-- `try_float(value, on_fail=RAISE, nan=RAISE, inf=RAISE)`; `none` for `ValueError` and `TypeError` -/
  toFloat : Value → Option ℚ
  /-- The coordinates of `transform(tfmr.transform, buf).exterior` (geo.py:103-109) for a latitude, longitude, radius and
  segments -/
  bufferRing : ℚ → ℚ → ℚ → Int → List Coord
  /-- `shape.centroid` -/
  centroid : Shape → Shape
  /-- `to_wkt(shape, rounding_precision=-1, output_dimension=2)` -/
  toWkt : Shape → PyStr

/-- `to_parsed_dict` (geo.py:18-33), as the pair of its values. -/
def toParsed (G : GeoLib) (point shape : Shape) : PyStr × PyStr := (G.toWkt point, G.toWkt shape)

/-- `create_polygon_circle` (geo.py:81-115). For its cache see `Model/CircleCache`. -/
def createPolygonCircle (G : GeoLib) (lat lon radius : ℚ) (segments : Int) : Except PyErr Shape :=
  if radius ≤ 0 then .error .valueError
  else
    let ring := (G.bufferRing lat lon radius segments).reverse
    if !isShapeValid (.polygon ring []) then .error .valueError
    else
      match isWindingValid ring [] with
      | .error e => .error e
      | .ok false => .error .valueError
      | .ok true => .ok (.polygon ring [])

/-- The shape of a hint with a radius (geo.py:56-74): the circle, or the point if anything goes wrong. -/
def hintShape (G : GeoLib) (p : Shape) (radius : Value) (segments : Int) : Shape :=
  match p, G.toFloat radius with
  | .point (c :: cs), some r =>
    if 0 < r then
      match createPolygonCircle G c.y c.x r segments with
      | .ok circle => if isShapeValid circle then circle else .point (c :: cs)
      | .error _ => .point (c :: cs)
    else p
  | p, _ => p

/-- One hint (geo.py:47-76). -/
def hintParsed (G : GeoLib) (lon lat : Value) (radius : Option Value) (segments : Int) : Option (PyStr × PyStr) :=
  match G.point lon lat with
  | none => none
  | some p =>
    if !isShapeValid p then none
    else
      match radius with
      | none => some (toParsed G p p)
      | some r => some (toParsed G p (hintShape G p r segments))

/-- `match_geojson` (geo.py:118-151) of a dict with the keys `type` and `coordinates`. -/
def geojsonParsed (G : GeoLib) (d : Dict) : Except PyErr (Option (PyStr × PyStr)) :=
  match G.fromGeojson d with
  | none => .ok none
  | some s =>
    if !isShapeValid s then .ok none
    else
      match s with
      | .polygon e is =>
        match isWindingValid e is with
        | .error err => .error err
        | .ok false => .ok none
        | .ok true => .ok (some (toParsed G (G.centroid s) s))
      | s => .ok (some (toParsed G (G.centroid s) s))

/-- Does a character match a small letter of a pattern with `re.IGNORECASE`? The letter in either case; `i` also matches `İ` and `ı`, and `s`
also `ſ`. -/
def ignoreCase (c l : Char) : Bool :=
  c == l || c == l.toUpper || (l == 'i' && (c == 'İ' || c == 'ı')) || (l == 's' && c == 'ſ')

/-- Does a text start with this, with `re.IGNORECASE`? -/
def startsIgnoring : PyStr → PyStr → Bool
  | _, [] => true
  | [], _ :: _ => false
  | c :: s, l :: r => ignoreCase c l && startsIgnoring s r

/-- `wkt_start_check_regex.match(candidate) is not None` (geo.py:154, 167) -/
def wktStart (s : PyStr) : Bool :=
  startsIgnoring s "point ".toList || startsIgnoring s "linestring ".toList || startsIgnoring s "polygon ".toList

/-- `match_wkt` (geo.py:157-174) -/
def wktParsed (G : GeoLib) (s : PyStr) : Option (PyStr × PyStr) :=
  if !wktStart s then none
  else
    match G.fromWkt s with
    | none => none
    | some sh => if !isShapeValid sh then none else some (toParsed G (G.centroid sh) sh)

/-- The environment of the parser with these functions. Simplified: a `ValueError` for GeoJSON polygons with more than two
dimensions is `None`. -/
def ParseEnv.withGeo (E : ParseEnv) (G : GeoLib) : ParseEnv := { E with
  wkt := wktParsed G
  geojson := fun d => match geojsonParsed G d with | .ok x => x | .error _ => none
  hintGeo := hintParsed G }

end Splitgill
