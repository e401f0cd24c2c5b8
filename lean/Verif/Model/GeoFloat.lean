import Verif.Model.Geo
import Verif.Model.Time
/-!
# The winding check with floats (`splitgill/indexing/geo.py:215-244`)

`Verif.Model.Geo` computes the sums over the edges of a ring exactly. Here every operation gives the nearest float. Simplified: no limits of
the exponent (products of differences that are smaller than `2 ** -500`, say).
-/

namespace Splitgill

/-- `(x2 - x1) * (y2 + y1)` (geo.py:226, 236) with floats -/
def edgeFl (a b : Coord) : ℚ := fl (fl (b.x - a.x) * fl (b.y + a.y))

/-- The numbers that are summed up (geo.py:225-228, 235-238); `ValueError` if a coordinate is not a pair. -/
def edgesFl : List Coord → Except PyErr (List ℚ)
  | a :: b :: r =>
    match a.rest, b.rest with
    | [], [] =>
      match edgesFl (b :: r) with
      | .ok l => .ok (edgeFl a b :: l)
      | .error e => .error e
    | _, _ => .error .valueError
  | _ => .ok []

/-- `sum` of floats up to Python 3.11. -/
def plainSum (l : List ℚ) : ℚ := l.foldl (fun s x => fl (s + x)) 0

/-- One step of `sum` of floats from Python 3.12: the sum, and the compensation for what was lost. -/
def compensate (sc : ℚ × ℚ) (x : ℚ) : ℚ × ℚ :=
  let t := fl (sc.1 + x)
  (t, fl (sc.2 + if |x| ≤ |sc.1| then fl (fl (sc.1 - t) + x) else fl (fl (x - t) + sc.1)))

/-- `sum` of floats from Python 3.12. -/
def compensatedSum (l : List ℚ) : ℚ :=
  let sc := l.foldl compensate (0, 0)
  if sc.2 = 0 then sc.1 else fl (sc.1 + sc.2)

/-- `sum`, of the older or newer Python. -/
def pySum (newer : Bool) (l : List ℚ) : ℚ := if newer then compensatedSum l else plainSum l

/-- The check of the interior rings (geo.py:234-242), with floats. -/
def interiorsValidFl (newer : Bool) : List (List Coord) → Except PyErr Bool
  | [] => .ok true
  | i :: r =>
    match edgesFl i with
    | .error e => .error e
    | .ok l => if pySum newer l < 0 then .ok false else interiorsValidFl newer r

/-- `is_winding_valid` (geo.py:215-244), with floats -/
def isWindingValidFl (newer : Bool) (exterior : List Coord) (interiors : List (List Coord)) : Except PyErr Bool :=
  match edgesFl exterior with
  | .error e => .error e
  | .ok l => if 0 ≤ pySum newer l then .ok false else interiorsValidFl newer interiors

/-- `match_geojson` (geo.py:118-151) of a dict with the keys `type` and `coordinates`, with floats -/
def geojsonParsedFl (newer : Bool) (G : GeoLib) (d : Dict) : Except PyErr (Option (PyStr × PyStr)) :=
  match G.fromGeojson d with
  | none => .ok none
  | some s =>
    if !isShapeValid s then .ok none
    else
      match s with
      | .polygon e is =>
        match isWindingValidFl newer e is with
        | .error err => .error err
        | .ok false => .ok none
        | .ok true => .ok (some (toParsed G (G.centroid s) s))
      | s => .ok (some (toParsed G (G.centroid s) s))

end Splitgill
