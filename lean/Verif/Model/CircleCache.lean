import Verif.Model.Geo
/-!
# Model of the cache of `create_polygon_circle` (`splitgill/indexing/geo.py:81`)

`hintParsed` with `create_polygon_circle` behind its `lru_cache`, which lives as long as the process. As in `Model/Geo`, coordinates are
rational numbers; so `0.0` and `-0.0`, which share an entry, are not told apart.
-/

namespace Splitgill

/-- The arguments of `create_polygon_circle`: latitude, longitude, radius and segments. -/
abbrev CircleKey := ℚ × ℚ × ℚ × Int
/-- The entries of the cache, the last used one first. -/
abbrev CircleCache := List (CircleKey × Shape)

/-- `create_polygon_circle` behind `@lru_cache(maxsize=size)` (geo.py:81): an entry that is found is moved to the front; a new one is put
there, and the last one is dropped if there are too many. Exceptions are not kept. -/
def cachedCircle (G : GeoLib) (size : Nat) (k : CircleKey) (c : CircleCache) : Except PyErr Shape × CircleCache :=
  match c.find? (fun e => decide (e.1 = k)) with
  | some e => (.ok e.2, e :: c.filter (fun e' => !decide (e'.1 = k)))
  | none =>
    match createPolygonCircle G k.1 k.2.1 k.2.2.1 k.2.2.2 with
    | .error e => (.error e, c)
    | .ok s => (.ok s, ((k, s) :: c).take size)

/-- `hintShape` with the cache (geo.py:56-74). -/
def hintShapeC (G : GeoLib) (size : Nat) (p : Shape) (radius : Value) (segments : Int) (cache : CircleCache) : Shape × CircleCache :=
  match p, G.toFloat radius with
  | .point (c :: cs), some r =>
    if 0 < r then
      match cachedCircle G size (c.y, c.x, r, segments) cache with
      | (.ok circle, cache) => (if isShapeValid circle then circle else .point (c :: cs), cache)
      | (.error _, cache) => (.point (c :: cs), cache)
    else (p, cache)
  | p, _ => (p, cache)

/-- `hintParsed` with the cache (geo.py:47-76). -/
def hintParsedC (G : GeoLib) (size : Nat) (lon lat : Value) (radius : Option Value) (segments : Int) (cache : CircleCache) :
    Option (PyStr × PyStr) × CircleCache :=
  match G.point lon lat with
  | none => (none, cache)
  | some p =>
    if !isShapeValid p then (none, cache)
    else
      match radius with
      | none => (some (toParsed G p p), cache)
      | some r =>
        let (s, cache) := hintShapeC G size p r segments cache
        (some (toParsed G p s), cache)

/-- The values at a hint: longitude, latitude, radius and segments. -/
structure HintCall where
  lon : Value
  lat : Value
  radius : Option Value
  segments : Int

/-- The hints that one process looks at, one after the other. -/
def hintsFrom (G : GeoLib) (size : Nat) : List HintCall → CircleCache → List (Option (PyStr × PyStr))
  | [], _ => []
  | h :: hs, cache =>
    let (x, cache) := hintParsedC G size h.lon h.lat h.radius h.segments cache
    x :: hintsFrom G size hs cache

end Splitgill
