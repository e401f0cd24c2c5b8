import Verif.Proof.Geo2
import Verif.Props.Parse
/-!
# Geometry: C53, C67
-/

namespace Splitgill.Props
open Splitgill

/-! ## C53 -/

/-- **C53**: the winding check accepts exactly the polygons that follow the right-hand rule. -/
theorem C53_winding (e : List Coord) (is : List (List Coord)) (he : Planar e ∧ ClosedRing e)
    (hi : ∀ i ∈ is, Planar i ∧ ClosedRing i) : ∃ b, isWindingValid e is = .ok b ∧ (b = true ↔ RightHand e is) :=
  isWindingValid_eq he hi

/-- **C53**: an accepted polygon with its exterior the other way around is rejected. -/
theorem C53_reversed (e : List Coord) (is : List (List Coord)) (he : Planar e ∧ ClosedRing e)
    (hi : ∀ i ∈ is, Planar i ∧ ClosedRing i) (h : isWindingValid e is = .ok true) :
    isWindingValid e.reverse is = .ok false := by
  obtain ⟨b, hb, hiff⟩ := isWindingValid_eq he hi
  obtain ⟨b', hb', hiff'⟩ := isWindingValid_eq (e := e.reverse)
    ⟨fun c hc => he.1 c (List.mem_reverse.1 hc), closedRing_reverse he.2⟩ hi
  rw [h] at hb
  cases hb
  have h1 := (hiff.1 rfl).1
  rw [hb']
  cases b' with
  | false => rfl
  | true =>
    have h2 := (hiff'.1 rfl).1
    rw [signedArea_reverse] at h2
    exact absurd h1 (not_lt.2 (le_of_lt (neg_pos.1 h2)))

/-- **C53**: the shapes taken are the points, lines and polygons that are not empty and on the map. -/
theorem C53_shapes (s : Shape) : isShapeValid s = true ↔ OnMap s := isShapeValid_iff s

/-- **C53**: coordinates that are not pairs make the winding check raise `ValueError`. -/
theorem C53_dimensions (a b : Coord) (r : List Coord) (is : List (List Coord)) (h : a.rest ≠ [] ∨ b.rest ≠ []) :
    isWindingValid (a :: b :: r) is = .error .valueError := by
  unfold isWindingValid
  rw [edgeSum]
  cases ha : a.rest with
  | cons x xs => rfl
  | nil =>
    cases hb : b.rest with
    | cons x xs => rfl
    | nil => rcases h with h | h <;> contradiction

def exSquare : List Coord := [⟨0, 0, []⟩, ⟨4, 0, []⟩, ⟨4, 4, []⟩, ⟨0, 4, []⟩, ⟨0, 0, []⟩]
def exHole : List Coord := [⟨1, 1, []⟩, ⟨1, 2, []⟩, ⟨2, 2, []⟩, ⟨1, 1, []⟩]

example : (Planar exSquare ∧ ClosedRing exSquare) ∧ (∀ i ∈ [exHole], Planar i ∧ ClosedRing i) ∧
    isWindingValid exSquare [exHole] = .ok true ∧ isWindingValid exSquare [exHole.reverse] = .ok false := by
  refine ⟨⟨?_, rfl⟩, ?_, by decide +kernel, by decide +kernel⟩
  · unfold Planar; decide
  · intro i hi
    rw [List.mem_singleton] at hi
    subst hi
    exact ⟨by unfold Planar; decide, rfl⟩

/-! ## C67 -/

/-- **C67**: every shape in the parsed data is one on the map, and every point is one on the map. -/
theorem C67_indexed (E : ParseEnv) (G : GeoLib) (o : ParsingOptions) (d : Dict) (p : ParsedData) (hG : G.Sane)
    (hw : (Value.dict d).wf = true) (hf : FieldNames (.dict d)) (h : parse (E.withGeo G) o d = .ok p) (path : Path)
    (y : Value) :
    (getAt (path ++ [.key "_gs".toList]) (.dict p.parsed) = some y → ∃ s, OnMap s ∧ y = .str (G.toWkt s)) ∧
    (getAt (path ++ [.key "_gp".toList]) (.dict p.parsed) = some y →
      ∃ s, s.IsPoint ∧ OnMap s ∧ y = .str (G.toWkt s)) := by
  have key := geoOk_parse (P := IndexedPlace G) (fun s g => wktParsed_place hG) (fun d g => geojson_place hG)
    (fun lon lat r n g => hintParsed_place hG) hw hf h
  constructor
  · intro hy
    obtain ⟨g, ⟨pt, s, _, _, hs, rfl⟩, rfl⟩ := (key path _ y hy).2 rfl
    exact ⟨s, hs, rfl⟩
  · intro hy
    obtain ⟨g, ⟨pt, s, hp, hp', _, rfl⟩, rfl⟩ := (key path _ y hy).1 rfl
    exact ⟨pt, hp, hp', rfl⟩

/-- **C67**: a dict is taken as GeoJSON exactly if it is a shape on the map that follows the right-hand rule. -/
theorem C67_geojson (G : GeoLib) (d : Dict) (hflat : ∀ s, G.fromGeojson d = some s → s.Flat) :
    ∃ x, geojsonParsed G d = .ok x ∧ ∀ g, x = some g ↔
      ∃ s, G.fromGeojson d = some s ∧ OnMap s ∧ s.RightHand ∧ g = (G.toWkt (G.centroid s), G.toWkt s) :=
  geojsonParsed_iff hflat

/-- **C67**: a string is taken as WKT exactly if it starts with the name of a shape and is one on the map; there is no rule
for the winding. -/
theorem C67_wkt (G : GeoLib) (t : PyStr) (g : PyStr × PyStr) : wktParsed G t = some g ↔
    StartsAsWkt t ∧ ∃ s, G.fromWkt t = some s ∧ OnMap s ∧ g = (G.toWkt (G.centroid s), G.toWkt s) :=
  wktParsed_iff

/-- **C67**: a string that does not start with a `p` or an `l` is never taken as WKT, whatever the libraries do; in particular no number. -/
theorem C67_not_wkt (G : GeoLib) (c : Char) (t : PyStr) (h : c ∉ ['p', 'P', 'l', 'L']) : wktParsed G (c :: t) = none := by
  by_contra hne
  obtain ⟨g, hg⟩ := Option.ne_none_iff_exists'.1 hne
  obtain ⟨⟨name, hn, start, rest, e, h2⟩, _⟩ := (C67_wkt G _ g).1 hg
  have key : ∀ l ∈ ['p', 'l'], ¬ SameLetter c l := by
    intro l hl hs
    simp only [List.mem_cons, List.not_mem_nil, or_false, not_or] at hl h
    unfold SameLetter at hs
    rcases hl with rfl | rfl <;> rw [toLower_small (by decide)] at hs <;>
      simp only [show ('p' : Char).toUpper = 'P' from by decide, show ('l' : Char).toUpper = 'L' from by decide] at hs <;> tauto
  have hd : ∀ n ∈ ["point".toList, "linestring".toList, "polygon".toList], ∃ l r, n = l :: r ∧ l ∈ ['p', 'l'] :=
    fun n hn => by
      simp only [List.mem_cons, List.not_mem_nil, or_false] at hn
      rcases hn with rfl | rfl | rfl <;> exact ⟨_, _, rfl, by decide⟩
  obtain ⟨l, r, rfl, hl⟩ := hd name hn
  cases h2 with
  | cons h3 _ =>
    cases e
    exact key l hl h3

/-- **C67**: a hint matches exactly if longitude and latitude are a point on the map. Its shape is the circle if there is one
that can be indexed, and the point otherwise. -/
theorem C67_hint (G : GeoLib) (hring : ∀ a b r n, Planar (G.bufferRing a b r n) ∧ ClosedRing (G.bufferRing a b r n))
    (lon lat : Value) (radius : Option Value) (n : Int) (g : PyStr × PyStr) :
    hintParsed G lon lat radius n = some g ↔ ∃ p s, G.point lon lat = some p ∧ OnMap p ∧ g = (G.toWkt p, G.toWkt s) ∧
      ((∃ r, radius = some r ∧ CircleOf G p r n s) ∨ (s = p ∧ ¬ ∃ r s', radius = some r ∧ CircleOf G p r n s')) :=
  hintParsed_iff hring

/-- A geometry library for examples. -/
def exGeo : GeoLib where
  fromWkt := fun s => if s = "POINT (1 2)".toList then some (.point [⟨1, 2, []⟩])
    else if s = "POINT (1 99)".toList then some (.point [⟨1, 99, []⟩]) else none
  fromGeojson := fun d => if aget "type".toList d = some (.str "Polygon".toList) then some (.polygon exSquare [])
    else if aget "type".toList d = some (.str "Back".toList) then some (.polygon exSquare.reverse []) else none
  point := fun lon lat => match lon, lat with
    | .int a, .int b => some (.point [⟨a, b, []⟩])
    | _, _ => none
  toFloat := fun v => match v with
    | .int a => some a
    | _ => none
  bufferRing := fun lat lon r _ => [⟨lon, lat, []⟩, ⟨lon, lat + r, []⟩, ⟨lon + r, lat, []⟩, ⟨lon, lat, []⟩]
  centroid := fun s => match s with
    | .point (c :: _) => .point [c]
    | .lineString (c :: _) => .point [c]
    | .polygon (c :: _) _ => .point [c]
    | _ => .point []
  toWkt := fun s => match s with
    | .point _ => "point".toList
    | _ => "shape".toList

theorem exGeo_sane : exGeo.Sane where
  point := by
    intro lon lat p h
    cases lon <;> cases lat <;> cases h
    exact ⟨_, rfl⟩
  centroid := by
    intro s hs
    cases hs with
    | point cs hne h =>
      obtain ⟨c, r, rfl⟩ := List.exists_cons_of_ne_nil hne
      exact ⟨⟨_, rfl⟩, .point _ (by simp) (by simpa using h c List.mem_cons_self)⟩
    | lineString cs hne h =>
      obtain ⟨c, r, rfl⟩ := List.exists_cons_of_ne_nil hne
      exact ⟨⟨_, rfl⟩, .point _ (by simp) (by simpa using h c List.mem_cons_self)⟩
    | polygon cs is hne h _ =>
      obtain ⟨c, r, rfl⟩ := List.exists_cons_of_ne_nil hne
      exact ⟨⟨_, rfl⟩, .point _ (by simp) (by simpa using h c List.mem_cons_self)⟩

theorem exGeo_ring (a b r : ℚ) (n : Int) : Planar (exGeo.bufferRing a b r n) ∧ ClosedRing (exGeo.bufferRing a b r n) := by
  refine ⟨?_, rfl⟩
  intro c hc
  simp only [exGeo, List.mem_cons, List.not_mem_nil, or_false] at hc
  rcases hc with rfl | rfl | rfl | rfl <;> rfl

/-- A circle that is on the map, and one that is not. -/
example : hintParsed exGeo (.int 1) (.int 2) (some (.int 3)) 16 = some ("point".toList, "shape".toList) ∧
    hintParsed exGeo (.int 1) (.int 2) (some (.int 300)) 16 = some ("point".toList, "point".toList) ∧
    hintParsed exGeo (.int 1) (.int 200) (some (.int 3)) 16 = none ∧
    wktParsed exGeo "POINT (1 2)".toList = some ("point".toList, "point".toList) ∧
    wktParsed exGeo "POINT (1 99)".toList = none ∧ wktStart "poınt (1 2)".toList = true ∧ wktStart "Polygon".toList = false ∧
    geojsonParsed exGeo [("type".toList, .str "Polygon".toList)] = .ok (some ("point".toList, "shape".toList)) ∧
    geojsonParsed exGeo [("type".toList, .str "Back".toList)] = .ok none := by
  refine ⟨?_, ?_, ?_, ?_, ?_, ?_, ?_, ?_, ?_⟩ <;> decide +kernel

/-- A parsed shape. -/
example : ∃ p, parse (exEnv.withGeo exGeo) exParseOpts [("a".toList, .str "POINT (1 2)".toList)] = .ok p ∧
    getAt ([.key "a".toList] ++ [.key "_gs".toList]) (.dict p.parsed) = some (.str "point".toList) := by
  refine ⟨_, rfl, ?_⟩
  decide +kernel

end Splitgill.Props
