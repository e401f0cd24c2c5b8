import Verif.Spec.Filter
/-!
# Specification: the places in data
-/

namespace Splitgill

/-- What a hint makes of a dict: the place at the values of its fields, `""` where there is none. -/
def HintPlace (E : ParseEnv) (x : Dict) (h : GeoFieldHint) (g : PyStr × PyStr) : Prop :=
  E.hintGeo ((aget h.lonField x).getD (.str [])) ((aget h.latField x).getD (.str []))
    (match h.radiusField with | some (c :: r) => some ((aget (c :: r) x).getD (.str [])) | _ => none) h.segments = some g

/-- A hint of the options finds a place in a dict of the data; the place is at the latitude. -/
def HintedAt (E : ParseEnv) (o : ParsingOptions) (v : Value) (p : Path) (g : PyStr × PyStr) : Prop :=
  ∃ p0 x h, p = p0 ++ [.key h.latField] ∧ getAt p0 v = some (.dict x) ∧ h ∈ o.geoHints ∧ HintPlace E x h g

/-- A scalar of the data whose text is WKT, or a dict that is GeoJSON. -/
def OwnPlaceAt (E : ParseEnv) (o : ParsingOptions) (v : Value) (p : Path) (g : PyStr × PyStr) : Prop :=
  ∃ w, getAt p v = some w ∧
    ((w.isIndexed = true ∧ E.wkt (textOf E o w) = some g) ∨
      ∃ x, w = .dict x ∧ "type".toList ∈ akeys x ∧ "coordinates".toList ∈ akeys x ∧ E.geojson x = some g)

/-- The place (a point and a shape) of the data at a path: what a hint says, or else what the value is. The whole data is not looked at
as GeoJSON. -/
def PlaceAt (E : ParseEnv) (o : ParsingOptions) (d : Dict) (p : Path) (g : PyStr × PyStr) : Prop :=
  p ≠ [] ∧ (HintedAt E o (.dict d) p g ∨ ((∀ g', ¬ HintedAt E o (.dict d) p g') ∧ OwnPlaceAt E o (.dict d) p g))

/-- Equal values are places or not alike: which of `1`, `1.0` and `True` is given makes no difference to what is a place. -/
structure ParseEnv.PlacesOfEqual (E : ParseEnv) : Prop where
  wkt : ∀ o a b, simScalarEq a b = true → (E.wkt (textOf E o a)).isSome = (E.wkt (textOf E o b)).isSome
  geojson : ∀ a b, (Value.dict a).wf = true → (Value.dict b).wf = true → simEq (.dict a) (.dict b) = true →
    (E.geojson a).isSome = (E.geojson b).isSome
  hint : ∀ lon lat r n lon' lat' r', lon.wf = true → lon'.wf = true → simEq lon lon' = true →
    lat.wf = true → lat'.wf = true → simEq lat lat' = true →
    (E.hintGeo lon lat r n).isSome = (E.hintGeo lon' lat' r' n).isSome

end Splitgill
