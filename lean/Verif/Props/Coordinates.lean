import Verif.Proof.Coordinates
import Verif.Props.FloatText
import Verif.Props.Geo
import Verif.Props.Places
/-!
# C112: which values hints take as coordinates

Which values are numbers, and which are coordinates together, is described in `Verif.Spec.Coordinates`.
-/

namespace Splitgill.Props
open Splitgill

/-- **C112**: two values are at most one pair of coordinates. -/
theorem C112_unique {lon lat : Value} {x y x' y' : ℚ} (h : Coordinates lon lat x y) (h' : Coordinates lon lat x' y') : x = x' ∧ y = y' := by
  have h1 := (readPoint_iff lon lat _).2 ⟨x, y, h, rfl⟩
  have h2 := (readPoint_iff lon lat _).2 ⟨x', y', h', rfl⟩
  cases h1.symm.trans h2
  exact ⟨rfl, rfl⟩

/-- **C112**: a hint finds a place exactly if the values of its fields are coordinates in the ranges of longitudes and latitudes. The shape is the circle if the radius is
a positive number and there is a circle that can be indexed, and the point otherwise. -/
theorem C112_hint (G : GeoLib) (hG : G.Reads) (hring : ∀ a b r n, Planar (G.bufferRing a b r n) ∧ ClosedRing (G.bufferRing a b r n))
    (lon lat : Value) (hlon : lon.Plain) (hlat : lat.Plain) (radius : Option Value) (hr : ∀ r ∈ radius, r.Plain) (n : Int) (g : PyStr × PyStr) :
    hintParsed G lon lat radius n = some g ↔ ∃ x y, Coordinates lon lat x y ∧ -180 ≤ x ∧ x ≤ 180 ∧ -90 ≤ y ∧ y ≤ 90 ∧ g.1 = G.toWkt (.point [⟨x, y, []⟩]) ∧
      ((∃ v r, radius = some v ∧ AnyNumber v r ∧ 0 < r ∧ OnMap (.polygon (G.bufferRing y x r n).reverse []) ∧ 0 < signedArea (G.bufferRing y x r n).reverse ∧
          g.2 = G.toWkt (.polygon (G.bufferRing y x r n).reverse [])) ∨
        ((∀ v r, radius = some v → AnyNumber v r → 0 < r →
            ¬ (OnMap (.polygon (G.bufferRing y x r n).reverse []) ∧ 0 < signedArea (G.bufferRing y x r n).reverse)) ∧ g.2 = g.1)) := by
  have hc : ∀ {x y : ℚ} {v : Value} {s : Shape}, v ∈ radius → (CircleOf G (.point [⟨x, y, []⟩]) v n s ↔ ∃ r, AnyNumber v r ∧ 0 < r ∧
      OnMap (.polygon (G.bufferRing y x r n).reverse []) ∧ 0 < signedArea (G.bufferRing y x r n).reverse ∧ s = .polygon (G.bufferRing y x r n).reverse []) := by
    intro x y v s hv
    constructor
    · rintro ⟨c, cs, r, ring, h1, h2, h3, rfl, rfl, h4, h5⟩
      cases h1
      rw [hG.radius v (hr v hv), readRadius_iff] at h2
      exact ⟨r, h2, h3, h4, h5, rfl⟩
    · rintro ⟨r, h1, h2, h3, h4, rfl⟩
      exact ⟨_, _, r, _, rfl, by rw [hG.radius v (hr v hv), readRadius_iff]; exact h1, h2, rfl, rfl, h3, h4⟩
  rw [C67_hint G hring lon lat radius n g]
  constructor
  · rintro ⟨p, s, h1, h2, rfl, h4⟩
    rw [hG.point lon lat hlon hlat, readPoint_iff] at h1
    obtain ⟨x, y, h1, rfl⟩ := h1
    cases h2 with
    | point _ _ h2 =>
      obtain ⟨⟨a, b⟩, c, d⟩ := h2 _ (List.mem_singleton_self _)
      refine ⟨x, y, h1, a, b, c, d, rfl, ?_⟩
      rcases h4 with ⟨v, rfl, h⟩ | ⟨rfl, h⟩
      · obtain ⟨r, h1, h2, h3, h4, rfl⟩ := (hc rfl).1 h
        exact .inl ⟨v, r, rfl, h1, h2, h3, h4, rfl⟩
      · refine .inr ⟨?_, rfl⟩
        rintro v r rfl h1 h2 ⟨h3, h4⟩
        exact h ⟨v, _, rfl, (hc rfl).2 ⟨r, h1, h2, h3, h4, rfl⟩⟩
  · rintro ⟨x, y, h1, a, b, c, d, h2, h⟩
    have hm : OnMap (.point [⟨x, y, []⟩]) := .point _ (by simp) (by
      intro q hq
      rw [List.mem_singleton] at hq
      subst hq
      exact ⟨⟨a, b⟩, c, d⟩)
    have hp : G.point lon lat = some (.point [⟨x, y, []⟩]) := by
      rw [hG.point lon lat hlon hlat, readPoint_iff]
      exact ⟨x, y, h1, rfl⟩
    rcases h with ⟨v, r, rfl, h3, h4, h5, h6, h7⟩ | ⟨h, h7⟩
    · exact ⟨_, _, hp, hm, Prod.ext h2 h7, .inl ⟨v, rfl, (hc rfl).2 ⟨r, h3, h4, h5, h6, rfl⟩⟩⟩
    · refine ⟨_, _, hp, hm, Prod.ext h2 (h7.trans h2), .inr ⟨rfl, ?_⟩⟩
      rintro ⟨v, s', rfl, h'⟩
      obtain ⟨r, h3, h4, h5, h6, -⟩ := (hc rfl).1 h'
      exact h v r rfl h3 h4 ⟨h5, h6⟩

/-- What is indexed as the point at a pair of coordinates: WKT with two numbers that are the coordinates, the longitude first. -/
def PointText (s : PyStr) (x y : ℚ) : Prop :=
  ∃ sx sy, s = "POINT (".toList ++ (sx ++ ' ' :: (sy ++ [')'])) ∧ NumberValue (.str sx) x ∧ NumberValue (.str sy) y

/-- The values of the fields of a hint in a dict, `""` where there is none, are plain. -/
def PlainFields (x : Dict) (h : GeoFieldHint) : Prop :=
  ((aget h.lonField x).getD (.str [])).Plain ∧ ((aget h.latField x).getD (.str [])).Plain ∧
    ∀ f, h.radiusField = some f → ((aget f x).getD (.str [])).Plain

theorem hintPlace_of_coordinates (E : ParseEnv) (G : GeoLib) (hG : G.Reads) (hring : ∀ a b r n, Planar (G.bufferRing a b r n) ∧ ClosedRing (G.bufferRing a b r n))
    (h : GeoFieldHint) (x : Dict) (hl : PlainFields x h)
    (lon lat : Value) (hlon : aget h.lonField x = some lon) (hlat : aget h.latField x = some lat) (a b : ℚ) (hc : Coordinates lon lat a b)
    (ha : -180 ≤ a ∧ a ≤ 180) (hb : -90 ≤ b ∧ b ≤ 90) :
    ∃ g, HintPlace (E.withGeo G) x h g ∧ g.1 = G.toWkt (.point [⟨a, b, []⟩]) ∧ (h.radiusField = none → g.2 = g.1) := by
  obtain ⟨hl1, hl2, hl3⟩ := hl
  rw [hlon] at hl1
  rw [hlat] at hl2
  have hr : ∀ r ∈ (match h.radiusField with | some (c :: r) => some ((aget (c :: r) x).getD (.str [])) | _ => none), r.Plain := by
    intro r hr
    cases e : h.radiusField with
    | none => rw [e] at hr; cases hr
    | some f =>
      rw [e] at hr
      cases f with
      | nil => cases hr
      | cons c f => cases hr; exact hl3 _ e
  have key := fun g => C112_hint G hG hring lon lat hl1 hl2 _ hr h.segments g
  have : ∃ g, hintParsed G lon lat (match h.radiusField with | some (c :: r) => some ((aget (c :: r) x).getD (.str [])) | _ => none) h.segments = some g ∧
      g.1 = G.toWkt (.point [⟨a, b, []⟩]) ∧ (h.radiusField = none → g.2 = g.1) := by
    by_cases hcirc : ∃ v r, (match h.radiusField with | some (c :: r) => some ((aget (c :: r) x).getD (.str [])) | _ => none) = some v ∧ AnyNumber v r ∧ 0 < r ∧
        OnMap (.polygon (G.bufferRing b a r h.segments).reverse []) ∧ 0 < signedArea (G.bufferRing b a r h.segments).reverse
    · obtain ⟨v, r, h1, h2, h3, h4, h5⟩ := hcirc
      refine ⟨(G.toWkt (.point [⟨a, b, []⟩]), G.toWkt (.polygon (G.bufferRing b a r h.segments).reverse [])), (key _).2 ⟨a, b, hc, ha.1, ha.2, hb.1, hb.2, rfl, .inl ⟨v, r, h1, h2, h3, h4, h5, rfl⟩⟩, rfl, ?_⟩
      intro e
      rw [e] at h1
      cases h1
    · refine ⟨(G.toWkt (.point [⟨a, b, []⟩]), G.toWkt (.point [⟨a, b, []⟩])), (key _).2 ⟨a, b, hc, ha.1, ha.2, hb.1, hb.2, rfl, .inr ⟨?_, rfl⟩⟩, rfl, fun _ => rfl⟩
      intro v r h1 h2 h3 h4
      exact hcirc ⟨v, r, h1, h2, h3, h4.1, h4.2⟩
  obtain ⟨g, h1, h2⟩ := this
  refine ⟨g, ?_, h2⟩
  rw [HintPlace, hlon, hlat]
  exact h1

/-- **C112** in the document of a record: where the fields of a hint are coordinates, the latitude is indexed as a place, with these coordinates. -/
theorem C112_indexed (E : ParseEnv) (G : GeoLib) (hG : G.Reads) (hring : ∀ a b r n, Planar (G.bufferRing a b r n) ∧ ClosedRing (G.bufferRing a b r n))
    (hS : (E.withGeo G).ScalarHints) (o : ParsingOptions) (hn : (o.geoHints.map GeoFieldHint.latField).Nodup) (d : Dict)
    (pd : ParsedData) (hw : (Value.dict d).wf = true) (hf : FieldNames (.dict d)) (hp : parse (E.withGeo G) o d = .ok pd)
    (h : GeoFieldHint) (hh : h ∈ o.geoHints) (p : Path) (x : Dict) (hx : getAt p (.dict d) = some (.dict x)) (hl : PlainFields x h)
    (lon lat : Value) (hlon : aget h.lonField x = some lon) (hlat : aget h.latField x = some lat) (a b : ℚ) (hc : Coordinates lon lat a b)
    (ha : -180 ≤ a ∧ a ≤ 180) (hb : -90 ≤ b ∧ b ≤ 90) :
    ∃ point shape, getAt (p ++ [.key h.latField] ++ [.key "_gp".toList]) (.dict pd.parsed) = some (.str point) ∧ PointText point a b ∧
      getAt (p ++ [.key h.latField] ++ [.key "_gs".toList]) (.dict pd.parsed) = some (.str shape) ∧ (h.radiusField = none → shape = point) := by
  obtain ⟨g, hg, hg1, hg2⟩ := hintPlace_of_coordinates E G hG hring h x hl lon lat hlon hlat a b hc ha hb
  obtain ⟨hl1, hl2, hl3⟩ := hl
  rw [hlon] at hl1
  rw [hlat] at hl2
  obtain ⟨h1, h2⟩ := (C83_places (E.withGeo G) hS o hn d pd hw hf hp (p ++ [.key h.latField])).1 g
    ⟨by simp, .inl ⟨p, x, h, rfl, hx, hh, hg⟩⟩
  refine ⟨g.1, g.2, h1, ?_, h2, hg2⟩
  obtain ⟨sx, sy, e, h3, h4⟩ := hG.wkt a b (hc.1.double hl1) (hc.2.1.double hl2)
  exact ⟨sx, sy, hg1.trans e, h3, h4⟩

/-- **C112** in the document of a record: where the fields of a hint are no coordinates, or beyond the ranges, the latitude is no place, unless it is WKT itself. -/
theorem C112_not_indexed (E : ParseEnv) (G : GeoLib) (hG : G.Reads) (hring : ∀ a b r n, Planar (G.bufferRing a b r n) ∧ ClosedRing (G.bufferRing a b r n))
    (hS : (E.withGeo G).ScalarHints) (o : ParsingOptions) (hn : (o.geoHints.map GeoFieldHint.latField).Nodup) (d : Dict)
    (pd : ParsedData) (hw : (Value.dict d).wf = true) (hf : FieldNames (.dict d)) (hp : parse (E.withGeo G) o d = .ok pd)
    (h : GeoFieldHint) (hh : h ∈ o.geoHints) (p : Path) (x : Dict) (hx : getAt p (.dict d) = some (.dict x)) (hl : PlainFields x h)
    (hno : ∀ a b, Coordinates ((aget h.lonField x).getD (.str [])) ((aget h.latField x).getD (.str [])) a b →
      ¬ (-180 ≤ a ∧ a ≤ 180 ∧ -90 ≤ b ∧ b ≤ 90))
    (hwkt : ∀ lat, aget h.latField x = some lat → ¬ StartsAsWkt (textOf E o lat)) :
    getAt (p ++ [.key h.latField] ++ [.key "_gp".toList]) (.dict pd.parsed) = none ∧
      getAt (p ++ [.key h.latField] ++ [.key "_gs".toList]) (.dict pd.parsed) = none := by
  obtain ⟨hl1, hl2, hl3⟩ := hl
  refine (C83_places (E.withGeo G) hS o hn d pd hw hf hp (p ++ [.key h.latField])).2 ?_
  rintro g ⟨-, ⟨p', x', h', e, hx', hh', hg⟩ | ⟨-, w, hw', hg⟩⟩
  · obtain ⟨e1, e2⟩ := List.append_inj' e rfl
    have e2 : h.latField = h'.latField := PathEl.key.inj (List.cons.inj e2).1
    subst e1
    rw [hx] at hx'
    cases hx'
    have : h = h' := List.inj_on_of_nodup_map hn hh hh' e2
    subst this
    have hr : ∀ r ∈ (match h.radiusField with | some (c :: r) => some ((aget (c :: r) x).getD (.str [])) | _ => none), r.Plain := by
      intro r hr
      cases e : h.radiusField with
      | none => rw [e] at hr; cases hr
      | some f =>
        rw [e] at hr
        cases f with
        | nil => cases hr
        | cons c f => cases hr; exact hl3 _ e
    obtain ⟨a, b, h1, h2, h3, h4, h5, -⟩ := (C112_hint G hG hring _ _ hl1 hl2 _ hr h.segments g).1 hg
    exact hno a b h1 ⟨h2, h3, h4, h5⟩
  · rw [getAt_append, hx] at hw'
    have hw' : aget h.latField x = some w := by
      cases e : aget h.latField x with
      | none => simp [getAt, e] at hw'
      | some v => simpa [getAt, e] using hw'
    rcases hg with ⟨-, hg⟩ | ⟨y, rfl, -⟩
    · have e : textOf (E.withGeo G) o w = textOf E o w := by cases w <;> rfl
      rw [e] at hg
      exact hwkt w hw' ((wktParsed_iff).1 hg).1
    · rw [hw'] at hl2
      exact hl2

/-- **C112**, what is found: records with coordinates in the ranges are among those `has_geo()` finds. -/
theorem C112_has_geo (E : ParseEnv) (G : GeoLib) (hG : G.Reads) (hring : ∀ a b r n, Planar (G.bufferRing a b r n) ∧ ClosedRing (G.bufferRing a b r n))
    (hE : (E.withGeo G).IgnoresOrder) (hS : (E.withGeo G).ScalarHints) (o : ParsingOptions) (hn : (o.geoHints.map GeoFieldHint.latField).Nodup) (d : Dict)
    (pd : ParsedData) (hw : (Value.dict d).wf = true) (hf : FieldNames (.dict d)) (hp : parse (E.withGeo G) o d = .ok pd)
    (h : GeoFieldHint) (hh : h ∈ o.geoHints) (p : Path) (x : Dict) (hx : getAt p (.dict d) = some (.dict x)) (hl : PlainFields x h)
    (lon lat : Value) (hlon : aget h.lonField x = some lon) (hlat : aget h.latField x = some lat) (a b : ℚ) (hc : Coordinates lon lat a b)
    (ha : -180 ≤ a ∧ a ≤ 180) (hb : -90 ≤ b ∧ b ≤ 90) (Q : QueryEnv) : (EsQuery.exists_ hasGeo).matches Q pd.parsed = true := by
  rw [C83_has_geo _ hE hS o d pd hw hf hp Q]
  by_contra hno
  obtain ⟨s, -, h1, -⟩ := C112_indexed E G hG hring hS o hn d pd hw hf hp h hh p x hx hl lon lat hlon hlat a b hc ha hb
  have h2 := ((C83_places _ hS o hn d pd hw hf hp (p ++ [.key h.latField])).2 (fun g hg => hno ⟨_, g, hg⟩)).1
  cases h1.symm.trans h2

/-- Somewhere in the data the fields of a hint are plain values, and coordinates in the ranges of longitudes and latitudes. -/
def Located (o : ParsingOptions) (d : Dict) : Prop :=
  ∃ h ∈ o.geoHints, ∃ (p : Path) (x : Dict) (lon lat : Value) (a b : ℚ), getAt p (.dict d) = some (.dict x) ∧ PlainFields x h ∧
    aget h.lonField x = some lon ∧ aget h.latField x = some lat ∧ Coordinates lon lat a b ∧ (-180 ≤ a ∧ a ≤ 180) ∧ -90 ≤ b ∧ b ≤ 90

/-- **C112**, from calls to what is found: after a sync, `search(v).filter(has_geo())` finds each record once whose data as of `v` has coordinates somewhere. -/
theorem C112_first_sync (E : ParseEnv) (G : GeoLib) (hG : G.Reads) (hring : ∀ a b r n, Planar (G.bufferRing a b r n) ∧ ClosedRing (G.bufferRing a b r n))
    (hE : (E.withGeo G).IgnoresOrder) (hS : (E.withGeo G).ScalarHints) (U : Unicode) (hU : U.Sane)
    (maxDocs : Nat) (db : PyStr) (calls : List ApiCall) (ho : Orderly calls) (hv : ∃ v, IsVersion (afterCalls U db calls) db v)
    (hn : NoPunsAmong U (calls.flatMap ApiCall.stream)) :
    ∃ es, sync (realParser (E.withGeo G)) maxDocs db false (afterCalls U db calls) [] = .ok es ∧
      ∀ (Q : QueryEnv) (v : Int) (id : PyStr), HoldsAsOf (ingested U db calls) (committedOptionsOf db (afterCalls U db calls)) v id (fun a o => Located o a) →
        (foundIds (es.searchFor Q (.version v) (.exists_ hasGeo))).count id = 1 := by
  obtain ⟨es, h1, h2⟩ := C83_first_sync_typed (E.withGeo G) hE hS U hU maxDocs db calls ho hv hn
  refine ⟨es, h1, fun Q v id ⟨hp, d, o, hd, ho, h, hh, p, x, lon, lat, a, b, hx, hl, hlon, hlat, hc, ha, hb⟩ => ?_⟩
  obtain ⟨g, hg, -⟩ := hintPlace_of_coordinates E G hG hring h x hl lon lat hlon hlat a b hc ha hb
  exact List.count_eq_one_of_mem (h2 Q v).1 (((h2 Q v).2 id).2 ⟨hp, d, o, hd, ho, _, g, by simp, .inl ⟨p, x, h, rfl, hx, hh, hg⟩⟩)

/-- Some texts are plain. -/
theorem plain_text {s : PyStr} (h : s.all (fun c => decide (32 ≤ c.toNat ∧ c.toNat < 127) && decide (c.toLower ≠ 'n') && decide (c ≠ '_')) = true)
    (h' : (match textNumber s with | none => true | some x => decide (x.2 = 0) || decide (1 / 1000000 ≤ x.2 ∧ x.2 ≤ 1000000)) = true) : (Value.str s).Plain := by
  have hc : ∀ c ∈ s, ((32 ≤ c.toNat ∧ c.toNat < 127) ∧ c.toLower ≠ 'n') ∧ c ≠ '_' := by
    intro c hc
    have := List.all_eq_true.1 h c hc
    simpa only [Bool.and_eq_true, decide_eq_true_eq] using this
  refine ⟨fun c h => .inr (hc c h).1.1, fun h => (hc _ h).2 rfl, fun neg q hq => ?_, ?_⟩
  · rw [textNumber_iff.2 hq] at h'
    dsimp only at h'
    rw [Bool.or_eq_true, decide_eq_true_eq, decide_eq_true_eq] at h'
    rcases h' with h' | ⟨h1, h2⟩
    · exact .inl h'
    · exact .inr ⟨le_trans (le_trans (zpow_le_zpow_right₀ (by norm_num) (by norm_num : (-1022 : ℤ) ≤ -20)) (by norm_num)) h1,
        h2.trans (le_trans (by norm_num) (zpow_le_zpow_right₀ (by norm_num) (by norm_num : (20 : ℤ) ≤ 1023)))⟩
  rintro w hw ⟨before, sign, word, after, rfl, -, -, -, rfl⟩
  have hn : 'n' ∈ word.map Char.toLower := by
    generalize word.map Char.toLower = w at hw
    simp only [List.mem_cons, List.not_mem_nil, or_false] at hw
    rcases hw with rfl | rfl | rfl <;> decide
  obtain ⟨c, hc', e⟩ := List.mem_map.1 hn
  exact (hc c (by simp [hc'])).1.2 e

theorem coordinates_of_read {lon lat : Value} {x y : ℚ} (h : (match readPoint lon lat with | some (.point [c]) => decide (c.x = x ∧ c.y = y) | _ => false) = true) :
    Coordinates lon lat x y := by
  cases e : readPoint lon lat with
  | none => rw [e] at h; cases h
  | some p =>
    obtain ⟨a, b, hab, rfl⟩ := (readPoint_iff _ _ _).1 e
    rw [e] at h
    obtain ⟨rfl, rfl⟩ := of_decide_eq_true h
    exact hab

/-- **C112**: a boolean beside a text is no coordinate, although the number it is equal to may be one. So equal values are not always places alike. -/
theorem C112_booleans (E : ParseEnv) (G : GeoLib) (hG : G.Reads) (hring : ∀ a b r n, Planar (G.bufferRing a b r n) ∧ ClosedRing (G.bufferRing a b r n)) :
    ¬ (E.withGeo G).PlacesOfEqual := by
  intro hP
  have hs : (Value.str "1".toList).Plain := plain_text (by decide +kernel) (by decide +kernel)
  have h1 : hintParsed G (.int 1) (.str "1".toList) none 0 ≠ none := by
    intro h
    have := (C112_hint G hG hring (.int 1) (.str "1".toList) trivial hs none (by simp) 0 (G.toWkt (.point [⟨1, 1, []⟩]), G.toWkt (.point [⟨1, 1, []⟩]))).2
      ⟨1, 1, coordinates_of_read (by decide +kernel), by norm_num, by norm_num, by norm_num, by norm_num, rfl, .inr ⟨by simp, rfl⟩⟩
    rw [h] at this
    cases this
  have h2 : hintParsed G (.bool true) (.str "1".toList) none 0 = none := by
    cases e : hintParsed G (.bool true) (.str "1".toList) none 0 with
    | none => rfl
    | some g =>
      obtain ⟨x, y, ⟨-, -, h⟩, -⟩ := (C112_hint G hG hring (.bool true) (.str "1".toList) trivial hs none (by simp) 0 g).1 e
      cases (h (.inr ⟨_, rfl⟩)).1
  have h3 := hP.hint (.int 1) (.str "1".toList) none 0 (.bool true) (.str "1".toList) none (by rfl) (by rfl) (by decide) (by rfl) (by rfl) (by decide)
  have h3 : (hintParsed G (.int 1) (.str "1".toList) none 0).isSome = (hintParsed G (.bool true) (.str "1".toList) none 0).isSome := h3
  rw [h2] at h3
  cases e : hintParsed G (.int 1) (.str "1".toList) none 0 with
  | none => exact h1 e
  | some g => rw [e] at h3; cases h3

/-- A geometry library that reads values as modelled, and writes points with 17 digits. -/
def exCoords : GeoLib := { exGeo with
  fromGeojson := fun _ => none
  point := readPoint
  toFloat := readRadius
  toWkt := fun s => match s with
    | .point [c] => "POINT (".toList ++ (formatG 17 (.fin c.x) ++ ' ' :: (formatG 17 (.fin c.y) ++ [')']))
    | _ => "shape".toList }

theorem format_number {x : ℚ} (h : IsDouble x) : NumberValue (.str (formatG 17 (.fin x))) x := by
  by_cases h0 : x = 0
  · subst h0
    have e : fl 0 = 0 := by decide +kernel
    have := fl_rounded 0
    rw [e] at this
    exact .text _ false 0 0 (textNumber_iff.1 (by decide +kernel)) this
  · obtain ⟨neg, r, h1, h2⟩ := C111_back (p := 17) (by omega) h h0
    exact .text _ neg r x h1 h2

theorem exCoords_reads : exCoords.Reads where
  point _ _ _ _ := rfl
  radius _ _ := rfl
  wkt x y hx hy := ⟨_, _, rfl, format_number hx, format_number hy⟩

theorem exCoords_scalar (E : ParseEnv) : (E.withGeo exCoords).ScalarHints := by
  intro lon lat r n g h
  obtain ⟨p, s, h1, -⟩ := (C67_hint exCoords exGeo_ring lon lat r n g).1 h
  obtain ⟨x, y, ⟨-, h2, -⟩, -⟩ := (readPoint_iff lon lat p).1 h1
  cases h2 with
  | number _ _ h =>
    cases h with
    | text s neg q _ hs _ =>
      refine ⟨rfl, ?_⟩
      rintro ⟨⟩
      have : textNumber [] = some (neg, q) := textNumber_iff.2 hs
      revert this
      have e : textNumber [] = none := by decide +kernel
      rw [e]
      intro h
      cases h
    | _ => exact ⟨rfl, by intro h; cases h⟩
  | true => exact ⟨rfl, by intro h; cases h⟩
  | false => exact ⟨rfl, by intro h; cases h⟩

theorem exCoords_order (E : ParseEnv) : (E.withGeo exCoords).IgnoresOrder := by
  refine ⟨fun _ _ _ _ _ => rfl, ?_⟩
  let red : Value → Value := fun v => if v.isScalar = true then v else .list []
  have e1 : ∀ lon lat, readPoint lon lat = readPoint (red lon) (red lat) := by
    intro lon lat
    cases lon <;> cases lat <;> rfl
  have e2 : ∀ v, readRadius v = readRadius (red v) := by
    intro v
    cases v <;> rfl
  have e3 : ∀ v w, SE v w → red v = red w := by
    intro v w h
    by_cases hv : v.isScalar = true
    · rw [h.scalar hv]
    · have hw : ¬ w.isScalar = true := fun hw => hv (by rw [← h.symm.scalar hw]; exact hw)
      simp only [red, if_neg hv, if_neg hw]
  have e4 : ∀ lon lat r n, hintParsed exCoords lon lat r n = hintParsed exCoords (red lon) (red lat) (r.map red) n := by
    intro lon lat r n
    have h1 : exCoords.point lon lat = exCoords.point (red lon) (red lat) := e1 lon lat
    cases r with
    | none => unfold hintParsed; rw [h1]; rfl
    | some r =>
      have h2 : exCoords.toFloat r = exCoords.toFloat (red r) := e2 r
      unfold hintParsed
      dsimp only [Option.map]
      have h3 : ∀ p, hintShape exCoords p r n = hintShape exCoords p (red r) n := by
        intro p
        unfold hintShape
        rw [h2]
      rw [h1]
      simp only [h3]
  intro lon lat r n lon' lat' r' h1 h1' h2 h3 h3' h4 h5
  show hintParsed exCoords lon lat r n = hintParsed exCoords lon' lat' r' n
  rw [e4, e4 lon', e3 lon lon' ⟨h1, h1', h2⟩, e3 lat lat' ⟨h3, h3', h4⟩]
  rcases h5 with ⟨rfl, rfl⟩ | ⟨x, x', rfl, rfl, h6, h7, h8⟩
  · rfl
  · rw [Option.map, Option.map, e3 x x' ⟨h6, h7, h8⟩]

/-- `1` beside a text, and then `True`, which is equal to it. -/
def exBoolCalls : List ApiCall :=
  [.updateOptions exParseOpts true 1,
    .ingest none [⟨['a'], [(.str "lat".toList, .str ['5']), (.str "lon".toList, .int 1)]⟩] true 2,
    .ingest none [⟨['a'], [(.str "lat".toList, .str ['5']), (.str "lon".toList, .bool true), (.str ['z'], .int 1)]⟩] true 3]

set_option maxRecDepth 100000 in
/-- **C112**: with such a library, what `C83_first_sync` assumes about equal values is needed. A record with a place that is given again with `True` for `1` beside a text is
not found by `has_geo()` any more as of the first version, whose data had a place: `ingest` takes `1` and `True` as equal, and keeps `True`. -/
theorem C112_equal_refuted : ∃ (E : ParseEnv) (G : GeoLib), G.Reads ∧ (E.withGeo G).IgnoresOrder ∧ (E.withGeo G).ScalarHints ∧ ∃ (calls : List ApiCall) (es : _),
    Orderly calls ∧ sync (realParser (E.withGeo G)) 10 ['x'] false (afterCalls asciiU ['x'] calls) [] = .ok es ∧
    ['a'] ∉ foundIds (es.searchFor exQuery (.version 2) (.exists_ hasGeo)) ∧
    HoldsAsOf (ingested asciiU ['x'] calls) (committedOptionsOf ['x'] (afterCalls asciiU ['x'] calls)) 2 ['a'] (fun a o => ∃ p g, PlaceAt (E.withGeo G) o a p g) := by
  refine ⟨exEnv, exCoords, exCoords_reads, exCoords_order _, exCoords_scalar _, exBoolCalls, ?_⟩
  have hf : (match sync (realParser (exEnv.withGeo exCoords)) 10 ['x'] false (afterCalls asciiU ['x'] exBoolCalls) [] with
    | .ok es => decide (['a'] ∉ foundIds (es.searchFor exQuery (.version 2) (.exists_ hasGeo))) | .error _ => false) = true := by decide +kernel
  cases h : sync (realParser (exEnv.withGeo exCoords)) 10 ['x'] false (afterCalls asciiU ['x'] exBoolCalls) [] with
  | error e => rw [h] at hf; cases hf
  | ok es =>
    rw [h] at hf
    refine ⟨es, ⟨by decide +kernel, ?_⟩, rfl, of_decide_eq_true hf, ?_⟩
    · intro c hc
      simp only [exBoolCalls, List.mem_cons, List.not_mem_nil, or_false] at hc
      rcases hc with rfl | rfl | rfl <;> unfold NoSpan <;> decide
    · have e : ∃ d3, (ingested asciiU ['x'] exBoolCalls ['a']).committed =
        [(3, d3), (2, [("lat".toList, .str ['5']), ("lon".toList, .int 1), ("_id".toList, .str ['a'])])] := ⟨_, by rfl⟩
      have eo : committedOptionsOf ['x'] (afterCalls asciiU ['x'] exBoolCalls) = [(1, exParseOpts)] := by rfl
      obtain ⟨d3, e⟩ := e
      refine ⟨by decide +kernel, [("lat".toList, .str ['5']), ("lon".toList, .int 1), ("_id".toList, .str ['a'])], exParseOpts, ?_, ?_, ?_⟩
      · rw [e]
        refine ⟨2, by simp, by omega, ?_⟩
        intro w y hw
        simp only [List.mem_cons, Prod.mk.injEq, List.not_mem_nil, or_false] at hw
        omega
      · rw [e, eo]
        refine .inl ⟨1, by simp [effectiveOptions], by omega, ?_⟩
        intro w y hw
        simp [effectiveOptions] at hw
        omega
      · refine ⟨[.key "lat".toList], ("POINT (1 5)".toList, "POINT (1 5)".toList), by simp, .inl ⟨[], _, ⟨"lat".toList, "lon".toList, none, 16⟩, rfl, rfl, by decide, ?_⟩⟩
        show hintParsed exCoords (.int 1) (.str ['5']) none 16 = _
        decide +kernel

/-- Some coordinates, and values that are none. -/
example : hintParsed exCoords (.str " -0.1276".toList) (.float (.fin (103 / 2))) none 16 = some ("POINT (-0.12759999999999999 51.5)".toList, "POINT (-0.12759999999999999 51.5)".toList) ∧
    hintParsed exCoords (.int 180) (.str "-9e1".toList) (some (.str "x".toList)) 16 = some ("POINT (180 -90)".toList, "POINT (180 -90)".toList) ∧
    hintParsed exCoords (.int 1) (.int 2) (some (.str " 3 ".toList)) 16 = some ("POINT (1 2)".toList, "shape".toList) ∧
    hintParsed exCoords (.bool true) (.int 2) none 16 = some ("POINT (1 2)".toList, "POINT (1 2)".toList) ∧
    hintParsed exCoords (.bool true) (.str "2".toList) none 16 = none ∧ hintParsed exCoords (.str "181".toList) (.str "2".toList) none 16 = none ∧
    hintParsed exCoords (.str "51N".toList) (.str "2".toList) none 16 = none ∧ hintParsed exCoords .none (.int 2) none 16 = none := by
  refine ⟨?_, ?_, ?_, ?_, ?_, ?_, ?_, ?_⟩ <;> decide +kernel

/-- Data whose fields are coordinates, and data whose fields are none. -/
def exLocated : Dict := [("a".toList, .dict [("lat".toList, .str " 51.5".toList), ("lon".toList, .int (-1))])]
def exNotLocated : Dict := [("a".toList, .dict [("lat".toList, .str "high".toList), ("lon".toList, .int (-1))])]

theorem exLocated_plain : PlainFields [("lat".toList, .str " 51.5".toList), ("lon".toList, .int (-1))] ⟨"lat".toList, "lon".toList, none, 16⟩ :=
  ⟨trivial, plain_text (by decide +kernel) (by decide +kernel), by intro f h; cases h⟩

theorem exNotLocated_plain : PlainFields [("lat".toList, .str "high".toList), ("lon".toList, .int (-1))] ⟨"lat".toList, "lon".toList, none, 16⟩ :=
  ⟨trivial, plain_text (by decide +kernel) (by decide +kernel), by intro f h; cases h⟩

/-- The hypotheses are met. -/
example : exCoords.Reads ∧ (exEnv.withGeo exCoords).ScalarHints ∧ (exEnv.withGeo exCoords).IgnoresOrder ∧ (exParseOpts.geoHints.map GeoFieldHint.latField).Nodup ∧
    (Value.dict exLocated).wf = true ∧ FieldNames (.dict exLocated) ∧ Coordinates (.int (-1)) (.str " 51.5".toList) (-1) (103 / 2) ∧
    (match parse (exEnv.withGeo exCoords) exParseOpts exLocated with
      | .ok pd => decide (getAt [.key "a".toList, .key "lat".toList, .key "_gp".toList] (.dict pd.parsed) = some (.str "POINT (-1 51.5)".toList))
      | .error _ => false) = true :=
  ⟨exCoords_reads, exCoords_scalar _, exCoords_order _, by decide, by decide, fieldNames_of_check (by decide), coordinates_of_read (by decide +kernel), by decide +kernel⟩

example : (Value.dict exNotLocated).wf = true ∧ FieldNames (.dict exNotLocated) ∧ (∀ a b, ¬ Coordinates (.int (-1)) (.str "high".toList) a b) ∧
    ¬ StartsAsWkt (textOf exEnv exParseOpts (.str "high".toList)) ∧ (parse (exEnv.withGeo exCoords) exParseOpts exNotLocated).isOk = true := by
  refine ⟨by decide, fieldNames_of_check (by decide), ?_, ?_, by decide +kernel⟩
  · intro a b h
    have h1 := (readPoint_iff _ _ _).2 ⟨a, b, h, rfl⟩
    have h2 : (readPoint (.int (-1)) (.str "high".toList)).isNone = true := by decide +kernel
    rw [h1] at h2
    cases h2
  · rw [← wktStart_iff]
    decide +kernel

/-- A record with coordinates that are texts, and then others. -/
def exLocatedCalls : List ApiCall :=
  [.updateOptions exParseOpts true 1,
    .ingest none [⟨['a'], [(.str "lat".toList, .str " 51.5".toList), (.str "lon".toList, .int (-1))]⟩, ⟨['b'], [(.str "lat".toList, .str "high".toList)]⟩] true 2,
    .ingest none [⟨['a'], [(.str "lat".toList, .str "9e1".toList), (.str "lon".toList, .int 180)]⟩] true 3]

set_option maxRecDepth 100000 in
/-- The hypotheses of `C112_first_sync` hold for these calls, and the record is found. -/
example : Orderly exLocatedCalls ∧ (∃ v, IsVersion (afterCalls asciiU ['x'] exLocatedCalls) ['x'] v) ∧ NoPunsAmong asciiU (exLocatedCalls.flatMap ApiCall.stream) ∧
    Located exParseOpts [("lat".toList, .str " 51.5".toList), ("lon".toList, .int (-1)), ("_id".toList, .str ['a'])] ∧
    (match sync (realParser (exEnv.withGeo exCoords)) 10 ['x'] false (afterCalls asciiU ['x'] exLocatedCalls) [] with
      | .ok es => decide (foundIds (es.searchFor exQuery (.version 2) (.exists_ hasGeo)) = [['a']] ∧
          foundIds (es.searchFor exQuery (.version 3) (.exists_ hasGeo)) = [['a']])
      | .error _ => false) = true := by
  refine ⟨⟨by decide +kernel, ?_⟩,
    ⟨1, .inr ⟨(afterCalls asciiU ['x'] exLocatedCalls).options.head (by decide +kernel), by decide +kernel, by decide +kernel, by decide +kernel⟩⟩,
    noPuns_of_flat (by decide +kernel) (by decide +kernel), ?_, by decide +kernel⟩
  · intro c hc
    simp only [exLocatedCalls, List.mem_cons, List.not_mem_nil, or_false] at hc
    rcases hc with rfl | rfl | rfl <;> unfold NoSpan <;> decide
  · exact ⟨⟨"lat".toList, "lon".toList, none, 16⟩, by decide, [], _, .int (-1), .str " 51.5".toList, -1, 103 / 2, rfl,
      ⟨trivial, plain_text (by decide +kernel) (by decide +kernel), by intro f h; cases h⟩, by decide +kernel, by decide +kernel, coordinates_of_read (by decide +kernel), by norm_num, by norm_num⟩

end Splitgill.Props
