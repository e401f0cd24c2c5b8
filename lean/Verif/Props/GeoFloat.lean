import Verif.Proof.GeoFloat2
import Verif.Props.Geo
/-!
# C117: the winding check with floats

C53 is about exact sums. Here every operation rounds, and the sum is that of older or newer Pythons (which compensate for rounding).
-/

namespace Splitgill.Props
open Splitgill

/-- C117 in full: on the map, for coordinates that are floats, the check accepts exactly the polygons that follow the right-hand rule. -/
def C117_full (newer : Bool) : Prop :=
  ∀ (e : List Coord) (is : List (List Coord)),
    (Planar e ∧ ClosedRing e ∧ FloatRing e ∧ ∀ c ∈ e, c.OnMap) →
    (∀ i ∈ is, Planar i ∧ ClosedRing i ∧ FloatRing i ∧ ∀ c ∈ i, c.OnMap) →
    ∃ b, isWindingValidFl newer e is = .ok b ∧ (b = true ↔ RightHand e is)

/-- A counterclockwise sliver: two degrees long and `2 ** -46` degrees high. -/
def exSliver : List Coord := [⟨0, 64, []⟩, ⟨1, 64, []⟩, ⟨2, 64 + 1 / 2 ^ 46, []⟩, ⟨0, 64, []⟩]

/-- A clockwise one, three degrees long. -/
def exSliver2 : List Coord := [⟨0, 64, []⟩, ⟨1, 64 + 2 / 2 ^ 46, []⟩, ⟨3, 64 + 3 / 2 ^ 46, []⟩, ⟨0, 64, []⟩]

/-- The slivers are polygons with floats on the map. -/
theorem exSliver_ok (r : List Coord) (h : r = exSliver ∨ r = exSliver2) :
    Planar r ∧ ClosedRing r ∧ FloatRing r ∧ ∀ c ∈ r, c.OnMap := by
  have d : ∀ n : ℤ, |n| < 2 ^ 53 → IsDouble n := fun n hn => ⟨n, 0, hn, by simp⟩
  have d2 : ∀ n : ℤ, |n| < 2 ^ 53 → IsDouble (n / 2 ^ 46) := fun n hn => ⟨n, -46, hn, by
    rw [zpow_neg, div_eq_mul_inv]
    norm_cast⟩
  have d0 : IsDouble 0 := by simpa using d 0 (by norm_num)
  have d1 : IsDouble 1 := by simpa using d 1 (by norm_num)
  have dd : IsDouble 2 := by simpa using d 2 (by norm_num)
  have d3 : IsDouble 3 := by simpa using d 3 (by norm_num)
  have d64 : IsDouble 64 := by simpa using d 64 (by norm_num)
  have e1 : IsDouble (64 + 1 / 2 ^ 46) := by
    have := d2 (2 ^ 52 + 1) (by norm_num)
    norm_num at this ⊢
    exact this
  have e2 : IsDouble (64 + 2 / 2 ^ 46) := by
    have := d2 (2 ^ 52 + 2) (by norm_num)
    norm_num at this ⊢
    exact this
  have e3 : IsDouble (64 + 3 / 2 ^ 46) := by
    have := d2 (2 ^ 52 + 3) (by norm_num)
    norm_num at this ⊢
    exact this
  rcases h with rfl | rfl
  · refine ⟨by unfold Planar; decide, rfl, ?_, ?_⟩
    · intro c hc
      simp only [exSliver, List.mem_cons, List.not_mem_nil, or_false] at hc
      rcases hc with rfl | rfl | rfl | rfl
      · exact ⟨d0, d64⟩
      · exact ⟨d1, d64⟩
      · exact ⟨dd, e1⟩
      · exact ⟨d0, d64⟩
    · unfold Coord.OnMap
      decide +kernel
  · refine ⟨by unfold Planar; decide, rfl, ?_, ?_⟩
    · intro c hc
      simp only [exSliver2, List.mem_cons, List.not_mem_nil, or_false] at hc
      rcases hc with rfl | rfl | rfl | rfl
      · exact ⟨d0, d64⟩
      · exact ⟨d1, e2⟩
      · exact ⟨d3, e3⟩
      · exact ⟨d0, d64⟩
    · unfold Coord.OnMap
      decide +kernel

/-- What happens to the slivers: the first one is right and rejected, the second one is wrong and accepted, with both sums. -/
theorem C117_slivers (newer : Bool) :
    (RightHand exSliver [] ∧ isWindingValidFl newer exSliver [] = .ok false) ∧
    (¬ RightHand exSliver2 [] ∧ isWindingValidFl newer exSliver2 [] = .ok true) := by
  have h1 : 0 < signedArea exSliver := by decide +kernel
  have h2 : ¬ 0 < signedArea exSliver2 := by decide +kernel
  refine ⟨⟨⟨h1, by simp⟩, ?_⟩, fun h => h2 h.1, ?_⟩ <;> cases newer <;> decide +kernel

/-- **C117 does not hold in full**: very thin polygons are judged wrongly, in both ways, with both sums. -/
theorem C117_refuted (newer : Bool) : ¬ C117_full newer := by
  intro h
  obtain ⟨b, hb, hiff⟩ := h exSliver [] (exSliver_ok _ (.inl rfl)) (by simp)
  rw [(C117_slivers newer).1.2] at hb
  cases hb
  exact absurd (hiff.2 (C117_slivers newer).1.1) (by simp)

/-- **C117**: an outer ring with a coordinate that has more than two numbers makes the check raise. -/
theorem C117_dims (newer : Bool) (e : List Coord) (is : List (List Coord)) (h2 : 2 ≤ e.length) (c : Coord) (hc : c ∈ e) (hd : c.rest ≠ []) :
    isWindingValidFl newer e is = .error .valueError := by
  have h : edgesFl e = .error .valueError := by
    induction e with
    | nil => cases hc
    | cons a e ih =>
      cases e with
      | nil => exact absurd h2 (by simp)
      | cons b r =>
        rw [edgesFl]
        split
        · rename_i ha hb
          cases r with
          | nil =>
            rcases List.mem_cons.1 hc with rfl | hc
            · exact absurd ha hd
            · exact absurd ((List.mem_singleton.1 hc) ▸ hb) hd
          | cons d r =>
            rw [ih (by simp) ((List.mem_cons.1 hc).resolve_left (fun e => hd (e ▸ ha)))]
        · rfl
  rw [isWindingValidFl, h]

/-- A ring with a height. -/
example : isWindingValidFl true [⟨0, 0, []⟩, ⟨1, 0, []⟩, ⟨1, 1, [5]⟩, ⟨0, 0, []⟩] [] = .error .valueError :=
  C117_dims true _ [] (by decide) ⟨1, 1, [5]⟩ (by simp) (by simp)

/-- **C117 (partial).** If the area inside each ring is not very small (`ClearRing`), the check accepts exactly the polygons that follow the
right-hand rule, with both sums. Missing: thin rings, see `C117_slivers`. -/
theorem C117_partial (newer : Bool) (e : List Coord) (is : List (List Coord)) (he : Planar e ∧ ClosedRing e ∧ ClearRing e)
    (hi : ∀ i ∈ is, Planar i ∧ ClosedRing i ∧ ClearRing i) :
    ∃ b, isWindingValidFl newer e is = .ok b ∧ (b = true ↔ RightHand e is) := isWindingValidFl_eq newer he hi

/-- A square with sides of a millionth of a degree. -/
def exSmall : List Coord :=
  [⟨100, 50, []⟩, ⟨100 + 1 / 10 ^ 6, 50, []⟩, ⟨100 + 1 / 10 ^ 6, 50 + 1 / 10 ^ 6, []⟩, ⟨100, 50 + 1 / 10 ^ 6, []⟩, ⟨100, 50, []⟩]

example : (Planar exSmall ∧ ClosedRing exSmall ∧ ClearRing exSmall) ∧ ClearRing exSquare ∧ ClearRing exHole ∧
    ¬ ClearRing exSliver := by
  refine ⟨⟨by unfold Planar; decide, rfl, ?_⟩, ?_, ?_, ?_⟩ <;> · unfold ClearRing; decide +kernel

/-- **C117 (grids).** If the coordinates are multiples of `1 / 2 ** k` on the map, like whole or half degrees, and not too many for `k`, there
is no rounding: the check is that of C53 for all rings, also for those without an area. -/
theorem C117_grid (newer : Bool) (k : Nat) (e : List Coord) (is : List (List Coord)) (he : Planar e ∧ GridRing k e)
    (hi : ∀ i ∈ is, Planar i ∧ GridRing k i) : isWindingValidFl newer e is = isWindingValid e is :=
  isWindingValidFl_grid newer he hi

/-- With ten bits after the point, 131071 coordinates. -/
example : GridRing 0 exSquare ∧ GridRing 10 exHole ∧ 2 ^ (16 + 2 * 10) * 131071 < 2 ^ 53 ∧
    isWindingValidFl true exSquare [exHole] = .ok true := by
  refine ⟨⟨?_, by decide⟩, ⟨?_, by decide⟩, by norm_num, by decide +kernel⟩
  · intro c hc
    simp only [exSquare, List.mem_cons, List.not_mem_nil, or_false] at hc
    rcases hc with rfl | rfl | rfl | rfl | rfl
    · exact ⟨by unfold Coord.OnMap; decide +kernel, 0, 0, by norm_num, by norm_num⟩
    · exact ⟨by unfold Coord.OnMap; decide +kernel, 4, 0, by norm_num, by norm_num⟩
    · exact ⟨by unfold Coord.OnMap; decide +kernel, 4, 4, by norm_num, by norm_num⟩
    · exact ⟨by unfold Coord.OnMap; decide +kernel, 0, 4, by norm_num, by norm_num⟩
    · exact ⟨by unfold Coord.OnMap; decide +kernel, 0, 0, by norm_num, by norm_num⟩
  · intro c hc
    simp only [exHole, List.mem_cons, List.not_mem_nil, or_false] at hc
    rcases hc with rfl | rfl | rfl | rfl
    · exact ⟨by unfold Coord.OnMap; decide +kernel, 1024, 1024, by norm_num, by norm_num⟩
    · exact ⟨by unfold Coord.OnMap; decide +kernel, 1024, 2048, by norm_num, by norm_num⟩
    · exact ⟨by unfold Coord.OnMap; decide +kernel, 2048, 2048, by norm_num, by norm_num⟩
    · exact ⟨by unfold Coord.OnMap; decide +kernel, 1024, 1024, by norm_num, by norm_num⟩

/-- **C117 (GeoJSON, partial).** With floats, a dict is taken as GeoJSON exactly if it is a shape on the map that follows the right-hand
rule, as in C67, if its rings are clear. Missing: thin rings. -/
theorem C117_geojson_partial (newer : Bool) (G : GeoLib) (d : Dict)
    (hflat : ∀ s, G.fromGeojson d = some s → s.Flat ∧ s.ClearRings) :
    ∃ x, geojsonParsedFl newer G d = .ok x ∧ ∀ g, x = some g ↔
      ∃ s, G.fromGeojson d = some s ∧ OnMap s ∧ s.RightHand ∧ g = (G.toWkt (G.centroid s), G.toWkt s) := by
  have e : geojsonParsedFl newer G d = geojsonParsed G d := by
    unfold geojsonParsedFl geojsonParsed
    cases hs : G.fromGeojson d with
    | none => rfl
    | some s =>
      obtain ⟨h1, h2⟩ := hflat s hs
      cases s with
      | polygon e is =>
        dsimp only
        obtain ⟨b, hb, hiff⟩ := isWindingValidFl_eq newer (e := e) (is := is) ⟨h1.1.1, h1.1.2, h2.1⟩
          (fun i hi => ⟨(h1.2 i hi).1, (h1.2 i hi).2, h2.2 i hi⟩)
        obtain ⟨b', hb', hiff'⟩ := isWindingValid_eq (e := e) (is := is) h1.1 h1.2
        have : b = b' := Bool.eq_iff_iff.2 (hiff.trans hiff'.symm)
        rw [hb, hb', this]
        rfl
      | point _ => rfl
      | lineString _ => rfl
      | other => rfl
  rw [e]
  exact C67_geojson G d (fun s hs => (hflat s hs).1)

end Splitgill.Props
