import Verif.Spec.Geo
import Mathlib.Tactic.Linarith
import Mathlib.Tactic.Ring
import Mathlib.Algebra.Order.Field.Basic
import Mathlib.Algebra.BigOperators.Group.List.Basic
/-!
# Proofs about geometry
-/

namespace Splitgill

theorem isShapeValid_iff (s : Shape) : isShapeValid s = true ↔ OnMap s := by
  have hr : ∀ c, isShapeValid.inRange c = true ↔ c.OnMap := by
    intro c
    simp [isShapeValid.inRange, Coord.OnMap, and_assoc]
  cases s with
  | point cs =>
    cases cs with
    | nil => exact ⟨nofun, fun h => by cases h; simp_all⟩
    | cons c cs =>
      simp only [isShapeValid, Shape.isEmpty, List.isEmpty_cons, Bool.false_eq_true, if_false, List.all_eq_true, hr]
      exact ⟨fun h => .point _ (by simp) h, fun h => by cases h; assumption⟩
  | lineString cs =>
    cases cs with
    | nil => exact ⟨nofun, fun h => by cases h; simp_all⟩
    | cons c cs =>
      simp only [isShapeValid, Shape.isEmpty, List.isEmpty_cons, Bool.false_eq_true, if_false, List.all_eq_true, hr]
      exact ⟨fun h => .lineString _ (by simp) h, fun h => by cases h; assumption⟩
  | polygon e is =>
    cases e with
    | nil => exact ⟨nofun, fun h => by cases h; simp_all⟩
    | cons c cs =>
      simp only [isShapeValid, Shape.isEmpty, List.isEmpty_cons, Bool.false_eq_true, if_false, List.all_eq_true, hr,
        List.mem_append, List.mem_flatten]
      constructor
      · intro h
        exact .polygon _ _ (by simp) (fun c hc => h c (.inl hc)) (fun i hi c hc => h c (.inr ⟨i, hi, hc⟩))
      · intro h
        cases h with
        | polygon _ _ _ h1 h2 =>
          rintro c (hc | ⟨i, hi, hc⟩)
          · exact h1 c hc
          · exact h2 i hi c hc
  | other => exact ⟨nofun, nofun⟩

/-- Twice the signed area. -/
def cross (r : List Coord) : ℚ := ((r.zip r.tail).map (fun e => e.1.x * e.2.y - e.2.x * e.1.y)).sum

theorem cross_cons (a b : Coord) (r : List Coord) :
    cross (a :: b :: r) = (a.x * b.y - b.x * a.y) + cross (b :: r) := by
  simp [cross]

theorem edgeSum_eq : ∀ (a : Coord) (r : List Coord), Planar (a :: r) →
    edgeSum (a :: r) = .ok ((((a :: r).getLast (by simp)).x * ((a :: r).getLast (by simp)).y - a.x * a.y) - cross (a :: r))
  | a, [], _ => by simp [edgeSum, cross]
  | a, b :: r, h => by
    have hb : Planar (b :: r) := fun c hc => h c (List.mem_cons_of_mem _ hc)
    have h1 := h a List.mem_cons_self
    have h2 := hb b List.mem_cons_self
    rw [edgeSum, h1, h2]
    dsimp only
    rw [edgeSum_eq b r hb]
    dsimp only
    have hl : (a :: b :: r).getLast (by simp) = (b :: r).getLast (by simp) := List.getLast_cons (by simp)
    rw [cross_cons, hl]
    congr 1
    ring

theorem edgeSum_closed {r : List Coord} (hp : Planar r) (hc : ClosedRing r) : edgeSum r = .ok (-2 * signedArea r) := by
  cases r with
  | nil => simp [edgeSum, signedArea]
  | cons a r =>
    rw [edgeSum_eq a r hp]
    have : (a :: r).getLast (by simp) = a := by
      have h : some a = (a :: r).getLast? := hc
      rw [List.getLast?_eq_some_getLast (by simp)] at h
      exact (Option.some.inj h).symm
    rw [this]
    congr 1
    unfold signedArea cross
    ring

theorem interiorsValid_eq : ∀ {is : List (List Coord)}, (∀ i ∈ is, Planar i ∧ ClosedRing i) →
    ∃ b, interiorsValid is = .ok b ∧ (b = true ↔ ∀ i ∈ is, signedArea i ≤ 0)
  | [], _ => ⟨true, rfl, by simp⟩
  | i :: r, h => by
    obtain ⟨hp, hc⟩ := h i List.mem_cons_self
    rw [interiorsValid, edgeSum_closed hp hc]
    dsimp only
    split
    · rename_i hs
      refine ⟨false, rfl, ?_⟩
      constructor
      · intro h; cases h
      · intro hall
        have := hall i List.mem_cons_self
        linarith
    · rename_i hs
      obtain ⟨b, h1, h2⟩ := interiorsValid_eq (fun j hj => h j (List.mem_cons_of_mem _ hj))
      refine ⟨b, h1, h2.trans ?_⟩
      constructor
      · intro hall j hj
        rcases List.mem_cons.1 hj with rfl | hj
        · linarith
        · exact hall j hj
      · intro hall j hj
        exact hall j (List.mem_cons_of_mem _ hj)

theorem isWindingValid_eq {e : List Coord} {is : List (List Coord)} (he : Planar e ∧ ClosedRing e)
    (hi : ∀ i ∈ is, Planar i ∧ ClosedRing i) :
    ∃ b, isWindingValid e is = .ok b ∧ (b = true ↔ RightHand e is) := by
  unfold isWindingValid
  rw [edgeSum_closed he.1 he.2]
  dsimp only
  split
  · rename_i hs
    refine ⟨false, rfl, ?_⟩
    constructor
    · intro h; cases h
    · intro h
      have := h.1
      linarith
  · rename_i hs
    obtain ⟨b, h1, h2⟩ := interiorsValid_eq hi
    refine ⟨b, h1, h2.trans ?_⟩
    constructor
    · intro h; exact ⟨by linarith, h⟩
    · intro h; exact h.2

theorem cross_append_single : ∀ (r : List Coord) (a b : Coord),
    cross (r ++ [a, b]) = cross (r ++ [a]) + (a.x * b.y - b.x * a.y)
  | [], a, b => by simp [cross]
  | [c], a, b => by simp [cross]
  | c :: d :: r, a, b => by
    have ih := cross_append_single (d :: r) a b
    simp only [List.cons_append] at ih ⊢
    rw [cross_cons, cross_cons, ih]
    ring

theorem cross_reverse : ∀ r : List Coord, cross r.reverse = - cross r
  | [] => by simp [cross]
  | [a] => by simp [cross]
  | a :: b :: r => by
    have ih := cross_reverse (b :: r)
    rw [List.reverse_cons, List.reverse_cons, List.append_assoc, List.singleton_append, cross_append_single, cross_cons]
    rw [List.reverse_cons] at ih
    rw [ih]
    ring

theorem signedArea_reverse (r : List Coord) : signedArea r.reverse = - signedArea r := by
  have h := cross_reverse r
  unfold cross at h
  unfold signedArea
  rw [h]
  ring

theorem closedRing_reverse {r : List Coord} (h : ClosedRing r) : ClosedRing r.reverse := by
  unfold ClosedRing at *
  rw [List.head?_reverse, List.getLast?_reverse, h]

/-- A pair of texts for a point and a shape on the map. -/
def IndexedPlace (G : GeoLib) (g : PyStr × PyStr) : Prop :=
  ∃ pt s, Shape.IsPoint pt ∧ OnMap pt ∧ OnMap s ∧ g = (G.toWkt pt, G.toWkt s)

variable {G : GeoLib}

theorem toLower_toNat (c : Char) : c.toLower.toNat = if 65 ≤ c.toNat ∧ c.toNat ≤ 90 then c.toNat + 32 else c.toNat := by
  unfold Char.toLower
  split
  · rename_i h
    have h1 : 65 ≤ c.toNat := h.1
    have h2 : c.toNat ≤ 90 := h.2
    rw [if_pos ⟨h1, h2⟩]
    show (c.val + 32).toNat = _
    rw [UInt32.toNat_add]
    show (c.toNat + 32) % 2^32 = _
    omega
  · rename_i h
    have : ¬ (65 ≤ c.toNat ∧ c.toNat ≤ 90) := h
    rw [if_neg this]

theorem toUpper_toNat {c : Char} (h1 : 97 ≤ c.toNat) (h2 : c.toNat ≤ 122) : c.toUpper.toNat = c.toNat - 32 := by
  unfold Char.toUpper
  have h : 'a'.val ≤ c.val ∧ c.val ≤ 'z'.val := ⟨h1, h2⟩
  rw [dif_pos h]
  show (c.val + 4294967264).toNat = _
  rw [UInt32.toNat_add]
  show (c.toNat + 4294967264) % 2^32 = _
  omega

theorem char_eq_iff {a b : Char} : a = b ↔ a.toNat = b.toNat := ⟨fun h => h ▸ rfl, fun h => Char.ext (UInt32.toNat.inj h)⟩

theorem toLower_small {c l : Char} (hl : 97 ≤ l.toNat ∧ l.toNat ≤ 122) : c.toLower = l ↔ c = l ∨ c = l.toUpper := by
  rw [char_eq_iff, char_eq_iff, char_eq_iff, toLower_toNat, toUpper_toNat hl.1 hl.2]
  split <;> omega

theorem ignoreCase_iff {c l : Char} (hl : 97 ≤ l.toNat ∧ l.toNat ≤ 122) : ignoreCase c l = true ↔ SameLetter c l := by
  unfold ignoreCase SameLetter
  rw [toLower_small hl]
  simp only [Bool.or_eq_true, Bool.and_eq_true, beq_iff_eq, List.mem_cons, List.not_mem_nil, or_false]
  tauto

theorem startsIgnoring_iff : ∀ (name t : PyStr), (∀ l ∈ name, 97 ≤ l.toNat ∧ l.toNat ≤ 122) →
    (startsIgnoring t (name ++ [' ']) = true ↔ ∃ start rest, t = start ++ ' ' :: rest ∧ List.Forall₂ SameLetter start name)
  | [], t, _ => by
    cases t with
    | nil => simp [startsIgnoring]
    | cons c t =>
      have e : (' ' : Char).toUpper = ' ' := by decide
      simp [startsIgnoring, ignoreCase, e]
  | l :: name, t, h => by
    cases t with
    | nil => simp [startsIgnoring]
    | cons c t =>
      simp only [List.cons_append, startsIgnoring, Bool.and_eq_true, ignoreCase_iff (h l List.mem_cons_self),
        startsIgnoring_iff name t (fun x hx => h x (List.mem_cons_of_mem _ hx))]
      constructor
      · rintro ⟨h1, start, rest, rfl, h2⟩
        exact ⟨c :: start, rest, rfl, .cons h1 h2⟩
      · rintro ⟨start, rest, e, h2⟩
        cases h2 with
        | cons h3 h4 =>
          cases e
          exact ⟨h3, _, _, rfl, h4⟩

theorem wktStart_iff {t : PyStr} : wktStart t = true ↔ StartsAsWkt t := by
  have h1 := startsIgnoring_iff "point".toList t (by decide)
  have h2 := startsIgnoring_iff "linestring".toList t (by decide)
  have h3 := startsIgnoring_iff "polygon".toList t (by decide)
  unfold wktStart StartsAsWkt
  simp only [List.mem_cons, List.not_mem_nil, or_false, exists_eq_or_imp, exists_eq_left, Bool.or_eq_true, ← h1, ← h2, ← h3, or_assoc]
  rfl

theorem wktParsed_iff {t : PyStr} {g : PyStr × PyStr} : wktParsed G t = some g ↔
    StartsAsWkt t ∧ ∃ s, G.fromWkt t = some s ∧ OnMap s ∧ g = (G.toWkt (G.centroid s), G.toWkt s) := by
  rw [← wktStart_iff]
  unfold wktParsed
  cases hs : wktStart t with
  | false => simp
  | true =>
    cases hf : G.fromWkt t with
    | none => simp
    | some s =>
      by_cases hv : isShapeValid s = true
      · have := (isShapeValid_iff s).1 hv
        simp [hv, this, toParsed, eq_comm]
      · have h' : ¬ OnMap s := fun h => hv ((isShapeValid_iff s).2 h)
        simp only [Bool.not_eq_true] at hv
        simp [hv, h']

theorem wktParsed_place (hG : G.Sane) {t : PyStr} {g : PyStr × PyStr} (h : wktParsed G t = some g) : IndexedPlace G g := by
  obtain ⟨_, s, _, hs, rfl⟩ := wktParsed_iff.1 h
  exact ⟨_, s, (hG.centroid s hs).1, (hG.centroid s hs).2, hs, rfl⟩

theorem geojsonParsed_iff {d : Dict} (hflat : ∀ s, G.fromGeojson d = some s → s.Flat) :
    ∃ x, geojsonParsed G d = .ok x ∧ ∀ g, x = some g ↔
      ∃ s, G.fromGeojson d = some s ∧ OnMap s ∧ s.RightHand ∧ g = (G.toWkt (G.centroid s), G.toWkt s) := by
  unfold geojsonParsed
  cases hf : G.fromGeojson d with
  | none => exact ⟨none, rfl, by simp⟩
  | some s =>
    by_cases hv : isShapeValid s = true
    · have hm := (isShapeValid_iff s).1 hv
      have hfl := hflat s hf
      cases s with
      | polygon e is =>
        obtain ⟨b, hb, hiff⟩ := isWindingValid_eq hfl.1 hfl.2
        cases b with
        | true =>
          refine ⟨_, by simp [hv, hb]; rfl, ?_⟩
          have : Shape.RightHand (.polygon e is) := hiff.1 rfl
          simp [hm, this, toParsed, eq_comm]
        | false =>
          refine ⟨none, by simp [hv, hb], ?_⟩
          have : ¬ Shape.RightHand (.polygon e is) := fun h => absurd (hiff.2 h) (by simp)
          simp [this]
      | point cs => exact ⟨_, by simp [hv]; rfl, by simp [hm, Shape.RightHand, toParsed, eq_comm]⟩
      | lineString cs => exact ⟨_, by simp [hv]; rfl, by simp [hm, Shape.RightHand, toParsed, eq_comm]⟩
      | other => cases hm
    · have h' : ¬ OnMap s := fun h => hv ((isShapeValid_iff s).2 h)
      simp only [Bool.not_eq_true] at hv
      exact ⟨none, by simp [hv], by simp [h']⟩

theorem geojson_place {E : ParseEnv} (hG : G.Sane) {d : Dict} {g : PyStr × PyStr} (h : (E.withGeo G).geojson d = some g) :
    IndexedPlace G g := by
  have h : (match geojsonParsed G d with | .ok x => x | .error _ => none) = some g := h
  have key : ∀ s, isShapeValid s = true → IndexedPlace G (toParsed G (G.centroid s) s) := fun s hs =>
    have hs := (isShapeValid_iff s).1 hs
    ⟨_, s, (hG.centroid s hs).1, (hG.centroid s hs).2, hs, rfl⟩
  unfold geojsonParsed at h
  cases hf : G.fromGeojson d with
  | none => rw [hf] at h; cases h
  | some s =>
    rw [hf] at h
    by_cases hv : isShapeValid s = true
    · have := key s hv
      cases s with
      | polygon e is =>
        cases hb : isWindingValid e is with
        | error err => simp [hv, hb] at h
        | ok b => cases b <;> simp [hv, hb] at h; exact h ▸ this
      | point cs => simp [hv] at h; exact h ▸ this
      | lineString cs => simp [hv] at h; exact h ▸ this
      | other => cases hv
    · simp only [Bool.not_eq_true] at hv
      simp [hv] at h

theorem circle_eq (hring : ∀ a b r n, Planar (G.bufferRing a b r n) ∧ ClosedRing (G.bufferRing a b r n))
    {lat lon r : ℚ} {n : Int} {s : Shape} : createPolygonCircle G lat lon r n = .ok s ↔
    0 < r ∧ s = .polygon (G.bufferRing lat lon r n).reverse [] ∧ OnMap s ∧
      0 < signedArea (G.bufferRing lat lon r n).reverse := by
  unfold createPolygonCircle
  by_cases hr : r ≤ 0
  · rw [if_pos hr]
    exact ⟨fun h => (by cases h), fun h => absurd h.1 (not_lt.2 hr)⟩
  · rw [if_neg hr]
    have hr' := not_le.1 hr
    dsimp only
    obtain ⟨b, hb, hiff⟩ := isWindingValid_eq (e := (G.bufferRing lat lon r n).reverse) (is := [])
      ⟨fun c hc => (hring lat lon r n).1 c (List.mem_reverse.1 hc), closedRing_reverse (hring lat lon r n).2⟩ (by simp)
    have hRH : RightHand (G.bufferRing lat lon r n).reverse [] ↔ 0 < signedArea (G.bufferRing lat lon r n).reverse := by
      simp [RightHand]
    rw [hRH] at hiff
    by_cases hv : isShapeValid (.polygon (G.bufferRing lat lon r n).reverse []) = true
    · have hm := (isShapeValid_iff _).1 hv
      rw [hv, hb]
      cases b with
      | true =>
        have := hiff.1 rfl
        constructor
        · intro h
          cases h
          exact ⟨hr', rfl, hm, this⟩
        · rintro ⟨_, rfl, _⟩
          rfl
      | false =>
        constructor
        · intro h; cases h
        · rintro ⟨_, _, _, h⟩
          exact absurd (hiff.2 h) (by simp)
    · have h' : ¬ OnMap (.polygon (G.bufferRing lat lon r n).reverse []) := fun h => hv ((isShapeValid_iff _).2 h)
      simp only [Bool.not_eq_true] at hv
      rw [hv]
      constructor
      · intro h; cases h
      · rintro ⟨_, rfl, h, _⟩
        exact absurd h h'

theorem hintShape_spec (hring : ∀ a b r n, Planar (G.bufferRing a b r n) ∧ ClosedRing (G.bufferRing a b r n))
    {p : Shape} {r : Value} {n : Int} :
    CircleOf G p r n (hintShape G p r n) ∨ (hintShape G p r n = p ∧ ¬ ∃ s, CircleOf G p r n s) := by
  unfold hintShape
  split
  · rename_i c cs q hq
    split
    · rename_i hpos
      split
      · rename_i circle hc
        obtain ⟨_, rfl, hm, ha⟩ := (circle_eq hring).1 hc
        rw [if_pos ((isShapeValid_iff _).2 hm)]
        exact .inl ⟨c, cs, q, _, rfl, hq, hpos, rfl, rfl, hm, ha⟩
      · rename_i err hc
        refine .inr ⟨rfl, ?_⟩
        rintro ⟨s, c', cs', q', ring, hp, hq', _, rfl, rfl, hm, ha⟩
        cases hp
        rw [hq] at hq'
        cases hq'
        rw [(circle_eq hring).2 ⟨hpos, rfl, hm, ha⟩] at hc
        cases hc
    · rename_i hpos
      refine .inr ⟨rfl, ?_⟩
      rintro ⟨s, c', cs', q', ring, hp, hq', hpos', _⟩
      rw [hq] at hq'
      cases hq'
      exact hpos hpos'
  · rename_i hno
    refine .inr ⟨rfl, ?_⟩
    rintro ⟨s, c', cs', q', ring, rfl, hq', _⟩
    exact hno c' cs' q' rfl hq'

theorem circleOf_unique {p : Shape} {r : Value} {n : Int} {s s' : Shape} (h : CircleOf G p r n s)
    (h' : CircleOf G p r n s') : s = s' := by
  obtain ⟨c, cs, q, ring, rfl, hq, _, rfl, rfl, _⟩ := h
  obtain ⟨c', cs', q', ring', hp, hq', _, rfl, rfl, _⟩ := h'
  cases hp
  rw [hq] at hq'
  cases hq'
  rfl

theorem hintParsed_iff (hring : ∀ a b r n, Planar (G.bufferRing a b r n) ∧ ClosedRing (G.bufferRing a b r n))
    {lon lat : Value} {radius : Option Value} {n : Int} {g : PyStr × PyStr} :
    hintParsed G lon lat radius n = some g ↔ ∃ p s, G.point lon lat = some p ∧ OnMap p ∧ g = (G.toWkt p, G.toWkt s) ∧
      ((∃ r, radius = some r ∧ CircleOf G p r n s) ∨ (s = p ∧ ¬ ∃ r s', radius = some r ∧ CircleOf G p r n s')) := by
  unfold hintParsed
  cases hp : G.point lon lat with
  | none => simp
  | some p =>
    by_cases hv : isShapeValid p = true
    · have hm := (isShapeValid_iff p).1 hv
      simp only [hv, Bool.not_true, Bool.false_eq_true, if_false]
      cases radius with
      | none => simp [hm, toParsed, eq_comm]
      | some r =>
        simp only [Option.some.injEq]
        have hs := hintShape_spec hring (p := p) (r := r) (n := n)
        constructor
        · rintro rfl
          refine ⟨p, _, rfl, hm, rfl, ?_⟩
          rcases hs with h | ⟨h1, h2⟩
          · exact .inl ⟨r, rfl, h⟩
          · exact .inr ⟨h1, by rintro ⟨_, s', rfl, h⟩; exact h2 ⟨s', h⟩⟩
        · rintro ⟨_, s, rfl, _, rfl, h⟩
          have : hintShape G p r n = s := by
            rcases h with ⟨_, rfl, h⟩ | ⟨rfl, h⟩
            · rcases hs with h1 | ⟨_, h2⟩
              · exact circleOf_unique h1 h
              · exact absurd ⟨s, h⟩ h2
            · rcases hs with h1 | ⟨h1, _⟩
              · exact absurd ⟨r, _, rfl, h1⟩ h
              · exact h1
          rw [this]
          rfl
    · have h' : ¬ OnMap p := fun h => hv ((isShapeValid_iff p).2 h)
      simp only [Bool.not_eq_true] at hv
      simp [hv, h']

theorem hintParsed_place (hG : G.Sane) {lon lat : Value} {radius : Option Value} {n : Int} {g : PyStr × PyStr}
    (h : hintParsed G lon lat radius n = some g) : IndexedPlace G g := by
  unfold hintParsed at h
  split at h
  · cases h
  · rename_i p hp
    have hpt := hG.point _ _ _ hp
    by_cases hv : isShapeValid p = true
    · have hm := (isShapeValid_iff p).1 hv
      simp only [hv, Bool.not_true, Bool.false_eq_true, if_false] at h
      split at h
      · cases h
        exact ⟨p, p, hpt, hm, hm, rfl⟩
      · rename_i r
        cases h
        refine ⟨p, _, hpt, hm, ?_, rfl⟩
        unfold hintShape
        split
        · split
          · split
            · split
              · rename_i hc
                exact (isShapeValid_iff _).1 hc
              · exact hm
            · exact hm
          · exact hm
        · exact hm
    · simp only [Bool.not_eq_true] at hv
      simp [hv] at h

end Splitgill
