import Verif.Model.CircleCache
import Verif.Proof.Lru
import Verif.Props.Geo
/-!
# C73: the cache of circles
-/

namespace Splitgill.Props
open Splitgill

/-- All entries are the circles of their keys. -/
def RightCircles (G : GeoLib) (c : CircleCache) : Prop := ∀ e ∈ c, createPolygonCircle G e.1.1 e.1.2.1 e.1.2.2.1 e.1.2.2.2 = .ok e.2

theorem cachedCircle_right {G : GeoLib} {size : Nat} {k : CircleKey} {c : CircleCache} (h : RightCircles G c) :
    (cachedCircle G size k c).1 = createPolygonCircle G k.1 k.2.1 k.2.2.1 k.2.2.2 ∧ RightCircles G (cachedCircle G size k c).2 := by
  unfold cachedCircle
  split
  · rename_i e he
    have hm := List.mem_of_find?_eq_some he
    have hk : e.1 = k := by simpa using List.find?_some he
    subst hk
    exact ⟨(h e hm).symm, fun x hx => (List.mem_cons.1 hx).elim (fun he => he ▸ h e hm) (fun hx => h x (List.mem_filter.1 hx).1)⟩
  · split
    · rename_i he
      exact ⟨he.symm, h⟩
    · rename_i s hs
      refine ⟨hs.symm, fun x hx => ?_⟩
      rcases List.mem_cons.1 (List.mem_of_mem_take hx) with rfl | hx
      · exact hs
      · exact h x hx

theorem hintParsedC_right {G : GeoLib} {size : Nat} {lon lat : Value} {radius : Option Value} {segments : Int} {c : CircleCache}
    (h : RightCircles G c) : (hintParsedC G size lon lat radius segments c).1 = hintParsed G lon lat radius segments ∧
      RightCircles G (hintParsedC G size lon lat radius segments c).2 := by
  have shape : ∀ p r, (hintShapeC G size p r segments c).1 = hintShape G p r segments ∧ RightCircles G (hintShapeC G size p r segments c).2 := by
    intro p r
    unfold hintShapeC hintShape
    split
    · rename_i co cs r' hr
      rw [hr]
      dsimp only
      split
      · have := cachedCircle_right (size := size) (k := (co.y, co.x, r', segments)) h
        cases hc : cachedCircle G size (co.y, co.x, r', segments) c with
        | mk x c' =>
          rw [hc] at this
          dsimp only at this
          rw [← this.1]
          cases x with
          | error e => exact ⟨rfl, this.2⟩
          | ok s => exact ⟨rfl, this.2⟩
      · exact ⟨rfl, h⟩
    · rename_i p' q' hn
      refine ⟨?_, h⟩
      dsimp only
      split
      · rename_i hx
        exact (hn _ _ _ rfl hx).elim
      · rfl
  unfold hintParsedC hintParsed
  cases G.point lon lat with
  | none => exact ⟨rfl, h⟩
  | some p =>
    dsimp only
    split
    · exact ⟨rfl, h⟩
    · cases radius with
      | none => exact ⟨rfl, h⟩
      | some r =>
        dsimp only
        exact ⟨by rw [(shape p r).1], (shape p r).2⟩

/-- **C73**, for the cache of circles: whatever places a process has looked at before, whatever the size of the cache, each hint gives
the place that it gives in a new process. -/
theorem C73_circles (G : GeoLib) (size : Nat) (calls : List HintCall) :
    hintsFrom G size calls [] = calls.map (fun h => hintParsed G h.lon h.lat h.radius h.segments) := by
  suffices ∀ c, RightCircles G c → hintsFrom G size calls c = calls.map (fun h => hintParsed G h.lon h.lat h.radius h.segments) from
    this [] (fun _ h => nomatch h)
  induction calls with
  | nil => exact fun _ _ => rfl
  | cons x calls ih =>
    intro c h
    obtain ⟨h1, h2⟩ := hintParsedC_right (size := size) (lon := x.lon) (lat := x.lat) (radius := x.radius) (segments := x.segments) h
    rw [hintsFrom, List.map_cons]
    dsimp only
    rw [h1, ih _ h2]

/-- Three places with circles, one of them twice, one at which no circle can be made (it leaves the range), with a cache for one circle. -/
def exHintCalls : List HintCall :=
  [⟨.int 6, .int 5, some (.int 1), 4⟩, ⟨.int 6, .int 5, some (.int 1), 4⟩, ⟨.int 6, .int 89, some (.int 2), 4⟩, ⟨.int 7, .int 5, some (.int 1), 4⟩]

/-- The second call finds the circle of the first; no entry is made for the third. -/
example : (cachedCircle exGeo 1 (5, 6, 1, 4) []).2.map Prod.fst = [(5, 6, 1, 4)] ∧
    (cachedCircle exGeo 1 (5, 6, 1, 4) (cachedCircle exGeo 1 (5, 6, 1, 4) []).2).2.map Prod.fst = [(5, 6, 1, 4)] ∧
    (cachedCircle exGeo 1 (89, 6, 2, 4) [((5, 6, 1, 4), .other)]).2.map Prod.fst = [(5, 6, 1, 4)] ∧
    (hintsFrom exGeo 1 exHintCalls []).map Option.isSome = [true, true, true, true] := by
  decide +kernel

/-- **C73**, for what the cache of circles keeps: after any uses, its keys are those of the last `size` different circles that were made
or found, the last one first; calls that raised are not kept. -/
theorem C73_circles_recent (G : GeoLib) (size : Nat) (keys : List CircleKey) :
    (keys.foldl (fun c k => (cachedCircle G size k c).2) []).map Prod.fst =
      (keys.filter (fun k => (createPolygonCircle G k.1 k.2.1 k.2.2.1 k.2.2.2).isOk)).reverse.eraseDups.take size := by
  suffices ∀ (keys done : List CircleKey) (c : CircleCache), RightCircles G c → c.map Prod.fst = done.eraseDups.take size →
      (keys.foldl (fun c k => (cachedCircle G size k c).2) c).map Prod.fst =
        ((keys.filter (fun k => (createPolygonCircle G k.1 k.2.1 k.2.2.1 k.2.2.2).isOk)).reverse ++ done).eraseDups.take size by
    simpa using this keys [] [] (fun _ h => nomatch h) (by simp)
  intro keys
  induction keys with
  | nil => exact fun done c _ h => h
  | cons k keys ih =>
    intro done c hr hc
    obtain ⟨h1, h2⟩ := cachedCircle_right (size := size) (k := k) hr
    rw [List.foldl_cons, List.filter_cons]
    have hmem : (∃ e ∈ c, e.1 = k) ↔ k ∈ done.eraseDups.take size := by
      rw [← hc, List.mem_map]
    have hfil : (c.filter (fun e' => !decide (e'.1 = k))).map Prod.fst = (c.map Prod.fst).filter (fun x => !decide (x = k)) := by
      rw [List.filter_map]; rfl
    split
    · rename_i hok
      rw [List.reverse_cons, List.append_assoc]
      refine ih (k :: done) _ h2 ?_
      unfold cachedCircle
      split
      · rename_i e he
        have hm := List.mem_of_find?_eq_some he
        have hk : e.1 = k := by simpa using List.find?_some he
        dsimp only
        rw [List.map_cons, hfil, hc, hk]
        exact lru_hit (hmem.1 ⟨e, hm, hk⟩)
      · rename_i he
        split
        · rename_i x hx
          rw [hx] at hok
          cases hok
        · dsimp only
          rw [List.map_take, List.map_cons, hc]
          refine lru_miss (fun hm => ?_)
          obtain ⟨e, h3, h4⟩ := hmem.2 hm
          have := List.find?_eq_none.1 he e h3
          simp [h4] at this
    · rename_i hok
      refine ih done _ h2 ?_
      unfold cachedCircle
      split
      · rename_i e he
        have hm := List.mem_of_find?_eq_some he
        have hk : e.1 = k := by simpa using List.find?_some he
        have := hr e hm
        rw [hk] at this
        rw [this] at hok
        exact absurd rfl hok
      · split
        · exact hc
        · rename_i x hx
          rw [hx] at hok
          exact absurd rfl hok

/-- Four uses of three keys, one of which raises, and a cache for one circle, for two and for three. -/
example : ([1, 2, 3].map fun n => (List.foldl (fun c k => (cachedCircle exGeo n k c).2) []
      [(5, 6, 1, 4), (5, 7, 1, 4), (89, 6, 2, 4), (5, 6, 1, 4), (5, 8, 1, 4)]).map (fun e => e.1.2.1)) = [[8], [8, 6], [8, 6, 7]] := by
  decide +kernel

end Splitgill.Props
