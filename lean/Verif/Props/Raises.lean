import Verif.Proof.Raises2
import Verif.Props.Each
import Verif.Props.Geo
/-!
# C93: syncs raise for data that `parse` raises for, and go on raising

`trySync` is `sync()` in which an exception of `parse` is an exception of the sync, as in the code. `F` says where libraries raise.
-/

namespace Splitgill.Props
open Splitgill

/-- The full statement of C93: after any calls `sync()` returns. -/
def C93_full : Prop := ∀ (E : ParseEnv) (F : Failures) (U : Unicode), U.Sane → ∀ (maxDocs : Nat) (db : PyStr) (calls : List ApiCall),
  Orderly calls → (∃ v, IsVersion (afterCalls U db calls) db v) → ∃ es, trySync E F maxDocs db false (afterCalls U db calls) [] = .ok es

/-- **C93**: if a sync (or the repair of the archives) returns, then with the result of the model that all other properties are about. -/
theorem C93_same_partial (E : ParseEnv) (F : Failures) (maxDocs : Nat) (db : PyStr) :
    (∀ resync m es es', trySync E F maxDocs db resync m es = .ok es' → sync (realParser E) maxDocs db resync m es = .ok es') ∧
    (∀ m es es', tryResyncArcs E F maxDocs db m es = .ok es' → resyncArcs (realParser E) maxDocs db m es = .ok es') ∧
    (∀ ms es es', tryRunSyncs E F maxDocs db es ms = .ok es' → runSyncs (realParser E) maxDocs db es ms = .ok es') :=
  ⟨fun _ _ _ _ h => trySync_same h, fun _ _ _ h => tryResyncArcs_same h, fun _ _ _ h => tryRunSyncs_same h⟩

/-- **C93**: a sync returns iff `parse` returns for the data of every record it looks at, as of every version, with the options in use at
that version. One version of one record is enough to stop everything. -/
theorem C93_iff_partial (E : ParseEnv) (F : Failures) (maxDocs : Nat) (db : PyStr) (m : Mongo) (hm : DbOk db m) (es : ES (Option ParsedData)) :
    (∀ resync, (∃ es', trySync E F maxDocs db resync m es = .ok es') ↔
      ∀ r, LooksAt db resync m es r → Parses E F (histOf (m.data db) r.id) (committedOptionsOf db m)) ∧
    ((∃ es', tryResyncArcs E F maxDocs db m es = .ok es') ↔
      ∀ r ∈ m.data db, r.version ≠ none → Parses E F (histOf (m.data db) r.id) (committedOptionsOf db m)) :=
  ⟨fun resync => trySync_iff hm maxDocs resync es, tryResyncArcs_iff hm maxDocs es⟩

/-- **C93**: all syncs return if libraries do not raise and hints only match scalar latitudes (as C63 requires). -/
theorem C93_returns_partial (E : ParseEnv) (hS : E.ScalarHints) (F : Failures) (hF : F.Never) (U : Unicode) (maxDocs : Nat) (db : PyStr)
    (first : List ApiCall) (parts : List (List ApiCall)) (ho : Orderly (first ++ parts.flatten))
    (hv : ∃ v, IsVersion (afterCalls U db first) db v) (es : ES (Option ParsedData)) :
    ∃ es', tryRunSyncs E F maxDocs db es (statesOf U db first parts) = .ok es' := by
  have key : ∀ (parts : List (List ApiCall)) (first : List ApiCall) (es : ES (Option ParsedData)), Orderly (first ++ parts.flatten) →
      (∀ m ∈ statesOf U db first parts, DbOk db m) → ∃ es', tryRunSyncs E F maxDocs db es (statesOf U db first parts) = .ok es' := by
    intro parts
    induction parts with
    | nil =>
      intro first es ho hm
      rw [List.flatten_nil, List.append_nil] at ho
      obtain ⟨es', h⟩ := (trySync_iff (E := E) (F := F) (hm _ List.mem_cons_self) maxDocs false es).2 (fun r _ => life_parses ho hF hS r.id _)
      exact ⟨es', by rw [statesOf, tryRunSyncs, h]; rfl⟩
    | cons part parts ih =>
      intro first es ho hm
      obtain ⟨es1, h1⟩ := (trySync_iff (E := E) (F := F) (hm _ List.mem_cons_self) maxDocs false es).2
        (fun r _ => life_parses ho.left hF hS r.id _)
      rw [List.flatten_cons, ← List.append_assoc] at ho
      obtain ⟨es', h⟩ := ih (first ++ part) es1 ho (fun m h => hm m (by rw [statesOf]; exact List.mem_cons_of_mem _ h))
      exact ⟨es', by rw [statesOf, tryRunSyncs, h1]; exact h⟩
  exact key parts first es ho (life_dbOks parts first ho hv)

/-- **C93**, what goes wrong: once a version of a record has been committed for which `parse` raises with the options in use (`v` is the
version of the data or of the options), every later sync that has not passed `v` raises, whatever is called in between: correcting or
deleting the record or changing the options back does not help, as old versions are never changed. So does every later `resync_arcs()`. -/
theorem C93_forever_partial (E : ParseEnv) (hE : E.IgnoresOrder) (F : Failures) (hF : F.IgnoresOrder) (U : Unicode) (hU : U.Sane)
    (maxDocs : Nat) (db : PyStr) (a b : List ApiCall) (ho : Orderly (a ++ b)) (hv : ∃ v, IsVersion (afterCalls U db a) db v) (id : PyStr)
    (hp : NoPunsAmong U (((a ++ b).flatMap ApiCall.stream).filter (fun r => decide (r.id = id))))
    (v : Int) (x : Dict) (o : ParsingOptions) (hx : AsOf (ingested U db a id).committed v x) (hne : x ≠ [])
    (hopt : OptionsAsOf (effectiveOptions (ingested U db a id).committed (committedOptionsOf db (afterCalls U db a))) v o)
    (hfail : ∀ p, tryParse E F o x ≠ .ok p)
    (hkey : (∃ d, (v, d) ∈ (ingested U db a id).committed) ∨ v ∈ akeys (committedOptionsOf db (afterCalls U db a)))
    (hnow : NoPendingOf db id (afterCalls U db (a ++ b))) (es : ES (Option ParsedData)) :
    (∀ resync, (resync = true ∨ ∀ t, es.version = some t → t < v) →
      ∃ e, trySync E F maxDocs db resync (afterCalls U db (a ++ b)) es = .error e) ∧
    ∃ e, tryResyncArcs E F maxDocs db (afterCalls U db (a ++ b)) es = .error e := by
  obtain ⟨hm, r, hr, w, hw, hle, hn⟩ := life_fails hE hF hU maxDocs ho hp hx hne hopt hfail hkey hv hnow
  constructor
  · intro resync hes
    cases h : trySync E F maxDocs db resync (afterCalls U db (a ++ b)) es with
    | error e => exact ⟨e, rfl⟩
    | ok es' =>
      refine absurd ((trySync_iff hm maxDocs resync es).1 ⟨es', h⟩ r ⟨hr, w, hw, ?_⟩) hn
      rcases hes with hes | hes
      · exact .inl hes
      · cases ht : es.version with
        | none => exact .inr (.inl rfl)
        | some t =>
          have := hes t ht
          refine .inr (.inr ⟨t, rfl, ?_⟩)
          rcases hle with hle | hk
          · exact .inl (by omega)
          · exact .inr ⟨v, hk, this⟩
  · cases h : tryResyncArcs E F maxDocs db (afterCalls U db (a ++ b)) es with
    | error e => exact ⟨e, rfl⟩
    | ok es' => exact absurd ((tryResyncArcs_iff hm maxDocs es).1 ⟨es', h⟩ r hr (by rw [hw]; simp)) hn

/-! ## Examples -/

/-- Formats that ask for a second argument raise `IndexError`. -/
def exFormatFails : Failures where
  format := fun f _ => decide (f = "{1}".toList)
  geojson := fun _ => false
  hint := fun _ _ _ _ => false

theorem exFormatFails_order : exFormatFails.IgnoresOrder :=
  ⟨fun _ _ _ _ _ => rfl, fun _ _ _ _ _ _ _ _ _ _ _ _ _ _ => rfl⟩

/-- Two records are made, and then `with_float_format("{1}")`, which nothing checks, is committed. -/
def exBadFormat : List ApiCall :=
  [.ingest none [⟨['a'], [(.str ['x'], .float .negZero)]⟩, exRec ['b'] 1] true 1,
   .updateOptions { defaultOptions with floatFormat := "{1}".toList } true 2]
/-- Then the format is changed back, and the record with the float is changed and deleted. -/
def exBadFormat' : List ApiCall :=
  [.updateOptions defaultOptions true 3, .ingest none [exRec ['a'] 4] true 4, .ingest none [exDel ['a']] true 5]

theorem exBadFormat_orderly : Orderly (exBadFormat ++ exBadFormat') := by
  refine ⟨by decide, ?_⟩
  intro c hc
  simp [exBadFormat, exBadFormat'] at hc
  rcases hc with rfl | rfl | rfl | rfl | rfl <;> unfold NoSpan <;> decide

theorem exBadFormat_version : ∃ v, IsVersion (afterCalls asciiU ['x'] exBadFormat) ['x'] v :=
  ⟨1, .inr ⟨(afterCalls asciiU ['x'] exBadFormat).options.head (by decide), by decide, by decide, by decide⟩⟩

set_option maxRecDepth 100000 in
/-- **C93 does not hold in full**: with a format for floats that raises, no sync returns. -/
theorem C93_refuted : ¬ C93_full := by
  intro h
  obtain ⟨es, hes⟩ := h exEnv' exFormatFails asciiU asciiU_sane 10 ['x'] exBadFormat exBadFormat_orderly.left exBadFormat_version
  have hf : (match trySync exEnv' exFormatFails 10 ['x'] false (afterCalls asciiU ['x'] exBadFormat) [] with
    | .ok _ => true
    | .error _ => false) = false := by decide +kernel
  rw [hes] at hf
  cases hf

set_option maxRecDepth 100000 in
/-- The conditions of `C93_forever_partial` are met; so no sync returns after `exBadFormat'` either, into new indices or into those of
version 1. -/
example : ∀ es : ES (Option ParsedData), (es = [] ∨ es.version = some 1) →
    ∃ e, trySync exEnv' exFormatFails 10 ['x'] false (afterCalls asciiU ['x'] (exBadFormat ++ exBadFormat')) es = .error e := by
  have hc : (ingested asciiU ['x'] exBadFormat ['a']).committed = [(1, [(['x'], .float .negZero), ("_id".toList, .str ['a'])])] := by
    decide +kernel
  have hopts : committedOptionsOf ['x'] (afterCalls asciiU ['x'] exBadFormat) =
      [(1, defaultOptions), (2, { defaultOptions with floatFormat := "{1}".toList })] := by decide +kernel
  intro es hes
  refine (C93_forever_partial exEnv' exEnv'_order exFormatFails exFormatFails_order asciiU asciiU_sane 10 ['x'] exBadFormat exBadFormat'
    exBadFormat_orderly exBadFormat_version ['a'] (by apply noPuns_of_flat <;> decide +kernel) 2
    [(['x'], .float .negZero), ("_id".toList, .str ['a'])] { defaultOptions with floatFormat := "{1}".toList } ?_ (by simp) ?_ ?_
    (.inr (by rw [hopts]; decide)) ?_ es).1 false (.inr ?_)
  · rw [hc]
    exact ⟨1, by simp, by decide, by intro w y hw _; simp at hw; omega⟩
  · rw [hc, hopts]
    refine .inl ⟨2, by simp [effectiveOptions], by decide, ?_⟩
    intro w y _ hw; exact hw
  · intro p hp
    have : (match tryParse exEnv' exFormatFails { defaultOptions with floatFormat := "{1}".toList }
        [(['x'], .float .negZero), ("_id".toList, .str ['a'])] with
      | .ok _ => true
      | .error _ => false) = false := by decide +kernel
    rw [hp] at this
    cases this
  · have : ∀ r ∈ (afterCalls asciiU ['x'] (exBadFormat ++ exBadFormat')).data ['x'], r.id = ['a'] → r.version ≠ none := by decide +kernel
    exact this
  · intro t ht
    rcases hes with rfl | hes
    · cases ht
    · rw [hes] at ht; cases ht; decide

set_option maxRecDepth 100000 in
/-- Before the options are committed the sync returns. -/
example : (match trySync exEnv' exFormatFails 10 ['x'] false (afterCalls asciiU ['x'] (exBadFormat.take 1)) [] with
    | .ok es => decide (es.version = some 1)
    | .error _ => false) = true := by decide +kernel

/-- No library raises. -/
example : (⟨fun _ _ => false, fun _ => false, fun _ _ _ _ => false⟩ : Failures).Never := ⟨fun _ _ => rfl, fun _ => rfl, fun _ _ _ _ => rfl⟩

/-- GeoJSON polygons with heights, where `shapely` reads the heights, make `parse` raise (see C53). -/
theorem C93_heights (E : ParseEnv) (F : Failures) (G : GeoLib) (o : ParsingOptions) (k : PyStr) (d : Dict) (p q : Coord) (ring : List Coord)
    (holes : List (List Coord)) (hk : ahas "type".toList d = true ∧ ahas "coordinates".toList d = true)
    (hd : G.fromGeojson d = some (.polygon (p :: q :: ring) holes)) (hv : OnMap (.polygon (p :: q :: ring) holes)) (h3 : p.rest ≠ []) :
    ∃ e, tryParse E (F.withGeo G) o [(k, .dict d)] = .error e := by
  refine ⟨.valueError, ?_⟩
  have hne : d.isEmpty = false := by
    cases d with
    | nil => cases hk.1
    | cons => rfl
  have hg : (F.withGeo G).geojson d = true := by
    simp only [Failures.withGeo, geojsonParsed, hd, (isShapeValid_iff _).2 hv, C53_dimensions p q ring holes (.inl h3)]
    rfl
  have hf : failsItems (F.withGeo G) o [(k, .dict d)] = true := by
    rw [failsItems, failsIn, hne, hk.1, hk.2, hg]
    rfl
  rw [tryParse, hf, Bool.or_true, if_pos rfl]

/-- A `shapely` that reads one polygon with heights, and the dict that it reads it from. -/
example : (ahas "type".toList [("type".toList, Value.str "Z".toList), ("coordinates".toList, .list [])] = true ∧
      ahas "coordinates".toList [("type".toList, Value.str "Z".toList), ("coordinates".toList, .list [])] = true) ∧
    ({ exGeo with fromGeojson := fun _ => some (.polygon [⟨0, 0, [1]⟩, ⟨4, 0, [1]⟩, ⟨4, 4, [1]⟩, ⟨0, 0, [1]⟩] []) } : GeoLib).fromGeojson
      [("type".toList, Value.str "Z".toList), ("coordinates".toList, .list [])] =
        some (.polygon [⟨0, 0, [1]⟩, ⟨4, 0, [1]⟩, ⟨4, 4, [1]⟩, ⟨0, 0, [1]⟩] []) ∧
    OnMap (.polygon [⟨0, 0, [1]⟩, ⟨4, 0, [1]⟩, ⟨4, 4, [1]⟩, ⟨0, 0, [1]⟩] []) := by
  refine ⟨by decide, rfl, (isShapeValid_iff _).1 (by decide +kernel)⟩

end Splitgill.Props
