import Verif.Proof.Places
import Verif.Props.Filter
/-!
# C83: places, from calls of the API to what is found

Which values are places is described in `Verif.Spec.Places`.
-/

namespace Splitgill.Props
open Splitgill

/-- **C83** for the document of a record: where the data has a place, it is indexed as a point and as a shape, and nowhere else is
there one. -/
theorem C83_places (E : ParseEnv) (hS : E.ScalarHints) (o : ParsingOptions) (hn : (o.geoHints.map GeoFieldHint.latField).Nodup) (d : Dict)
    (pd : ParsedData) (hw : (Value.dict d).wf = true) (hf : FieldNames (.dict d)) (h : parse E o d = .ok pd) (p : Path) :
    (∀ g, PlaceAt E o d p g → getAt (p ++ [.key "_gp".toList]) (.dict pd.parsed) = some (.str g.1) ∧
      getAt (p ++ [.key "_gs".toList]) (.dict pd.parsed) = some (.str g.2)) ∧
    ((∀ g, ¬ PlaceAt E o d p g) → getAt (p ++ [.key "_gp".toList]) (.dict pd.parsed) = none ∧
      getAt (p ++ [.key "_gs".toList]) (.dict pd.parsed) = none) := by
  have ht : "_gp".toList ∈ geoTypes := by decide
  have ht' : "_gs".toList ∈ geoTypes := by decide
  rw [parse_place ht hw hf h, parse_place ht' hw hf h]
  constructor
  · rintro g ⟨hp, hg⟩
    rw [if_neg hp, if_neg hp, (placeIn_iff hS hn p _).2 hg]
    exact ⟨rfl, rfl⟩
  · intro hno
    by_cases hp : p = []
    · rw [if_pos hp, if_pos hp]; exact ⟨rfl, rfl⟩
    · rw [if_neg hp, if_neg hp]
      cases hg : placeIn E o p (.dict d) with
      | none => exact ⟨rfl, rfl⟩
      | some g => exact absurd ⟨hp, (placeIn_iff hS hn p _).1 hg⟩ (hno g)

/-- **C83**, the same for the fields queries are made of: the points of a field are those of the places in it. -/
theorem C83_field_points (E : ParseEnv) (hS : E.ScalarHints) (o : ParsingOptions) (hn : (o.geoHints.map GeoFieldHint.latField).Nodup) (d : Dict)
    (pd : ParsedData) (hw : (Value.dict d).wf = true) (hf : FieldNames (.dict d)) (h : parse E o d = .ok pd) (field : PyStr) (s : Value) :
    (s ∈ (esField (parsedPath field .geoPoint) pd.parsed).1 ↔ ∃ p g, fieldPath p = field ∧ PlaceAt E o d p g ∧ s = .str g.1) ∧
    (s ∈ (esField (parsedPath field .geoShape) pd.parsed).1 ↔ ∃ p g, fieldPath p = field ∧ PlaceAt E o d p g ∧ s = .str g.2) := by
  have hval : ∀ {t : PType}, t.name ∈ geoTypes → (s ∈ (esField (parsedPath field t) pd.parsed).1 ↔
      ∃ p g, fieldPath p = field ∧ PlaceAt E o d p g ∧ some s = aget t.name (geoDict g)) := by
    intro t ht
    have e : (esField (parsedPath field t) pd.parsed).1 = esValues (.dict pd.parsed) (splitDots field ++ [t.name]) := by
      have h1 : splitDots (parsedPath field t) = "data".toList :: (splitDots field ++ [t.name]) := by
        have h2 : splitDots t.name = [t.name] := by cases t <;> rfl
        rw [parsedPath, splitDots_append, splitDots_append, h2]
        rfl
      rw [esField, h1]
      rfl
    rw [e, places_values ht hw hf h]
    constructor
    · rintro ⟨p, g, h1, h2, h3, h4⟩
      refine ⟨p, g, ?_, ⟨h1, (placeIn_iff hS hn p _).1 h3⟩, h4.symm⟩
      rw [fieldPath]
      exact (congrArg _ h2).trans (intercalate_splitDots field)
    · rintro ⟨p, g, rfl, ⟨h1, h2⟩, h4⟩
      have h3 := (placeIn_iff hS hn p _).2 h2
      obtain ⟨w, hw'⟩ := placeIn_path _ _ _ h3
      refine ⟨p, g, h1, ?_, h3, h4.symm⟩
      rw [fieldPath, splitDots_intercalate (keysOf_ne_nil rfl hw' h1) (keysOf_clean hf hw')]
  refine ⟨(hval (by decide)).trans ?_, (hval (by decide)).trans ?_⟩ <;>
    exact exists_congr fun p => exists_congr fun g => and_congr_right fun _ => and_congr_right fun _ => Option.some_inj

/-- **C83** for the document of a record: `has_geo()` matches it exactly if the data has a place. -/
theorem C83_has_geo (E : ParseEnv) (hE : E.IgnoresOrder) (hS : E.ScalarHints) (o : ParsingOptions) (d : Dict) (pd : ParsedData)
    (hw : (Value.dict d).wf = true) (hf : FieldNames (.dict d)) (h : parse E o d = .ok pd) (Q : QueryEnv) :
    (EsQuery.exists_ hasGeo).matches Q pd.parsed = true ↔ ∃ p g, PlaceAt E o d p g :=
  hasGeo_parse hE hS hw hf h

/-- **C83** for the document of a record: `ALL_POINTS` and `ALL_SHAPES` have the points and shapes of all places in the data, and nothing
else. -/
theorem C83_copies (E : ParseEnv) (hE : E.IgnoresOrder) (hS : E.ScalarHints) (o : ParsingOptions)
    (hn : (o.geoHints.map GeoFieldHint.latField).Nodup) (d : Dict) (pd : ParsedData) (hw : (Value.dict d).wf = true)
    (hf : FieldNames (.dict d)) (h : parse E o d = .ok pd) :
    ∃ points shapes, copiedValues "all_points".toList pd.parsed = some points ∧ copiedValues "all_shapes".toList pd.parsed = some shapes ∧
      (∀ x, x ∈ points ↔ ∃ p g, PlaceAt E o d p g ∧ x = .str g.1) ∧ (∀ x, x ∈ shapes ↔ ∃ p g, PlaceAt E o d p g ∧ x = .str g.2) := by
  refine ⟨_, _, rfl, rfl, fun x => ?_, fun x => ?_⟩
  · rw [copied_parse (t := .geoPoint) (by decide) hE hS hn hw hf h x]
    exact exists_congr fun p => exists_congr fun g => and_congr_right fun _ => Option.some_inj.trans eq_comm
  · rw [copied_parse (t := .geoShape) (by decide) hE hS hn hw hf h x]
    exact exists_congr fun p => exists_congr fun g => and_congr_right fun _ => Option.some_inj.trans eq_comm

/-- **C83**, as `has_geo` says: it does not matter whether the query is for `ALL_POINTS` or for `ALL_SHAPES`. -/
theorem C83_points_or_shapes (E : ParseEnv) (hE : E.IgnoresOrder) (hS : E.ScalarHints) (o : ParsingOptions) (d : Dict) (pd : ParsedData)
    (hw : (Value.dict d).wf = true) (hf : FieldNames (.dict d)) (h : parse E o d = .ok pd) (Q : QueryEnv) :
    (EsQuery.exists_ hasGeo).matches Q pd.parsed = (EsQuery.exists_ "all_shapes".toList).matches Q pd.parsed := by
  rw [Bool.eq_iff_iff, C83_has_geo E hE hS o d pd hw hf h Q]
  exact (anyGeo_parse (t := .geoShape) (by decide) hE hS hw hf h).symm

/-- **C83** after one sync: `search(v).filter(has_geo())` finds each record once that has nothing uncommitted and whose data as of `v` has a
place, and no other. -/
theorem C83_first_sync (E : ParseEnv) (hE : E.IgnoresOrder) (hS : E.ScalarHints) (hP : E.PlacesOfEqual) (U : Unicode) (hU : U.Sane)
    (maxDocs : Nat) (db : PyStr) (calls : List ApiCall) (ho : Orderly calls) (hv : ∃ v, IsVersion (afterCalls U db calls) db v) :
    ∃ es, sync (realParser E) maxDocs db false (afterCalls U db calls) [] = .ok es ∧
      ∀ (Q : QueryEnv) (v : Int), (foundIds (es.searchFor Q (.version v) (.exists_ hasGeo))).Nodup ∧
        ∀ id, id ∈ foundIds (es.searchFor Q (.version v) (.exists_ hasGeo)) ↔
          HoldsAsOf (ingested U db calls) (committedOptionsOf db (afterCalls U db calls)) v id (fun a o => ∃ p g, PlaceAt E o a p g) := by
  obtain ⟨w, hw⟩ := hv
  have hm := life_dbOk ho hw
  obtain ⟨es, h1, h2, h3⟩ := C30_first_sync (realParser E) maxDocs db _ hm
  have hl := life (K := fun _ => plainClass.named) (U := U) (db := db) (fun c _ => fits_named_plain hU c.stream) ho
  exact ⟨es, h1, fun Q v => hl.toLifeInv.asked_equal hE hS hm h2 h3 Q (.exists_ hasGeo) (fun a o => ∃ p g, PlaceAt E o a p g) (fun p p' h => exists_sim h hasGeo)
    (fun o a pd hw hf h => hasGeo_parse hE hS hw hf h) (fun o a b h => placed_sim hP h) (fun a o h => PlaceAt.ne_nil h hS) v⟩

/-- **C83** after one sync, for any geometry library: if no two records with the same id have values that are equal but of different types, such as `1` and `True`, then what
is said about equal values need not be assumed. -/
theorem C83_first_sync_typed (E : ParseEnv) (hE : E.IgnoresOrder) (hS : E.ScalarHints) (U : Unicode) (hU : U.Sane)
    (maxDocs : Nat) (db : PyStr) (calls : List ApiCall) (ho : Orderly calls) (hv : ∃ v, IsVersion (afterCalls U db calls) db v)
    (hn : NoPunsAmong U (calls.flatMap ApiCall.stream)) :
    ∃ es, sync (realParser E) maxDocs db false (afterCalls U db calls) [] = .ok es ∧
      ∀ (Q : QueryEnv) (v : Int), (foundIds (es.searchFor Q (.version v) (.exists_ hasGeo))).Nodup ∧
        ∀ id, id ∈ foundIds (es.searchFor Q (.version v) (.exists_ hasGeo)) ↔
          HoldsAsOf (ingested U db calls) (committedOptionsOf db (afterCalls U db calls)) v id (fun a o => ∃ p g, PlaceAt E o a p g) := by
  obtain ⟨es, hi, h1, hl, hm, h2, h3⟩ := setup_first E U hU maxDocs db calls ho hv hn
  exact ⟨es, h1, fun Q v => hl.asked_by hE hS hm h2 h3 Q (.exists_ hasGeo) (fun a o => ∃ p g, PlaceAt E o a p g) (fun p p' h => exists_sim h hasGeo)
    (fun o a pd hw hf h => hasGeo_parse hE hS hw hf h) (fun a o h => PlaceAt.ne_nil h hS) v⟩

/-- **C83**, as it should be, after any calls and syncs between them. -/
def C83_full : Prop :=
  ∀ (E : ParseEnv), E.IgnoresOrder → E.ScalarHints → E.PlacesOfEqual → ∀ (U : Unicode), U.Sane → ∀ (maxDocs : Nat) (db : PyStr)
    (first : List ApiCall) (parts : List (List ApiCall)), Orderly (first ++ parts.flatten) →
    (∃ v, IsVersion (afterCalls U db first) db v) → (∀ m ∈ statesOf U db first parts, NoPending db m) →
    ∃ es, runSyncs (realParser E) maxDocs db [] (statesOf U db first parts) = .ok es ∧
      ∀ (Q : QueryEnv) (v : Int), (foundIds (es.searchFor Q (.version v) (.exists_ hasGeo))).Nodup ∧
        ∀ id, id ∈ foundIds (es.searchFor Q (.version v) (.exists_ hasGeo)) ↔
          HoldsAsOf (ingested U db (first ++ parts.flatten)) (committedOptionsOf db (afterCalls U db (first ++ parts.flatten))) v id
            (fun a o => ∃ p g, PlaceAt E o a p g)

/-- **C83** (what holds) after any calls and syncs between them, under the conditions of C70. -/
theorem C83_syncs_partial (E : ParseEnv) (hE : E.IgnoresOrder) (hS : E.ScalarHints) (U : Unicode) (hU : U.Sane) (maxDocs : Nat)
    (db : PyStr) (first : List ApiCall) (parts : List (List ApiCall)) (ho : Orderly (first ++ parts.flatten))
    (hv : ∃ v, IsVersion (afterCalls U db first) db v) (he : EachPart (NoUpdateDelete db) U db first parts)
    (hp : ∀ m ∈ statesOf U db first parts, NoPending db m)
    (hn : NoPunsAmong U ((first ++ parts.flatten).flatMap ApiCall.stream)) :
    ∃ es, runSyncs (realParser E) maxDocs db [] (statesOf U db first parts) = .ok es ∧
      ∀ (Q : QueryEnv) (v : Int), (foundIds (es.searchFor Q (.version v) (.exists_ hasGeo))).Nodup ∧
        ∀ id, id ∈ foundIds (es.searchFor Q (.version v) (.exists_ hasGeo)) ↔
          HoldsAsOf (ingested U db (first ++ parts.flatten)) (committedOptionsOf db (afterCalls U db (first ++ parts.flatten))) v id
            (fun a o => ∃ p g, PlaceAt E o a p g) := by
  obtain ⟨es, hi, h1, hl, hm, h2, h3, _⟩ := setup_syncs E hE U hU maxDocs db first parts ho hv he hp hn
  exact ⟨es, h1, fun Q v => hl.asked_by hE hS hm h2 h3 Q (.exists_ hasGeo) (fun a o => ∃ p g, PlaceAt E o a p g) (fun p p' h => exists_sim h hasGeo)
    (fun o a pd hw hf h => hasGeo_parse hE hS hw hf h) (fun a o h => PlaceAt.ne_nil h hS) v⟩

/-- An environment in which a text, dicts with a type, and numbers equal to 6 and 5 are places. -/
def exPlaceEnv : ParseEnv := { exEnv with hintGeo := fun lon lat _ _ =>
    if lon.num = (some (PyFloat.fin 6) : Option PyFloat) ∧ lat.num = (some (PyFloat.fin 5) : Option PyFloat) then some ("p".toList, "s".toList) else none }

theorem exPlaceEnv_scalar : exPlaceEnv.ScalarHints := by
  intro lon lat r n g h
  simp only [exPlaceEnv] at h
  split at h
  · rename_i h
    cases lat <;> simp [Value.num, Value.isScalar] at h ⊢
  · cases h

theorem num_sim {v w : Value} (h1 : v.wf = true) (h2 : w.wf = true) (h : simEq v w = true) : v.num = w.num := by
  have key : ∀ {x y : Option PyFloat}, (match x, y with | some x, some y => decide (x = y) | _, _ => false) = true → x = y := by
    intro x y h
    cases x <;> cases y <;> first | (exact absurd h Bool.false_ne_true) | (rw [of_decide_eq_true h])
  cases v <;> cases w <;> first | rfl | exact key h | exact absurd h Bool.false_ne_true

theorem exPlaceEnv_order : exPlaceEnv.IgnoresOrder := by
  refine ⟨exEnv_order.geojson, ?_⟩
  intro lon lat r n lon' lat' r' h1 h1' h2 h3 h3' h4 _
  have e1 : lon.num = lon'.num := num_sim h1 h1' (SE.sim ⟨h1, h1', h2⟩).2.2
  have e2 : lat.num = lat'.num := num_sim h3 h3' (SE.sim ⟨h3, h3', h4⟩).2.2
  simp only [exPlaceEnv, e1, e2]

theorem exPlaceEnv_equal : exPlaceEnv.PlacesOfEqual := by
  refine ⟨?_, ?_, ?_⟩
  · intro o a b h
    have hint : ∀ i : Int, exEnv.wkt (toString i).toList = none := by
      intro i
      have hd : ∀ n : Nat, 'P' ∉ Nat.toDigits 10 n := by
        intro n h
        have := Nat.isDigit_of_mem_toDigits (b := 10) (by omega) (by omega) h
        exact absurd this (by decide)
      have : (toString i).toList ≠ "POINT (1 2)".toList := by
        intro e
        have hP : 'P' ∈ (toString i).toList := by rw [e]; decide
        cases i with
        | ofNat n => exact hd n (by simpa [toString, Int.repr, Nat.repr] using hP)
        | negSucc n =>
          have : 'P' ∈ '-' :: Nat.toDigits 10 (n + 1) := by simpa [toString, Int.repr, Nat.repr] using hP
          simp only [List.mem_cons] at this
          rcases this with h | h
          · exact absurd h (by decide)
          · exact hd _ h
      simp only [exEnv]
      rw [if_neg this]
    have hno : ∀ v : Value, (∀ s, v ≠ .str s) → exEnv.wkt (textOf exPlaceEnv o v) = none := by
      intro v hv
      cases v with
      | str s => exact absurd rfl (hv s)
      | int i => exact hint i
      | bool b => cases b <;> rfl
      | _ => rfl
    by_cases ha : ∃ s, a = .str s
    · obtain ⟨s, rfl⟩ := ha
      cases b <;> simp [simScalarEq, Value.num] at h
      subst h
      rfl
    · have hb : ∀ s, b ≠ .str s := by
        rintro s rfl
        cases a <;> simp [simScalarEq, Value.num] at h
        exact ha ⟨_, rfl⟩
      show (exEnv.wkt _).isSome = (exEnv.wkt _).isSome
      rw [hno a (fun s e => ha ⟨s, e⟩), hno b hb]
  · intro a b ha hb h
    have key : ∀ a b, VR simScalarEq (.dict a) (.dict b) →
        (∃ s, aget "type".toList a = some (.str s)) → ∃ s, aget "type".toList b = some (.str s) := by
      rintro a b h ⟨s, hs⟩
      rcases (VR_dict.1 h).2.2 "type".toList with ⟨e, _⟩ | ⟨x, y, hx, hy, hxy⟩
      · rw [hs] at e; cases e
      · rw [hs] at hx; cases hx
        have := (VR_scalar rfl hxy).2
        cases y <;> simp [simScalarEq, Value.num] at this
        exact ⟨_, hy⟩
    show (exEnv.geojson a).isSome = (exEnv.geojson b).isSome
    rw [exGeojson_some, exGeojson_some]
    classical
    exact congrArg _ (if_congr ⟨key a b ⟨ha, hb, h⟩, key b a (plainClass.symm ⟨ha, hb, h⟩)⟩ rfl rfl)
  · intro lon lat r n lon' lat' r' h1 h1' h2 h3 h3' h4
    simp only [exPlaceEnv, num_sim h1 h1' h2, num_sim h3 h3' h4]

/-- A record that has a place, then is changed and deleted. -/
def exPlaceFirst : List ApiCall := [.ingest none [⟨['a'], [(.str ['x'], .str "POINT (1 2)".toList)]⟩] true 1]
def exPlaceThen : List ApiCall := [.ingest none [exRec ['a'] 2] true 2, .ingest none [exDel ['a']] true 3]

set_option maxRecDepth 100000 in
/-- **C83 does not hold in full**: a record that is changed and then deleted between two syncs (C31) is found by the place it had. -/
theorem C83_refuted : ¬ C83_full := by
  intro h
  obtain ⟨es, h1, h2⟩ := h exPlaceEnv exPlaceEnv_order exPlaceEnv_scalar exPlaceEnv_equal asciiU asciiU_sane 10 ['x'] exPlaceFirst [exPlaceThen]
    ⟨by decide +kernel, by
      intro c hc
      simp only [exPlaceFirst, exPlaceThen, List.flatten_cons, List.flatten_nil, List.append_nil, List.cons_append, List.nil_append, List.mem_cons,
        List.not_mem_nil, or_false] at hc
      rcases hc with rfl | rfl | rfl <;> unfold NoSpan <;> decide⟩
    ⟨1, .inr ⟨(afterCalls asciiU ['x'] exPlaceFirst).options.head (by decide +kernel), by decide +kernel, by decide +kernel, by decide +kernel⟩⟩
    (by
      have : ∀ m ∈ statesOf asciiU ['x'] exPlaceFirst [exPlaceThen], ∀ r ∈ m.data ['x'], r.version ≠ none := by decide +kernel
      exact this)
  have hf : (match runSyncs (realParser exPlaceEnv) 10 ['x'] [] (statesOf asciiU ['x'] exPlaceFirst [exPlaceThen]) with
    | .ok es => decide (['a'] ∈ foundIds (es.searchFor exQuery (.version 3) (.exists_ hasGeo))) | .error _ => false) = true := by decide +kernel
  rw [h1] at hf
  obtain ⟨_, a, o, ⟨w, ha, hle, hmax⟩, _, hp⟩ := ((h2 exQuery 3).2 ['a']).1 (of_decide_eq_true hf)
  have e : ((ingested asciiU ['x'] (exPlaceFirst ++ [exPlaceThen].flatten) ['a']).committed.map (fun x => (x.1, x.2.isEmpty))) =
    [(3, true), (2, false), (1, false)] := by decide +kernel
  have hne := PlaceAt.ne_nil hp exPlaceEnv_scalar
  have hm : (3, true) ∈ ((ingested asciiU ['x'] (exPlaceFirst ++ [exPlaceThen].flatten) ['a']).committed.map (fun x => (x.1, x.2.isEmpty))) := by
    rw [e]; simp
  obtain ⟨y, hy, hy'⟩ := List.mem_map.1 hm
  have hwy := hmax y.1 y.2 hy
  simp only [Prod.mk.injEq] at hy'
  have hmem : (w, a.isEmpty) ∈ ((ingested asciiU ['x'] (exPlaceFirst ++ [exPlaceThen].flatten) ['a']).committed.map (fun x => (x.1, x.2.isEmpty))) :=
    List.mem_map.2 ⟨_, ha, rfl⟩
  rw [e] at hmem
  simp only [List.mem_cons, Prod.mk.injEq, List.not_mem_nil, or_false] at hmem
  rcases hmem with ⟨_, h⟩ | ⟨rfl, _⟩ | ⟨rfl, _⟩
  · exact hne (List.isEmpty_iff.1 h)
  · omega
  · omega

/-- `5` and then `5.0` as a latitude, and a record without a place. -/
def exPlaceCalls : List ApiCall :=
  [.updateOptions exParseOpts true 1,
    .ingest none [⟨['a'], [(.str "lat".toList, .int 5), (.str "lon".toList, .int 6)]⟩, ⟨['b'], [(.str "lat".toList, .int 5)]⟩] true 2,
    .ingest none [⟨['a'], [(.str "lat".toList, .float (.fin 5)), (.str "lon".toList, .int 6), (.str ['z'], .int 1)]⟩,
      ⟨['b'], [(.str ['x'], .list [.dict [(.str ['y'], .str "POINT (1 2)".toList)]])]⟩] true 3]

set_option maxRecDepth 100000 in
/-- The hypotheses of `C83_first_sync` hold for these calls, and these records are found; those of `C83_syncs_partial` hold for the calls of
C70 as shown there. -/
example : exPlaceEnv.IgnoresOrder ∧ exPlaceEnv.ScalarHints ∧ exPlaceEnv.PlacesOfEqual ∧ Orderly exPlaceCalls ∧
    (∃ v, IsVersion (afterCalls asciiU ['x'] exPlaceCalls) ['x'] v) ∧
    (match sync (realParser exPlaceEnv) 10 ['x'] false (afterCalls asciiU ['x'] exPlaceCalls) [] with
      | .ok es => decide (foundIds (es.searchFor exQuery (.version 2) (.exists_ hasGeo)) = [['a']] ∧
          foundIds (es.searchFor exQuery (.version 3) (.exists_ hasGeo)) = [['a'], ['b']])
      | .error _ => false) = true := by
  refine ⟨exPlaceEnv_order, exPlaceEnv_scalar, exPlaceEnv_equal, ⟨by decide +kernel, ?_⟩,
    ⟨1, .inr ⟨(afterCalls asciiU ['x'] exPlaceCalls).options.head (by decide +kernel), by decide +kernel, by decide +kernel, by decide +kernel⟩⟩,
    by decide +kernel⟩
  intro c hc
  simp only [exPlaceCalls, List.mem_cons, List.not_mem_nil, or_false] at hc
  rcases hc with rfl | rfl | rfl <;> unfold NoSpan <;> decide

/-- The hypotheses hold for this data, and it has a place. -/
example : exEnv'.ScalarHints ∧ (exParseOpts.geoHints.map GeoFieldHint.latField).Nodup ∧ (Value.dict exTree).wf = true ∧
    FieldNames (.dict exTree) ∧ ∃ pd, parse exEnv' exParseOpts exTree = .ok pd ∧ existsMatches hasGeo pd.parsed = true ∧
      copiedValues "all_shapes".toList pd.parsed ≠ some [] :=
  ⟨exEnv'_scalar, by decide, by decide, exTree_names, _, rfl, by decide +kernel, by decide +kernel⟩

end Splitgill.Props
