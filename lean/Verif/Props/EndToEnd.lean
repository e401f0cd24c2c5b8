import Verif.Proof.EndToEnd2
import Verif.Props.Search
import Verif.Props.ParseOrder
import Verif.Props.Exact
/-!
# C70, C71: from calls of the API to what searches find; C05, C31, C35, C36 with the parser of the code

`ingested U db calls` are the histories of the records according to what the calls were given and what they returned
(`Verif.Spec.Life`).
-/

namespace Splitgill.Props
open Splitgill

/-! ## C71 -/

/-- **C71**: no call raises an exception, after any calls. -/
theorem C71_calls_return (U : Unicode) (db : PyStr) (before : List ApiCall) (call : ApiCall) (h : Orderly (before ++ [call])) :
    ∃ ret, (call.run U db (afterCalls U db before)).1 = .ok ret := by
  have hl := life (K := fun _ => plainClass) (U := U) (db := db) (fun c _ => fits_plain U c.stream) h.left
  obtain ⟨ret, hr, _⟩ := hl.call (U := U) call (fun c hc => by
    rw [lastClock_eq, Option.or_none]
    cases hb : (before.filterMap ApiCall.clock?).getLast? with
    | none => rfl
    | some t =>
      have hcl := h.clock
      rw [List.filterMap_append, List.pairwise_append] at hcl
      have := hcl.2.2 t (List.mem_of_getLast? hb) c (by simp [List.filterMap_cons, hc])
      simpa [gtAfter] using this) (fits_plain U call.stream) (h.noSpan call (by simp))
  exact ⟨ret, hr⟩

/-- A version that is returned is the time of the call. -/
theorem C71_version (U : Unicode) (db : PyStr) (m : Mongo) (call : ApiCall) (v : Int)
    (h : (call.run U db m).1 = .ok (some v)) : call.clock? = some v := by
  have key : ∀ (c : Int) (m : Mongo), (commit db c m).1 = .ok (some v) → c = v := by
    intro c m h
    unfold commit withLock at h
    split at h
    · cases h
    · simp only [commitBody] at h
      split at h
      · cases h
      · simpa using h
  cases call with
  | ingest mf rs doCommit clock =>
    simp only [ApiCall.run] at h
    split at h
    · cases h
    · cases doCommit with
      | false => cases h
      | true => rw [if_pos rfl] at h; rw [← key _ _ h]; rfl
  | commit clock => rw [← key _ _ h]; rfl
  | updateOptions o doCommit clock =>
    simp only [ApiCall.run, updateOptions] at h
    split at h
    · cases h
    · cases doCommit with
      | false => cases h
      | true => rw [if_pos rfl] at h; rw [← key _ _ h]; rfl
  | rollbackOptions => cases h
  | rollbackRecords =>
    simp only [ApiCall.run] at h
    split at h <;> cases h

/-- **C05** for calls of the API: the states of every record are those that the calls gave it. -/
theorem C05_api (U : Unicode) (db : PyStr) (calls : List ApiCall) (h : Orderly calls) (id : PyStr) :
    ∃ items, history ((afterCalls U db calls).data db) id = .ok items ∧ SameStates items ((ingested U db calls) id).states := by
  have hl := life (K := fun _ => plainClass) (U := U) (db := db) (fun c _ => fits_plain U c.stream) h
  obtain ⟨items, h1, h2⟩ := Rep.history hl.rep id
  exact ⟨items, h1, h2.imp (fun _ _ h => ⟨h.1, h.2.sim⟩)⟩

/-! ## C70 -/

/-- **C70**, as it should be: after a sync, `search(v)` finds for a record that exists at `v` one document, from which its data as of `v`
is rebuilt, and nothing for other records. -/
def C70_full : Prop :=
  ∀ (E : ParseEnv), E.IgnoresOrder → E.ScalarHints → ∀ (U : Unicode), U.Sane → ∀ (maxDocs : Nat) (db : PyStr) (calls : List ApiCall),
    Orderly calls → (∃ v, IsVersion (afterCalls U db calls) db v) → NoPending db (afterCalls U db calls) →
    ∃ es, sync (realParser E) maxDocs db false (afterCalls U db calls) [] = .ok es ∧ ∀ v id,
      (∀ a, AsOf (ingested U db calls id).committed v a → a ≠ [] →
        ∃ d p, foundFor es (.version v) id = [d] ∧ d.parsed = some p ∧ strictEq (.dict (rebuildData p.parsed)) (.dict a) = true) ∧
      (¬ Alive (ingested U db calls id).committed v → foundFor es (.version v) id = [])

theorem exEnv'_scalar : exEnv'.ScalarHints := by
  intro lon lat r n g h
  simp only [exEnv'] at h
  split at h
  · exact ⟨rfl, by simp⟩
  · cases h

theorem exEnv'_order : exEnv'.IgnoresOrder := by
  refine ⟨exEnv_order.geojson, ?_⟩
  intro lon lat r n lon' lat' r' h1 h1' h2 h3 h3' h4 _
  have sc : ∀ (v w : Value) (i : Int), SE v w → v = .int i → w = .int i := by
    rintro v w i h rfl
    exact (h.scalar rfl).symm
  have s1 : SE lon lon' := ⟨h1, h1', h2⟩
  have s2 : SE lat lat' := ⟨h3, h3', h4⟩
  have e : ∀ lon lat r, exEnv'.hintGeo lon lat r n = if lon = .int 6 ∧ lat = .int 5 then some ("p".toList, "s".toList) else none := by
    intro lon lat r
    simp only [exEnv']
    split
    · simp
    · rename_i hx
      rw [if_neg]
      rintro ⟨rfl, rfl⟩
      exact hx rfl rfl
  rw [e, e]
  exact if_congr ⟨fun ⟨a, b⟩ => ⟨sc _ _ _ s1 a, sc _ _ _ s2 b⟩, fun ⟨a, b⟩ => ⟨sc _ _ _ s1.symm a, sc _ _ _ s2.symm b⟩⟩ rfl rfl

/-- A record with an empty list. -/
def exEmptyList : List ApiCall := [.ingest none [⟨['a'], [(.str ['x'], .list [])]⟩] true 1]

/-- The indices of a database with the parser of the code. -/
def exIndexed (calls : List ApiCall) : ES (Option ParsedData) :=
  match sync (realParser exEnv') 10 ['x'] false (afterCalls asciiU ['x'] calls) [] with
  | .ok es => es
  | .error _ => []

set_option maxRecDepth 100000 in
/-- **C70 does not hold in full**: the field with the empty list is lost (C47). -/
theorem C70_refuted : ¬ C70_full := by
  intro h
  obtain ⟨es, h1, h2⟩ := h exEnv' exEnv'_order exEnv'_scalar asciiU asciiU_sane 10 ['x'] exEmptyList
    ⟨by decide, by intro c hc; simp only [exEmptyList, List.mem_singleton] at hc; subst hc; unfold NoSpan; decide⟩
    ⟨1, .inr ⟨(afterCalls asciiU ['x'] exEmptyList).options.head (by decide), by decide, by decide, by decide⟩⟩
    (by
      have : ∀ r ∈ (afterCalls asciiU ['x'] exEmptyList).data ['x'], r.version ≠ none := by decide
      exact this)
  have hs : sync (realParser exEnv') 10 ['x'] false (afterCalls asciiU ['x'] exEmptyList) [] = .ok (exIndexed exEmptyList) := rfl
  rw [hs] at h1; cases h1
  obtain ⟨d, p, g1, g2, g3⟩ := (h2 1 ['a']).1 [(['x'], .list []), ("_id".toList, .str ['a'])] (by
    have e : (ingested asciiU ['x'] exEmptyList ['a']).committed = [(1, [(['x'], .list []), ("_id".toList, .str ['a'])])] := by decide
    rw [e]
    exact ⟨1, by simp, by simp, by simp⟩) (by simp)
  have e : (foundFor (exIndexed exEmptyList) (.version 1) ['a']).all (fun d => match d.parsed with
    | some p => decide ((rebuildData p.parsed).length = 1) | none => true) = true := by decide
  rw [g1] at e
  simp only [List.all_cons, List.all_nil, Bool.and_true, g2, decide_eq_true_eq] at e
  simp only [strictEq, eqWith, Bool.and_eq_true, beq_iff_eq] at g3
  rw [e] at g3
  exact absurd g3.1 (by decide)

/-- **C70** (what holds) after one sync: what is rebuilt is equal to what remains of the data (C47), and the same with all types
if no two data given for a record hold equal but different scalars at the same place. Records with uncommitted data are not
found. Missing: the types otherwise (`C68_refuted`) and empty values (`C70_refuted`). -/
theorem C70_first_sync_partial (E : ParseEnv) (hE : E.IgnoresOrder) (hS : E.ScalarHints) (U : Unicode) (hU : U.Sane) (maxDocs : Nat)
    (db : PyStr) (calls : List ApiCall) (ho : Orderly calls) (hv : ∃ v, IsVersion (afterCalls U db calls) db v) :
    ∃ es, sync (realParser E) maxDocs db false (afterCalls U db calls) [] = .ok es ∧ ∀ v id,
      (∀ a, AsOf (ingested U db calls id).committed v a → a ≠ [] → (ingested U db calls id).pending = none →
        ∃ d p, foundFor es (.version v) id = [d] ∧ d.parsed = some p ∧
          simEq (.dict (rebuildData p.parsed)) (.dict (remainsDict a)) = true ∧
          (NoPunsAmong U (calls.flatMap ApiCall.stream) →
            strictEq (.dict (rebuildData p.parsed)) (.dict (remainsDict a)) = true)) ∧
      (¬ Alive (ingested U db calls id).committed v ∨ (ingested U db calls id).pending ≠ none → foundFor es (.version v) id = []) := by
  obtain ⟨w, hw⟩ := hv
  have hm := life_dbOk ho hw
  have hnames : ∀ r : Record, FieldNames (.dict (prepareRecordData U r)) := fun r => fieldNames_of_clean (C16_names_clean U hU r)
  obtain ⟨es, h1, h2, h3⟩ := C30_first_sync (realParser E) maxDocs db _ hm
  have hl := life (K := fun _ => plainClass.named) (U := U) (db := db) (fun c _ => (fits_plain U c.stream).named hnames) ho
  refine ⟨es, h1, fun v id => ⟨fun a ha hne hpend => ?_, fun hna => ?_⟩⟩
  · by_cases hn : NoPunsAmong U (calls.flatMap ApiCall.stream)
    · have hl' := life (K := fun id => (strictClass (placesOf U _ hn id)).named) (U := U) (db := db)
        (fun c hc => (fits_strict hn (fun r hr => List.mem_flatMap.2 ⟨c, hc, hr⟩)).named hnames) ho
      obtain ⟨d, p, b, g1, g2, g3, _, g4⟩ := hl'.first_sync (K := fun id => strictClass (placesOf U _ hn id)) hE hS hm h2 h3 ha hne hpend
      have g5 := SE.trans (g4 (fun x y hx hy => hx.2.noPun hy.2)) (remainsDict_congr knowsEmpty_strict rfl g3.vr)
      exact ⟨d, p, g1, g2, simEq_of_strictEq g5.2.2, fun _ => g5.2.2⟩
    · obtain ⟨d, p, b, g1, g2, g3, g4, _⟩ := hl.first_sync (K := fun _ => plainClass) hE hS hm h2 h3 ha hne hpend
      have g5 := VRsim_trans g4 (remainsDict_congr knowsEmpty_sim rfl g3.vr)
      exact ⟨d, p, g1, g2, g5.2.2, fun h => absurd h hn⟩
  · obtain ⟨_, k2, k3⟩ := C36_search_partial (realParser E) db _ _ es hm List.filter_sublist h2 h3 v
    by_cases hid : ∃ r ∈ ((afterCalls U db calls).data db).filter (fun r => r.version.isSome), id = r.id
    · obtain ⟨r, hr, rfl⟩ := hid
      refine k2 r hr (fun hal => hna.elim (fun hna => hna ((hl.hist r.id).alive hal)) (fun hne => hne ?_))
      exact (hl.pending_iff (List.mem_filter.1 hr).1).2 (List.mem_filter.1 hr).2
    · unfold foundFor
      rw [List.filter_eq_nil_iff]
      intro d hd
      obtain ⟨r, hr, e⟩ := k3 d hd
      simp only [decide_eq_true_eq]
      rintro rfl
      exact hid ⟨r, hr, e⟩

/-- **C70** (what holds) after any calls and syncs between them, if no two data given for a record hold equal but different
scalars at the same place, no record is changed and then deleted between two syncs, and nothing is uncommitted at the syncs: what
is rebuilt is what remains of the data (C47), with all types. Missing: the other cases, see `C31_refuted`, `C68_refuted` and `C70_refuted`. -/
theorem C70_syncs_partial (E : ParseEnv) (hE : E.IgnoresOrder) (hS : E.ScalarHints) (U : Unicode) (hU : U.Sane) (maxDocs : Nat)
    (db : PyStr) (first : List ApiCall) (parts : List (List ApiCall)) (ho : Orderly (first ++ parts.flatten))
    (hv : ∃ v, IsVersion (afterCalls U db first) db v) (he : EachPart (NoUpdateDelete db) U db first parts)
    (hp : ∀ m ∈ statesOf U db first parts, NoPending db m)
    (hn : NoPunsAmong U ((first ++ parts.flatten).flatMap ApiCall.stream)) :
    ∃ es, runSyncs (realParser E) maxDocs db [] (statesOf U db first parts) = .ok es ∧ ∀ v id,
      (∀ a, AsOf (ingested U db (first ++ parts.flatten) id).committed v a → a ≠ [] →
        ∃ d p, foundFor es (.version v) id = [d] ∧ d.parsed = some p ∧
          strictEq (.dict (rebuildData p.parsed)) (.dict (remainsDict a)) = true ∧
          (Rebuildable (.dict a) → strictEq (.dict (rebuildData p.parsed)) (.dict a) = true)) ∧
      (¬ Alive (ingested U db (first ++ parts.flatten) id).committed v → foundFor es (.version v) id = []) := by
  have hR := (realParser_respects (E := E) hE (placesOf U _ hn)).named
  have hq : ∀ c ∈ first ++ parts.flatten, Fits (fun id => (strictClass (placesOf U _ hn id)).named) U c.stream := fun c hc =>
    (fits_strict hn (fun r hr => List.mem_flatMap.2 ⟨c, hc, hr⟩)).named (fun r => fieldNames_of_clean (C16_names_clean U hU r))
  obtain ⟨ms, hms⟩ := statesOf_getLast U db parts first
  have ht := life_timeline hR parts first hq ho hv he
  have hm := ht.dbOk _ (by rw [hms]; simp : afterCalls U db (first ++ parts.flatten) ∈ statesOf U db first parts)
  have hl := life hq ho (db := db)
  rw [hms] at ht hp
  obtain ⟨es, es0, h1, _, _, h2, h3⟩ := C31_incremental_partial (realParser E) maxDocs db ms _ ht hp
  rw [hms]
  refine ⟨es, h1, fun v id => ⟨fun a ha hne => ?_, fun hna => ?_⟩⟩
  · have hid : id ∈ ((afterCalls U db (first ++ parts.flatten)).data db).map MongoRecord.id := by
      refine mem_ids_of_hist (fun hnil => ?_)
      obtain ⟨y, ⟨w, hw, _⟩, _⟩ := (hl.hist id).asOf ha
      rw [hnil] at hw; cases hw
    obtain ⟨r, hr, rfl⟩ := List.mem_map.1 hid
    have hh := hl.hist r.id
    obtain ⟨b, hb, hba⟩ := hh.asOf ha
    obtain ⟨d, p, g1, g2, _, g3⟩ := found_rebuilt hE hS hm (List.Sublist.refl _) h2 h3 hr
      (fun x hx => ⟨(hh.left_mem hx).1.1, (hh.left_mem hx).2⟩) hb (fun e => hne (hba.nil_iff.1 e))
    have g3 := g3 (fun x hx y hy => (hh.left_mem hx).1.2.noPun (hh.left_mem hy).1.2)
    have g4 := SE.trans g3 (remainsDict_congr knowsEmpty_strict rfl hba.vr)
    refine ⟨d, p, g1, g2, g4.2.2, fun hreb => ?_⟩
    have := (remains_iff _).2 hreb
    rw [remains, Value.dict.injEq] at this
    rw [← this]; exact g4.2.2
  · obtain ⟨_, k2, k3⟩ := C36_search_partial (realParser E) db _ _ es hm (List.Sublist.refl _) h2 h3 v
    by_cases hid : id ∈ ((afterCalls U db (first ++ parts.flatten)).data db).map MongoRecord.id
    · obtain ⟨r, hr, rfl⟩ := List.mem_map.1 hid
      exact k2 r hr (fun hal => hna ((hl.hist r.id).alive hal))
    · unfold foundFor
      rw [List.filter_eq_nil_iff]
      intro d hd
      obtain ⟨r, hr, e⟩ := k3 d hd
      simp only [decide_eq_true_eq]
      rintro rfl
      exact hid (by rw [e]; exact List.mem_map_of_mem hr)

/-! ## C31, C35 and C36 with the parser of the code -/

/-- To show that there are no puns among records whose values are all scalars. -/
theorem noPuns_of_flat {U : Unicode} {rs : List Record}
    (h1 : ∀ r ∈ rs, (prepareRecordData U r).all (fun kv => kv.2.isScalar) = true)
    (h2 : ∀ r ∈ rs, ∀ r' ∈ rs, ∀ kv ∈ prepareRecordData U r, ∀ kv' ∈ prepareRecordData U r', kv.1 = kv'.1 → pyEq kv.2 kv'.2 = true →
      kv.2 = kv'.2) : NoPunsAmong U rs := by
  have hone : ∀ (d : Dict), d.all (fun kv => kv.2.isScalar) = true → ∀ p v, getAt p (.dict d) = some v → v.isScalar = true →
      ∃ k, p = [.key k] ∧ aget k d = some v := by
    intro d hd p v hv hs
    cases p with
    | nil => simp only [getAt, Option.some.injEq] at hv; subst hv; simp [Value.isScalar] at hs
    | cons s p =>
      cases s with
      | idx i => simp [getAt] at hv
      | key k =>
        simp only [getAt] at hv
        obtain ⟨w, hw, hv⟩ := Option.bind_eq_some_iff.1 hv
        have hws := List.all_eq_true.1 hd _ (aget_mem hw)
        cases p with
        | nil => simp only [getAt, Option.some.injEq] at hv; subst hv; exact ⟨k, rfl, hw⟩
        | cons s' p' => cases w <;> cases s' <;> simp_all [getAt, Value.isScalar]
  intro r hr r' hr' _ p v w hv hw hs hs' hpy
  obtain ⟨k, rfl, hk⟩ := hone _ (h1 r hr) p v hv hs
  obtain ⟨k', e, hk'⟩ := hone _ (h1 r' hr') _ w hw hs'
  simp only [List.cons.injEq, PathEl.key.injEq, and_true] at e
  subst e
  exact h2 r hr r' hr' _ (aget_mem hk) _ (aget_mem hk') rfl hpy

/-- The calls of the example at the end of `Verif.Props.Life` hold no puns. -/
theorem exCalls_noPuns : NoPunsAmong asciiU ((exCalls1 ++ exParts.flatten).flatMap ApiCall.stream) :=
  noPuns_of_flat (by decide +kernel) (by decide +kernel)

set_option maxRecDepth 100000 in
/-- The hypotheses of the theorems here hold for these calls: a change of a record, a deletion and new options between two syncs; and
`search(1)` finds both records afterwards. -/
example : exEnv'.IgnoresOrder ∧ exEnv'.ScalarHints ∧ asciiU.Sane ∧ Orderly (exCalls1 ++ exParts.flatten) ∧
    (∃ v, IsVersion (afterCalls asciiU ['x'] exCalls1) ['x'] v) ∧
    EachPart (NoUpdateDelete ['x']) asciiU ['x'] exCalls1 exParts ∧
    (∀ m ∈ statesOf asciiU ['x'] exCalls1 exParts, NoPending ['x'] m) ∧
    NoPunsAmong asciiU ((exCalls1 ++ exParts.flatten).flatMap ApiCall.stream) ∧
    (ingested asciiU ['x'] (exCalls1 ++ exParts.flatten) ['a']).committed = [(2, exData ['a'] 2), (1, exData ['a'] 1)] ∧
    (match runSyncs (realParser exEnv') 10 ['x'] [] (statesOf asciiU ['x'] exCalls1 exParts) with
      | .ok es => decide ((foundFor es (.version 1) ['a']).map (fun d => d.parsed.map (fun p => rebuildData p.parsed)) =
          [some [("_id".toList, .str ['a']), (['x'], .int 1)]] ∧ (foundFor es (.version 1) ['b']).length = 1 ∧
          (foundFor es (.version 3) ['b']).length = 0)
      | .error _ => false) = true := by
  have ho : Orderly (exCalls1 ++ exParts.flatten) := by
    refine ⟨by decide, ?_⟩
    intro c hc
    simp [exCalls1, exParts] at hc
    rcases hc with rfl | rfl | rfl | rfl <;> unfold NoSpan <;> decide
  have hv : IsVersion (afterCalls asciiU ['x'] exCalls1) ['x'] 1 :=
    .inr ⟨(afterCalls asciiU ['x'] exCalls1).options.head (by decide), by decide, by decide, by decide⟩
  refine ⟨exEnv'_order, exEnv'_scalar, asciiU_sane, ho, ⟨1, hv⟩, ⟨?_, trivial⟩, ?_, exCalls_noPuns, by decide +kernel, by decide +kernel⟩
  · intro t ht
    have : (exCalls1.filterMap ApiCall.clock?).getLast? = some 1 := by decide
    rw [this] at ht; cases ht
    exact noUpdateDelete_of_check (dbOk_of_check (by decide)) (by decide)
  · have : ∀ m ∈ statesOf asciiU ['x'] exCalls1 exParts, ∀ r ∈ m.data ['x'], r.version ≠ none := by decide
    exact this

/-- **C31** with the parser of the code. Missing: see `C31_refuted` and `C31_parsed_refuted`. -/
theorem C31_parsed_partial (E : ParseEnv) (hE : E.IgnoresOrder) (maxDocs : Nat) (U : Unicode) (db : PyStr)
    (first : List ApiCall) (parts : List (List ApiCall)) (ho : Orderly (first ++ parts.flatten))
    (hv : ∃ v, IsVersion (afterCalls U db first) db v) (he : EachPart (NoUpdateDelete db) U db first parts)
    (hp : ∀ m ∈ statesOf U db first parts, NoPending db m)
    (hn : NoPunsAmong U ((first ++ parts.flatten).flatMap ApiCall.stream)) :
    ∃ es es0, runSyncs (realParser E) maxDocs db [] (statesOf U db first parts) = .ok es ∧
      sync (realParser E) maxDocs db false (afterCalls U db (first ++ parts.flatten)) [] = .ok es0 ∧ SameIndices es es0 ∧ LatestOk es ∧
      IndexesRecords (realParser E) db (afterCalls U db (first ++ parts.flatten)) ((afterCalls U db (first ++ parts.flatten)).data db) es := by
  obtain ⟨ms, hms⟩ := statesOf_getLast U db parts first
  have ht := life_timeline (realParser_respects (E := E) hE (placesOf U _ hn)) parts first
    (fun c hc => fits_strict hn (fun r hr => List.mem_flatMap.2 ⟨c, hc, hr⟩)) ho hv he
  rw [hms] at ht hp ⊢
  exact C31_incremental_partial (realParser E) maxDocs db ms _ ht hp

/-- **C35** with the parser of the code. Missing: see `C35_refuted` and `C31_parsed_refuted`. -/
theorem C35_parsed_partial (E : ParseEnv) (hE : E.IgnoresOrder) (maxDocs : Nat) (U : Unicode) (db : PyStr)
    (first : List ApiCall) (parts : List (List ApiCall)) (ho : Orderly (first ++ parts.flatten))
    (hv : ∃ v, IsVersion (afterCalls U db first) db v)
    (he : EachPart (fun t m => NoUpdateDelete db t m ∧ PendingOld db (some t) m) U db first parts)
    (hp : PendingOld db none (afterCalls U db first))
    (hn : NoPunsAmong U ((first ++ parts.flatten).flatMap ApiCall.stream)) :
    ∃ es, runSyncs (realParser E) maxDocs db [] (statesOf U db first parts) = .ok es ∧ LatestOk es ∧
      IndexesRecords (realParser E) db (afterCalls U db (first ++ parts.flatten)) ((afterCalls U db (first ++ parts.flatten)).data db) es := by
  obtain ⟨ms, hms⟩ := statesOf_getLast U db parts first
  have ht := life_timeline (realParser_respects (E := E) hE (placesOf U _ hn)) parts first
    (fun c hc => fits_strict hn (fun r hr => List.mem_flatMap.2 ⟨c, hc, hr⟩)) ho hv he
  have hs : ∃ l, statesOf U db first parts = afterCalls U db first :: l := by cases parts <;> exact ⟨_, rfl⟩
  obtain ⟨l, hl⟩ := hs
  rw [hl] at ht
  obtain ⟨es, h1, h2⟩ := C35_pending_partial (realParser E) maxDocs db _ l ht hp
  have hlast : (afterCalls U db first :: l).getLast (by simp) = afterCalls U db (first ++ parts.flatten) := by
    have : afterCalls U db first :: l = ms ++ [afterCalls U db (first ++ parts.flatten)] := by rw [← hl, hms]
    simp [this]
  rw [hlast] at h2
  exact ⟨es, by rw [hl]; exact h1, h2⟩

/-- **C36** with the parser of the code. Missing: see `C36_refuted` and `C31_parsed_refuted`. -/
theorem C36_parsed_partial (E : ParseEnv) (hE : E.IgnoresOrder) (maxDocs : Nat) (U : Unicode) (db : PyStr)
    (first : List ApiCall) (parts : List (List ApiCall)) (ho : Orderly (first ++ parts.flatten))
    (hv : ∃ v, IsVersion (afterCalls U db first) db v) (he : EachPart (NoUpdateDelete db) U db first parts)
    (hp : ∀ m ∈ statesOf U db first parts, NoPending db m)
    (hn : NoPunsAmong U ((first ++ parts.flatten).flatMap ApiCall.stream)) :
    ∃ es, runSyncs (realParser E) maxDocs db [] (statesOf U db first parts) = .ok es ∧
      ∀ v, (∀ id a o, AsOf (histOf ((afterCalls U db (first ++ parts.flatten)).data db) id) v a → a ≠ [] →
          OptionsAsOf (effectiveOptions (histOf ((afterCalls U db (first ++ parts.flatten)).data db) id)
            (committedOptionsOf db (afterCalls U db (first ++ parts.flatten)))) v o →
          ∃ d, foundFor es (.version v) id = [d] ∧ (realParser E).same d.parsed ((realParser E).parse a o)) ∧
        (∀ id, ¬ Alive (histOf ((afterCalls U db (first ++ parts.flatten)).data db) id) v →
          foundFor es (.version v) id = []) := by
  obtain ⟨es, es0, h1, _, _, h2, h3⟩ := C31_parsed_partial E hE maxDocs U db first parts ho hv he hp hn
  obtain ⟨ms, hms⟩ := statesOf_getLast U db parts first
  have ht := life_timeline (realParser_respects (E := E) hE (placesOf U _ hn)) parts first
    (fun c hc => fits_strict hn (fun r hr => List.mem_flatMap.2 ⟨c, hc, hr⟩)) ho hv he
  have hm := ht.dbOk _ (by rw [hms]; simp : afterCalls U db (first ++ parts.flatten) ∈ statesOf U db first parts)
  refine ⟨es, h1, fun v => ?_⟩
  obtain ⟨g1, g2, g3⟩ := C36_search_partial (realParser E) db _ _ es hm (List.Sublist.refl _) h2 h3 v
  refine ⟨fun id a o ha hne ho => ?_, fun id hna => ?_⟩
  · have hid : id ∈ ((afterCalls U db (first ++ parts.flatten)).data db).map MongoRecord.id := by
      refine mem_ids_of_hist (fun hnil => ?_)
      obtain ⟨w, hw, _⟩ := ha
      rw [hnil] at hw; cases hw
    obtain ⟨r, hr, rfl⟩ := List.mem_map.1 hid
    exact g1 r hr a o ha hne ho
  · by_cases hid : id ∈ ((afterCalls U db (first ++ parts.flatten)).data db).map MongoRecord.id
    · obtain ⟨r, hr, rfl⟩ := List.mem_map.1 hid
      exact g2 r hr hna
    · unfold foundFor
      rw [List.filter_eq_nil_iff]
      intro d hd
      obtain ⟨r, hr, e⟩ := g3 d hd
      simp only [decide_eq_true_eq]
      rintro rfl
      exact hid (by rw [e]; exact List.mem_map_of_mem hr)

/-- C31 in full with the parser of the code, apart from what `C31_refuted` is about. -/
def C31_parsed_full : Prop :=
  ∀ (E : ParseEnv), E.IgnoresOrder → E.ScalarHints → ∀ (U : Unicode), U.Sane → ∀ (maxDocs : Nat) (db : PyStr) (first : List ApiCall)
    (parts : List (List ApiCall)), Orderly (first ++ parts.flatten) → (∃ v, IsVersion (afterCalls U db first) db v) →
    EachPart (NoUpdateDelete db) U db first parts → (∀ m ∈ statesOf U db first parts, NoPending db m) →
    ∃ es es0, runSyncs (realParser E) maxDocs db [] (statesOf U db first parts) = .ok es ∧
      sync (realParser E) maxDocs db false (afterCalls U db (first ++ parts.flatten)) [] = .ok es0 ∧ SameIndices es es0

/-- Options for which `"1"` is not a boolean, and others. -/
def exPunOpts (t : List PyStr) : ParsingOptions where
  trueValues := t
  falseValues := []
  dateFormats := []
  geoHints := []
  keywordLength := 10
  floatFormat := []

/-- `{"x": 1}`; then new options; then `{"x": True, "y": 2}`; with syncs between. -/
def exPun1 : List ApiCall := [.updateOptions (exPunOpts []) true 1, .ingest none [⟨['a'], [(.str ['x'], .int 1)]⟩] true 2]
def exPun2 : List ApiCall := [.updateOptions (exPunOpts [['1']]) true 3]
def exPun3 : List ApiCall := [.ingest none [⟨['a'], [(.str ['x'], .bool true), (.str ['y'], .int 2)]⟩] true 4]

/-- The indices after the syncs. -/
def exPunSynced : ES (Option ParsedData) :=
  match runSyncs (realParser exEnv') 10 ['x'] [] (statesOf asciiU ['x'] exPun1 [exPun2, exPun3]) with
  | .ok es => es
  | .error _ => []

set_option maxRecDepth 100000 in
/-- **C31 and C36 do not hold in full for the parser of the code**: when the last version of a record holds `True` where the ones before hold
`1`, the older versions are read back with `True`. With options for which these differ the documents of a sync before
that are not those of the sync after, and both stay: `search(2)` finds the record twice. -/
theorem C31_parsed_refuted : ¬ C31_parsed_full ∧ (foundFor exPunSynced (.version 2) ['a']).length = 2 := by
  refine ⟨fun h => ?_, by decide +kernel⟩
  have hall : ∀ m ∈ statesOf asciiU ['x'] exPun1 [exPun2, exPun3], ∀ r ∈ m.data ['x'], r.version ≠ none := by decide +kernel
  have ok2 : DbOk ['x'] (afterCalls asciiU ['x'] (exPun1 ++ exPun2)) := dbOk_of_check (by decide +kernel)
  have ok3 : DbOk ['x'] (afterCalls asciiU ['x'] (exPun1 ++ exPun2 ++ exPun3)) := dbOk_of_check (by decide +kernel)
  obtain ⟨es, es0, h1, h2, h3⟩ := h exEnv' exEnv'_order exEnv'_scalar asciiU asciiU_sane 10 ['x'] exPun1 [exPun2, exPun3]
    (by
      refine ⟨by decide +kernel, ?_⟩
      intro c hc
      simp only [exPun1, exPun2, exPun3, List.flatten_cons, List.flatten_nil, List.append_nil, List.cons_append, List.nil_append,
        List.mem_cons, List.not_mem_nil, or_false] at hc
      rcases hc with rfl | rfl | rfl | rfl <;> unfold NoSpan <;> decide)
    ⟨1, .inr ⟨(afterCalls asciiU ['x'] exPun1).options.head (by decide +kernel), by decide +kernel, by decide +kernel, by decide +kernel⟩⟩
    ⟨fun t ht => by
        have : (exPun1.filterMap ApiCall.clock?).getLast? = some 2 := by decide +kernel
        rw [this] at ht; cases ht
        exact noUpdateDelete_of_check ok2 (by decide +kernel),
      fun t ht => by
        have : ((exPun1 ++ exPun2).filterMap ApiCall.clock?).getLast? = some 3 := by decide +kernel
        rw [this] at ht; cases ht
        exact noUpdateDelete_of_check ok3 (by decide +kernel), trivial⟩
    hall
  have e1 : (match runSyncs (realParser exEnv') 10 ['x'] [] (statesOf asciiU ['x'] exPun1 [exPun2, exPun3]) with
    | .ok es => es.archived.length | .error _ => 0) = 2 := by decide +kernel
  have e2 : (match sync (realParser exEnv') 10 ['x'] false (afterCalls asciiU ['x'] (exPun1 ++ [exPun2, exPun3].flatten)) [] with
    | .ok es => es.archived.length | .error _ => 0) = 1 := by decide +kernel
  rw [h1] at e1
  rw [h2] at e2
  have := h3.archived.length_eq
  dsimp only at e1 e2
  omega

/-- A NaN: options that change nothing in the parse make no new document, as it is the same object; giving the data again
makes one (see C10). -/
example : (match buildFrom (realParser exEnv') ['a'] [(1, [(['x'], .float .nan)])] [(1, exOpts 10), (2, exOpts 20)] with
      | .ok rvs => rvs.map (·.version) | .error _ => []) = [1] ∧
    (match buildFrom (realParser exEnv') ['a'] [(3, [(['x'], .float .nan)]), (1, [(['x'], .float .nan)])] [(1, exOpts 10), (2, exOpts 20)] with
      | .ok rvs => rvs.map (·.version) | .error _ => []) = [1, 3] := by
  decide +kernel

end Splitgill.Props
