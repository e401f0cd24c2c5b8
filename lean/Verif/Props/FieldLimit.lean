import Verif.Proof.FieldLimit2
import Verif.Props.Mapping
/-!
# C100: how many fields data can have

An index has at most 4000 fields (`Verif.Model.FieldLimit`), which are more than those of the data.
-/

namespace Splitgill.Props
open Splitgill

/-- All types. -/
def allTypes : List PType := [.unparsed, .number, .date, .boolean, .text, .keyword, .geoPoint, .geoShape]

/-- The types other than those of places. -/
def plainTypes : List PType := [.unparsed, .number, .date, .boolean, .text, .keyword]

theorem allTypes_found (E : ParseEnv) : ParserTypes E (· ∈ allTypes) :=
  ⟨fun t _ _ => by cases t <;> decide, fun _ _ _ => ⟨by decide, by decide⟩, fun _ _ _ => ⟨by decide, by decide⟩, fun _ _ _ _ _ _ => ⟨by decide, by decide⟩⟩

theorem plainTypes_found {E : ParseEnv} (h : NoPlaces E) : ParserTypes E (· ∈ plainTypes) := by
  refine ⟨fun t h1 h2 => ?_, fun s g e => ?_, fun d g e => ?_, fun lon lat r n g e => ?_⟩
  · cases t <;> first | decide | exact absurd rfl h1 | exact absurd rfl h2
  · rw [h.wkt] at e; cases e
  · rw [h.geojson] at e; cases e
  · rw [h.hint] at e; cases e

/-- **C100**: documents of any data that has at most 443 fields in all are accepted by a new index, in any order. -/
theorem C100_fields (E : ParseEnv) (S : EsEnv) (hP : PlacesOk E S) (hl : S.NotLonger) (fields : List (List PyStr)) (hf : fields.length ≤ 443)
    (docs : List (Doc ParsedData)) (hd : ∀ doc ∈ docs, MadeFromFields E ShortKeywords fields doc.parsed ∧ ShortTexts doc) :
    ∃ m, limitDocs S fieldLimit initialMapping (docs.map (fun d => sentDict d.toDict)) = some m :=
  limitDocs_ok hP hl (allTypes_found E) (ps := fields) (limit := fieldLimit)
    (by show 10 + 9 * fields.length ≤ 4000; omega) docs hd _ regular_initial (by decide) (fun _ hq => List.mem_append_left _ hq)

/-- **C100**: if there are no places in the data, it can have 570 fields. -/
theorem C100_no_places (E : ParseEnv) (S : EsEnv) (hE : NoPlaces E) (hP : PlacesOk E S) (hl : S.NotLonger) (fields : List (List PyStr))
    (hf : fields.length ≤ 570) (docs : List (Doc ParsedData))
    (hd : ∀ doc ∈ docs, MadeFromFields E ShortKeywords fields doc.parsed ∧ ShortTexts doc) :
    ∃ m, limitDocs S fieldLimit initialMapping (docs.map (fun d => sentDict d.toDict)) = some m :=
  limitDocs_ok hP hl (plainTypes_found hE) (ps := fields) (limit := fieldLimit)
    (by show 10 + 7 * fields.length ≤ 4000; omega) docs hd _ regular_initial (by decide) (fun _ hq => List.mem_append_left _ hq)

/-- **C100**: the documents that syncs write to an index after any calls are accepted, if the versions of the records have at
most 443 fields in all. -/
theorem C100_sync (E : ParseEnv) (S : EsEnv) (hP : PlacesOk E S) (hl : S.NotLonger) (U : Unicode) (hU : U.Sane) (maxDocs : Nat)
    (db : PyStr) (calls : List ApiCall) (ho : Orderly calls) (hv : ∃ v, IsVersion (afterCalls U db calls) db v)
    (hk : ∀ x ∈ committedOptionsOf db (afterCalls U db calls), ShortKeywords x.2) (after : Option Int) (arc arc' : Nat × Nat)
    (records : List MongoRecord) (hr : ∀ r ∈ records, r ∈ (afterCalls U db calls).data db)
    (fields : List (List PyStr)) (hn : fields.length ≤ 443)
    (hf : ∀ r ∈ records, ∀ items, r.iter = .ok items → ∀ x ∈ items, ∀ q ∈ fieldsOfDict x.2, q ∈ fields)
    (ops : List (BulkOp (Option ParsedData)))
    (h : generateOps (realParser E) maxDocs (committedOptionsOf db (afterCalls U db calls)) after arc records = .ok (ops, arc'))
    (ix : Ix) (hs : ∀ doc ∈ writtenTo ix ops, ShortTexts doc) (docs : List (Doc ParsedData)) (hd : ∀ doc ∈ docs, doc ∈ writtenTo ix ops) :
    ∃ m, limitDocs S fieldLimit initialMapping (docs.map (fun d => sentDict d.toDict)) = some m := by
  refine C100_fields E S hP hl fields hn docs (fun doc hdoc => ⟨?_, hs doc (hd doc hdoc)⟩)
  obtain ⟨op, h1, h2⟩ := List.mem_filterMap.1 (hd doc hdoc)
  cases op with
  | delete _ _ => cases h2
  | index ix' docId d =>
    dsimp only at h2
    split at h2
    · obtain ⟨p, hp, rfl⟩ := Option.map_eq_some_iff.1 h2
      obtain ⟨r, hr1, items, hi, v, data, w, o, k1, k2, k3⟩ := generateOps_parsed h h1
      obtain ⟨v', hv⟩ := hv
      have hli := (life (K := fun _ => plainClass.named) (U := U) (db := db) (fun c _ => fits_named_plain hU c.stream) ho).toLifeInv
      have hh := hli.hist r.id
      have k0 : ∃ x ∈ items, x.2 = data := by
        obtain ⟨x, hx, e⟩ := List.mem_filterMap.1 k1
        refine ⟨x, hx, ?_⟩
        cases hx1 : x.1 <;> simp_all
      rw [(life_dbOk ho hv).hist_of (hr r hr1) hi] at hh
      have hq := hh.left_mem k1
      obtain ⟨x, hx, rfl⟩ := k0
      exact ⟨x.2, o, plainClass.named.wf hq, hq.2, hk _ k2, hf r hr1 items hi x hx, by rw [← k3]; exact hp⟩
    · cases h2

/-- Libraries that find everything in any text; the flag tells whether they find places. -/
def exFinds (places : Bool) : ParseEnv where
  lower := id
  formatFloat := fun _ _ => []
  toNumber := fun _ => some (.fin 1)
  parseDate := fun _ _ => some 1
  wkt := fun _ => if places then some (['p'], ['g']) else none
  geojson := fun _ => none
  hintGeo := fun _ _ _ _ => none

/-- Options with a value for true and a format of dates. -/
def exFindsOpts : ParsingOptions := ⟨[['1']], [], [['x']], [], 8191, []⟩

/-- **C100**: 443 is the bound: a document with the text `1` in n fields, in which all types are found, is accepted by an index with a limit
of fields if and only if this is at least 10 + 9 n. For n = 443 this is 3997, for n = 444 it is 4006. -/
theorem C100_exact (S : EsEnv) (hP : PlacesOk (exFinds true) S) (hl : S.NotLonger) (ks : List PyStr) (hn : ks.Nodup) (hf : ∀ k ∈ ks, FieldName k)
    (doc : Doc ParsedData) (h : (realParser (exFinds true)).parse (uniformData (.str ['1']) ks) exFindsOpts = some doc.parsed)
    (hs : ShortTexts doc) (limit : Nat) :
    (∃ m, limitDocs S limit initialMapping [sentDict doc.toDict] = some m) ↔ 10 + 9 * ks.length ≤ limit := by
  have := same_exact hP hl (x := .str ['1']) (o := exFindsOpts) (by rfl) (by decide) (fieldNames_of_check (by decide)) rfl rfl ⟨by decide, by decide⟩
    hn hf (allTypes_found _) (by decide) (hasLeaf_of_check (by decide)) h hs limit
  rw [← Option.ne_none_iff_exists', ne_eq, this, Nat.not_lt]
  rfl

/-- **C100**: 570 is the bound if no places are found. -/
theorem C100_exact_no_places (S : EsEnv) (hP : PlacesOk (exFinds false) S) (hl : S.NotLonger) (ks : List PyStr) (hn : ks.Nodup)
    (hf : ∀ k ∈ ks, FieldName k)
    (doc : Doc ParsedData) (h : (realParser (exFinds false)).parse (uniformData (.str ['1']) ks) exFindsOpts = some doc.parsed)
    (hs : ShortTexts doc) (limit : Nat) :
    (∃ m, limitDocs S limit initialMapping [sentDict doc.toDict] = some m) ↔ 10 + 7 * ks.length ≤ limit := by
  have := same_exact hP hl (x := .str ['1']) (o := exFindsOpts) (by rfl) (by decide) (fieldNames_of_check (by decide)) rfl rfl ⟨by decide, by decide⟩
    hn hf (plainTypes_found (E := exFinds false) ⟨fun _ => rfl, fun _ => rfl, fun _ _ _ _ => rfl⟩) (by decide) (hasLeaf_of_check (by decide)) h hs limit
  rw [← Option.ne_none_iff_exists', ne_eq, this, Nat.not_lt]
  rfl

/-- The fields of an example. -/
def exMixedFields : List (List PyStr) := [[['x']], [['x'], ['y']], [['x'], ['z']]]

set_option maxRecDepth 100000 in
/-- The documents of an example meet the conditions; the index has its 10 fields, and 11 of the data. -/
example : (∀ doc ∈ exMixedDocs, MadeFromFields exEnv' ShortKeywords exMixedFields doc.parsed ∧ ShortTexts doc) ∧ exMixedDocs.length = 4 ∧
    (limitDocs exEs fieldLimit initialMapping (exMixedDocs.map (fun d => sentDict d.toDict))).map List.length = some 21 ∧
    limitDocs exEs 20 initialMapping (exMixedDocs.map (fun d => sentDict d.toDict)) = none := by
  refine ⟨?_, by decide +kernel, by decide +kernel, by decide +kernel⟩
  intro doc hdoc
  have hd : ∀ d ∈ exMixed, (Value.dict d).wf = true ∧ allKeys isFieldName (.dict d) = true ∧ ∀ q ∈ fieldsOfDict d, q ∈ exMixedFields := by decide +kernel
  have hs : ∀ doc ∈ exMixedDocs, utf8Len doc.id ≤ 32766 ∧ (∀ s ∈ doc.parsed.dataTypes, utf8Len s ≤ 32766) ∧
    ∀ s ∈ doc.parsed.parsedTypes, utf8Len s ≤ 32766 := by decide +kernel
  refine ⟨?_, (hs doc hdoc).1, (hs doc hdoc).2.1, (hs doc hdoc).2.2⟩
  obtain ⟨d, h1, h2⟩ := List.mem_filterMap.1 hdoc
  obtain ⟨p, hp, rfl⟩ := Option.map_eq_some_iff.1 h2
  exact ⟨d, exOpts 10, (hd d h1).1, fieldNames_of_check (hd d h1).2.1, ⟨by decide, by decide⟩, (hd d h1).2.2, hp⟩

/-- The parse of two fields in which all types are found. -/
def exFoundTypes (places : Bool) : ParsedData :=
  match (realParser (exFinds places)).parse (uniformData (.str ['1']) [['a'], ['b']]) exFindsOpts with
  | some p => p
  | none => ⟨[], [], []⟩

set_option maxRecDepth 100000 in
/-- The conditions of `C100_exact` and `C100_exact_no_places` are met. -/
example : ∀ places : Bool, (realParser (exFinds places)).parse (uniformData (.str ['1']) [['a'], ['b']]) exFindsOpts = some (exFoundTypes places) ∧
    ShortTexts ⟨['a'], 1, 1, none, none, exFoundTypes places⟩ ∧
    (mapDoc exEs initialMapping (sentDict (Doc.toDict ⟨['a'], 1, 1, none, none, exFoundTypes places⟩))).map List.length = some (if places then 28 else 24) := by
  intro places
  cases places with
  | true => exact ⟨by rfl, ⟨by decide +kernel, by decide +kernel, by decide +kernel⟩, by decide +kernel⟩
  | false => exact ⟨by rfl, ⟨by decide +kernel, by decide +kernel, by decide +kernel⟩, by decide +kernel⟩

set_option maxRecDepth 100000 in
/-- The first sync of an example meets the condition on the fields of `C100_sync`. (For the others see C98.) -/
example : ∃ fields : List (List PyStr), fields.length ≤ 443 ∧ ∀ r ∈ (afterCalls asciiU ['x'] exCalls1).data ['x'],
    ∀ items, r.iter = .ok items → ∀ x ∈ items, ∀ q ∈ fieldsOfDict x.2, q ∈ fields := by
  refine ⟨((afterCalls asciiU ['x'] exCalls1).data ['x']).flatMap (fun r => match r.iter with
    | .ok items => items.flatMap (fun x => fieldsOfDict x.2) | .error _ => []), by decide +kernel, ?_⟩
  intro r hr items hi x hx q hq
  refine List.mem_flatMap.2 ⟨r, hr, ?_⟩
  rw [hi]
  exact List.mem_flatMap.2 ⟨x, hx, hq⟩

end Splitgill.Props
