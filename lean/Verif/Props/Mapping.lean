import Verif.Proof.Mapping2
import Verif.Proof.EndToEnd3
import Verif.Props.EndToEnd
/-!
# C98: documents fit the types of the fields of the indices

The types of fields are modelled in `Verif.Model.Mapping`.
-/

namespace Splitgill.Props
open Splitgill

/-- **C98**: documents of any data, with any options that keep keywords to 8191 characters (the default), are accepted in any order, by an
index whose fields have the types that their paths tell; and then this is so of its fields again. -/
theorem C98_documents (E : ParseEnv) (S : EsEnv) (hP : PlacesOk E S) (hl : S.NotLonger) : ∀ (docs : List (Doc ParsedData)),
    (∀ doc ∈ docs, MadeFrom E ShortKeywords doc.parsed ∧ ShortTexts doc) → ∀ (m : Mapping), RegularMapping m →
    ∃ m', mapDocs S m (docs.map (fun d => sentDict d.toDict)) = some m' ∧ RegularMapping m'
  | [], _, m, h => ⟨m, rfl, h⟩
  | doc :: docs, hd, m, h => by
    obtain ⟨h1, h2⟩ := hd doc List.mem_cons_self
    obtain ⟨m', h3, h4⟩ := mapDoc_ok (madeFrom_shaped hP hl h1) h2 h
    rw [List.map_cons, mapDocs, h3]
    exact C98_documents E S hP hl docs (fun d hm => hd d (List.mem_cons_of_mem _ hm)) m' h4

/-- **C98**: the fields of a new index have the types that their paths tell. -/
theorem C98_initial : RegularMapping initialMapping := regular_initial

/-- **C98**: so a field has the same type in all indices, and for all data. -/
theorem C98_same_types (m m' : Mapping) (h : RegularMapping m) (h' : RegularMapping m') (path : PyStr) (t t' : EsType)
    (ht : aget path m = some t) (ht' : aget path m' = some t') : t = t' := by
  have h1 := h.types path t ht
  rw [h'.types path t' ht'] at h1
  exact (Option.some.inj h1).symm

/-- **C98**: the documents that syncs (`sync`, `resync` and `resync_arcs`) write to an index after any calls are accepted, in
whatever order they get there. -/
theorem C98_sync (E : ParseEnv) (S : EsEnv) (hP : PlacesOk E S) (hl : S.NotLonger) (U : Unicode) (hU : U.Sane) (maxDocs : Nat)
    (db : PyStr) (calls : List ApiCall) (ho : Orderly calls) (hv : ∃ v, IsVersion (afterCalls U db calls) db v)
    (hk : ∀ x ∈ committedOptionsOf db (afterCalls U db calls), ShortKeywords x.2) (after : Option Int) (arc arc' : Nat × Nat)
    (records : List MongoRecord) (hr : ∀ r ∈ records, r ∈ (afterCalls U db calls).data db) (ops : List (BulkOp (Option ParsedData)))
    (h : generateOps (realParser E) maxDocs (committedOptionsOf db (afterCalls U db calls)) after arc records = .ok (ops, arc'))
    (ix : Ix) (hs : ∀ doc ∈ writtenTo ix ops, ShortTexts doc) (docs : List (Doc ParsedData)) (hd : ∀ doc ∈ docs, doc ∈ writtenTo ix ops)
    (m : Mapping) (hm : RegularMapping m) :
    ∃ m', mapDocs S m (docs.map (fun d => sentDict d.toDict)) = some m' ∧ RegularMapping m' := by
  refine C98_documents E S hP hl docs (fun doc hdoc => ⟨?_, hs doc (hd doc hdoc)⟩) m hm
  obtain ⟨op, h1, h2⟩ := List.mem_filterMap.1 (hd doc hdoc)
  cases op with
  | delete _ _ => cases h2
  | index ix' docId d =>
    dsimp only at h2
    split at h2
    · obtain ⟨p, hp, rfl⟩ := Option.map_eq_some_iff.1 h2
      obtain ⟨r, hr1, items, hi, v, data, w, o, k1, k2, k3⟩ := generateOps_parsed h h1
      obtain ⟨v', hv⟩ := hv
      have hli := (life (K := fun _ => plainClass.named) (U := U) (db := db) (fun c _ => fits_named_plain hU c.stream) ho).toLifeInv
      have hh := hli.hist r.id
      rw [(life_dbOk ho hv).hist_of (hr r hr1) hi] at hh
      have hq := hh.left_mem k1
      exact ⟨data, o, plainClass.named.wf hq, hq.2, hk _ k2, by rw [← k3]; exact hp⟩
    · cases h2

/-- Libraries that find nothing in texts. -/
def exNothing : ParseEnv where
  lower := id
  formatFloat := fun _ _ => []
  toNumber := fun _ => none
  parseDate := fun _ _ => none
  wkt := fun _ => none
  geojson := fun _ => none
  hintGeo := fun _ _ _ _ => none

def exEs : EsEnv := ⟨id, fun _ => true, fun _ => true⟩

theorem exEs_places (E : ParseEnv) : PlacesOk E exEs := ⟨fun _ _ _ => ⟨rfl, rfl⟩, fun _ _ _ => ⟨rfl, rfl⟩, fun _ _ _ _ _ _ => ⟨rfl, rfl⟩⟩

theorem exEs_lower : exEs.NotLonger := fun _ => Nat.le_refl _

/-- Options with nothing but a keyword length. -/
def exLength (k : Int) : ParsingOptions := ⟨[], [], [], [], k, []⟩

theorem exLength_parse (k : Int) (c : Char) (s : PyStr) : (realParser exNothing).parse [(['x'], .str (c :: s))] (exLength k) =
    some ⟨[(['x'], .dict [("_k".toList, .str (pyTake k (c :: s))), ("_t".toList, .str (c :: s)), ("_u".toList, .str (c :: s))])],
      ["x.#s".toList], ["x._k,_t,_u".toList]⟩ := rfl

/-- A document of it. -/
def exLongDoc (k : Int) (c : Char) (s : PyStr) : Doc ParsedData := ⟨['a'], 1, 1, none, none,
  ⟨[(['x'], .dict [("_k".toList, .str (pyTake k (c :: s))), ("_t".toList, .str (c :: s)), ("_u".toList, .str (c :: s))])],
      ["x.#s".toList], ["x._k,_t,_u".toList]⟩⟩

theorem exLongDoc_map (k : Int) (c : Char) (s : PyStr) (h : ¬ utf8Len (pyTake k (c :: s)) ≤ 32766) :
    mapDoc exEs initialMapping (sentDict (exLongDoc k c s).toDict) = none := by
  have hd : decide (utf8Len (pyTake k (c :: s)) ≤ 32766) = false := decide_eq_false h
  have e : (EsType.keyword true).accepts exEs (.str (pyTake k (c :: s))) = false := hd
  have h0 : ∀ v rest, (EsType.keyword true).accepts exEs (.str v) = false →
      mapValue exEs "data".toList initialMapping (.dict [(['x'], .dict (("_k".toList, .str v) :: rest))]) = none := by
    intro v rest hv
    have h1 : aget "data".toList initialMapping = none := by decide
    have h2 : dynamicType "data".toList = none := by decide
    have h3 : aget (dotted "data".toList ['x']) (aset "data".toList .object initialMapping) = none := by decide
    have h4 : dynamicType (dotted "data".toList ['x']) = none := by decide
    have h5 : aget (dotted (dotted "data".toList ['x']) "_k".toList) (aset (dotted "data".toList ['x']) .object
      (aset "data".toList .object initialMapping)) = none := by decide
    have h6 : dynamicType (dotted (dotted "data".toList ['x']) "_k".toList) = some (.keyword true) := by decide
    simp only [mapValue, mapItems, mapLeaf, h1, h2, h3, h4, h5, h6, hv, Bool.false_eq_true, if_false]
  have h1 : mapValue exEs "id".toList initialMapping (.str ['a']) = some initialMapping := by decide
  have h2 : mapValue exEs "version".toList initialMapping (.int 1) = some initialMapping := by decide
  have h3 : mapValue exEs "versions".toList initialMapping (.dict [("gte".toList, .int 1)]) = some initialMapping := by decide
  have h4 := h0 (pyTake k (c :: s)) [("_t".toList, .str (c :: s)), ("_u".toList, .str (c :: s))] e
  show mapDoc exEs initialMapping (("id".toList, .str ['a']) :: ("version".toList, .int 1) ::
    ("versions".toList, .dict [("gte".toList, .int 1)]) :: ("data".toList, .dict [(['x'], .dict [("_k".toList, .str (pyTake k (c :: s))),
      ("_t".toList, .str (c :: s)), ("_u".toList, .str (c :: s))])]) :: _) = none
  rw [mapDoc, h1]
  dsimp only
  rw [mapDoc, h2]
  dsimp only
  rw [mapDoc, h3]
  dsimp only
  rw [mapDoc, h4]

theorem exLong_wf (s : PyStr) : (Value.dict [(['x'], .str s)]).wf = true := rfl

theorem exLong_names (s : PyStr) : FieldNames (.dict [(['x'], .str s)]) := fieldNames_of_check rfl

theorem utf8Len_replicate (n : Nat) (c : Char) : utf8Len (List.replicate n c) = n * c.utf8Size := by
  unfold utf8Len
  simp

/-- **C98**: 8191 is the bound: with any greater keyword length there is a text whose document is rejected. -/
theorem C98_sharp (k : Int) (hk : 8192 ≤ k) : ∃ (E : ParseEnv) (S : EsEnv) (doc : Doc ParsedData), PlacesOk E S ∧ S.NotLonger ∧ ShortTexts doc ∧
    MadeFrom E (fun o => o.keywordLength = k) doc.parsed ∧ mapDoc S initialMapping (sentDict doc.toDict) = none := by
  refine ⟨exNothing, exEs, exLongDoc k '𝓐' (List.replicate 8191 '𝓐'), exEs_places _, exEs_lower, ⟨?_, ?_, ?_⟩,
    ⟨_, exLength k, ?_, ?_, rfl, exLength_parse k _ _⟩, exLongDoc_map k _ _ ?_⟩
  · show utf8Len ['a'] ≤ 32766
    decide
  · show ∀ s ∈ ["x.#s".toList], utf8Len s ≤ 32766
    decide
  · show ∀ s ∈ ["x._k,_t,_u".toList], utf8Len s ≤ 32766
    decide
  · exact exLong_wf _
  · exact exLong_names _
  · have : pyTake k ('𝓐' :: List.replicate 8191 '𝓐') = List.replicate 8192 '𝓐' := by
      rw [show '𝓐' :: List.replicate 8191 '𝓐' = List.replicate 8192 '𝓐' from (List.replicate_succ ..).symm]
      unfold pyTake
      rw [if_pos (by omega)]
      exact List.take_of_length_le (by rw [List.length_replicate]; omega)
    rw [this, utf8Len_replicate]
    decide

/-- A number, a dict, a list with an empty value and a text, and a NaN: data with different things in the same field. -/
def exMixed : List Dict := [[(['x'], .int 3)], [(['x'], .dict [(['y'], .str ['1']), (['z'], .dict [])])],
  [(['x'], .list [.none, .str ['t'], .dict [(['y'], .bool true)]])], [(['x'], .float .nan)]]

/-- Their documents. -/
def exMixedDocs : List (Doc ParsedData) := exMixed.filterMap (fun d => ((realParser exEnv').parse d (exOpts 10)).map (fun p => ⟨['a'], 1, 1, some 2, some 2, p⟩))

set_option maxRecDepth 100000 in
/-- They meet the conditions of C98, and these are the fields of `x` in the index. -/
example : (∀ doc ∈ exMixedDocs, MadeFrom exEnv' ShortKeywords doc.parsed ∧ ShortTexts doc) ∧ exMixedDocs.length = 4 ∧
    ((mapDocs exEs initialMapping (exMixedDocs.map (fun d => sentDict d.toDict))).map (fun m =>
      (aget "data.x".toList m, aget "data.x._n".toList m, aget "data.x.y".toList m, aget "data.x.y._b".toList m, aget "data.x.z".toList m))) =
      some (some .object, some .double, some .object, some .boolean, none) := by
  refine ⟨?_, by decide +kernel, by decide +kernel⟩
  intro doc hdoc
  have hd : ∀ d ∈ exMixed, (Value.dict d).wf = true ∧ allKeys isFieldName (.dict d) = true := by decide +kernel
  have hs : ∀ doc ∈ exMixedDocs, utf8Len doc.id ≤ 32766 ∧ (∀ s ∈ doc.parsed.dataTypes, utf8Len s ≤ 32766) ∧
    ∀ s ∈ doc.parsed.parsedTypes, utf8Len s ≤ 32766 := by decide +kernel
  refine ⟨?_, (hs doc hdoc).1, (hs doc hdoc).2.1, (hs doc hdoc).2.2⟩
  obtain ⟨d, h1, h2⟩ := List.mem_filterMap.1 hdoc
  obtain ⟨p, hp, rfl⟩ := Option.map_eq_some_iff.1 h2
  exact ⟨d, exOpts 10, (hd d h1).1, fieldNames_of_check (hd d h1).2, ⟨by decide, by decide⟩, hp⟩

/-- The operations of a first sync after the calls of an example. -/
def exFirstOps : List (BulkOp (Option ParsedData)) :=
  match generateOps (realParser exEnv') 10 (committedOptionsOf ['x'] (afterCalls asciiU ['x'] exCalls1)) none (0, 0)
    ((afterCalls asciiU ['x'] exCalls1).data ['x']) with
  | .ok x => x.1
  | .error _ => []

set_option maxRecDepth 100000 in
/-- The sync writes to the index of the latest data, and meets the conditions. (For the others see C70.) -/
example : (writtenTo .latest exFirstOps).length ≠ 0 ∧
    (∀ x ∈ committedOptionsOf ['x'] (afterCalls asciiU ['x'] exCalls1), 0 ≤ x.2.keywordLength ∧ x.2.keywordLength ≤ 8191) ∧
    ∀ doc ∈ writtenTo .latest exFirstOps, utf8Len doc.id ≤ 32766 ∧ (∀ s ∈ doc.parsed.dataTypes, utf8Len s ≤ 32766) ∧
      ∀ s ∈ doc.parsed.parsedTypes, utf8Len s ≤ 32766 := by
  refine ⟨by decide +kernel, by decide +kernel, by decide +kernel⟩

end Splitgill.Props
