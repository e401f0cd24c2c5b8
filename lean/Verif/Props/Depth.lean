import Verif.Proof.Depth2
import Verif.Props.FieldLimit
/-!
# C114: how deep data can be, and how long ids

The limits are modelled in `Verif.Model.Depth`.
-/

namespace Splitgill.Props
open Splitgill

/-- **C114**: documents of any data in which no field has more than 17 names are accepted, in any order, by an index that has no deeper objects. -/
theorem C114_accepted (E : ParseEnv) (S : EsEnv) (hP : PlacesOk E S) (hl : S.NotLonger) (docs : List (Doc ParsedData))
    (hd : ∀ doc ∈ docs, MadeFromShallow E ShortKeywords 17 doc.parsed ∧ ShortTexts doc) (m : Mapping) (hm : RegularMapping m)
    (hn : (akeys m).Nodup) (hdm : ∀ f ∈ m, f.2.isObject = true → objectDepth f.1 ≤ depthLimit) :
    ∃ m', depthDocs S depthLimit m (docs.map (fun d => sentDict d.toDict)) = some m' :=
  depthDocs_ok hP hl (n := 17) (by decide) docs hd m hm hn (depthOk_iff.2 hdm)

/-- **C114**: so they are by a new index. -/
theorem C114_new_index (E : ParseEnv) (S : EsEnv) (hP : PlacesOk E S) (hl : S.NotLonger) (docs : List (Doc ParsedData))
    (hd : ∀ doc ∈ docs, MadeFromShallow E ShortKeywords 17 doc.parsed ∧ ShortTexts doc) :
    ∃ m', depthDocs S depthLimit initialMapping (docs.map (fun d => sentDict d.toDict)) = some m' :=
  C114_accepted E S hP hl docs hd initialMapping regular_initial (by decide) (by decide)

/-- **C114**: with one document of data that has a value in a field with 18 names or more, they are not, whatever the index and the other
documents are. -/
theorem C114_rejected (E : ParseEnv) (S : EsEnv) (hP : PlacesOk E S) (hl : S.NotLonger) : ∀ (docs : List (Doc ParsedData)),
    (∀ doc ∈ docs, MadeFrom E ShortKeywords doc.parsed ∧ ShortTexts doc) → (∃ doc ∈ docs, MadeFromDeep E ShortKeywords 18 doc.parsed) →
    ∀ (m : Mapping), RegularMapping m → depthDocs S depthLimit m (docs.map (fun d => sentDict d.toDict)) = none
  | [], _, hx, _, _ => by
    obtain ⟨doc, hm, _⟩ := hx
    cases hm
  | doc :: docs, hd, hx, m, hm => by
    obtain ⟨h1, h2⟩ := hd doc List.mem_cons_self
    obtain ⟨m', h3, h4⟩ := mapDoc_ok (madeFrom_shaped hP hl h1) h2 hm
    rw [List.map_cons, depthDocs, depthDoc, h3]
    dsimp only
    obtain ⟨doc', hm', hdeep⟩ := hx
    rcases List.mem_cons.1 hm' with rfl | hm'
    · rw [deep_rejected (limit := depthLimit) (n := 18) (by decide) hdeep h4 h3]
      rfl
    · split
      · rfl
      · rename_i m'' he
        split at he
        · cases he
          exact C114_rejected E S hP hl docs (fun d hm => hd d (List.mem_cons_of_mem _ hm)) ⟨doc', hm', hdeep⟩ m' h4
        · cases he

/-- **C114**: 17 is the bound: a document of a value under a list of names, each in the dict of the one before, is accepted by a new index if
and only if there are at most 17. -/
theorem C114_exact (E : ParseEnv) (S : EsEnv) (hP : PlacesOk E S) (hl : S.NotLonger) (v : Value) (hv : v.isIndexed = true) (hs : v.sent = v)
    (k : PyStr) (ks : List PyStr) (hk : ∀ k' ∈ k :: ks, FieldName k') (o : ParsingOptions) (ho : ShortKeywords o)
    (doc : Doc ParsedData) (h : (realParser E).parse [(k, nestedIn v ks)] o = some doc.parsed) (ht : ShortTexts doc) :
    (∃ m, depthDocs S depthLimit initialMapping [sentDict doc.toDict] = some m) ↔ (k :: ks).length ≤ 17 := by
  have hw : (Value.dict [(k, nestedIn v ks)]).wf = true := nested_wf hv (k :: ks)
  have hf : FieldNames (.dict [(k, nestedIn v ks)]) := nested_names hv (k :: ks) hk
  constructor
  · rintro ⟨m, hm⟩
    by_contra hlen
    have := C114_rejected E S hP hl [doc] (fun d hd => by
      rw [List.mem_singleton] at hd
      subst hd
      exact ⟨⟨_, o, hw, hf, ho, h⟩, ht⟩) ⟨doc, List.mem_singleton.2 rfl, _, o, hw, hf, ho,
        ⟨(k :: ks).map PathEl.key, v, getAt_nested v (k :: ks), hv, hs, by rw [nameCount_keys]; omega⟩, h⟩ initialMapping regular_initial
    rw [List.map_cons, List.map_nil, hm] at this
    cases this
  · intro hlen
    exact C114_new_index E S hP hl [doc] (fun d hd => by
      rw [List.mem_singleton] at hd
      subst hd
      refine ⟨⟨_, o, hw, hf, ho, fun q hq => ?_, h⟩, ht⟩
      have := fieldsOf_nested hv (k :: ks) q hq
      omega)

/-- **C114**: the documents that syncs write to an index after any calls are accepted, if no field of the versions of the records has more
than 17 names. -/
theorem C114_sync (E : ParseEnv) (S : EsEnv) (hP : PlacesOk E S) (hl : S.NotLonger) (U : Unicode) (hU : U.Sane) (maxDocs : Nat)
    (db : PyStr) (calls : List ApiCall) (ho : Orderly calls) (hv : ∃ v, IsVersion (afterCalls U db calls) db v)
    (hk : ∀ x ∈ committedOptionsOf db (afterCalls U db calls), ShortKeywords x.2) (after : Option Int) (arc arc' : Nat × Nat)
    (records : List MongoRecord) (hr : ∀ r ∈ records, r ∈ (afterCalls U db calls).data db)
    (hf : ∀ r ∈ records, ∀ items, r.iter = .ok items → ∀ x ∈ items, ∀ q ∈ fieldsOfDict x.2, q.length ≤ 17)
    (ops : List (BulkOp (Option ParsedData)))
    (h : generateOps (realParser E) maxDocs (committedOptionsOf db (afterCalls U db calls)) after arc records = .ok (ops, arc'))
    (ix : Ix) (hs : ∀ doc ∈ writtenTo ix ops, ShortTexts doc) (docs : List (Doc ParsedData)) (hd : ∀ doc ∈ docs, doc ∈ writtenTo ix ops) :
    ∃ m, depthDocs S depthLimit initialMapping (docs.map (fun d => sentDict d.toDict)) = some m := by
  refine C114_new_index E S hP hl docs (fun doc hdoc => ⟨?_, hs doc (hd doc hdoc)⟩)
  obtain ⟨op, h1, h2⟩ := List.mem_filterMap.1 (hd doc hdoc)
  cases op with
  | delete _ _ => cases h2
  | index ix' docId d =>
    dsimp only at h2
    split at h2
    · obtain ⟨p, hp, rfl⟩ := Option.map_eq_some_iff.1 h2
      obtain ⟨r, hr1, items, hi, v, data, w, o, k1, k2, k3⟩ := generateOps_parsed h h1
      obtain ⟨v', hv⟩ := hv
      have hli := (life (K := fun _ => plainClass.named) (U := U) (db := db) (fun c _ => fits_named_plain hU c.stream) ho).toLifeInv
      have hh := hli.hist r.id
      have k0 : ∃ x ∈ items, x.2 = data := by
        obtain ⟨x, hx, e⟩ := List.mem_filterMap.1 k1
        refine ⟨x, hx, ?_⟩
        cases hx1 : x.1 <;> simp_all
      rw [(life_dbOk ho hv).hist_of (hr r hr1) hi] at hh
      have hq := hh.left_mem k1
      obtain ⟨x, hx, rfl⟩ := k0
      exact ⟨x.2, o, plainClass.named.wf hq, hq.2, hk _ k2, hf r hr1 items hi x hx, by rw [← k3]; exact hp⟩
    · cases h2

/-- **C114**: the operations of syncs that are rejected for their ids are those on the latest data of records with ids of more than 512 bytes. -/
theorem C114_ids {P : Type} (X : Parser P) (maxDocs : Nat) (options : List (Int × ParsingOptions)) (after : Option Int) (arc arc' : Nat × Nat)
    (records : List MongoRecord) (ops : List (BulkOp P)) (h : generateOps X maxDocs options after arc records = .ok (ops, arc')) (op : BulkOp P)
    (hop : op ∈ ops) : op.idOk = false ↔ ∃ r ∈ records, op.latestDocId = some r.id ∧ 512 < utf8Len r.id := by
  rcases generateOps_ids h hop with ⟨r, h1, h2, h3⟩ | ⟨h2, h3⟩
  · rw [h3, decide_eq_false_iff_not, Nat.not_le]
    constructor
    · exact fun h4 => ⟨r, h1, h2, h4⟩
    · rintro ⟨r', _, h5, h6⟩
      rw [h2] at h5
      rw [Option.some.inj h5]
      exact h6
  · rw [h3, h2]
    simp

/-- A value under some names `a`, one in another. -/
def exDeep (n : Nat) : Dict := [(['a'], nestedIn (.int 3) (List.replicate n ['a']))]

/-- Its document. -/
def exDeepDoc (n : Nat) : Doc ParsedData := ⟨['r'], 1, 1, none, none, match (realParser exEnv').parse (exDeep n) (exOpts 10) with
  | some p => p
  | none => ⟨[], [], []⟩⟩

set_option maxRecDepth 100000 in
/-- 17 and 18 names meet the conditions of C114; the first is accepted, the second is not. -/
example : (∀ n ∈ [16, 17], ((realParser exEnv').parse (exDeep n) (exOpts 10)).isSome = true ∧
      utf8Len (exDeepDoc n).id ≤ 32766 ∧ (∀ s ∈ (exDeepDoc n).parsed.dataTypes, utf8Len s ≤ 32766) ∧
      ∀ s ∈ (exDeepDoc n).parsed.parsedTypes, utf8Len s ≤ 32766) ∧
    (depthDocs exEs depthLimit initialMapping [sentDict (exDeepDoc 16).toDict]).isSome = true ∧
    depthDocs exEs depthLimit initialMapping [sentDict (exDeepDoc 17).toDict] = none := by
  refine ⟨by decide +kernel, by decide +kernel, by decide +kernel⟩

/-- The same as it is given. -/
def exDeepRaw : Nat → Raw
  | 0 => .int 3
  | n + 1 => .dict [(.str ['a'], exDeepRaw n)]

/-- A record is ingested with 18 names. -/
def exDeepCalls : List ApiCall := [.ingest none [⟨['r'], [(.str ['a'], exDeepRaw 17)]⟩] true 1]

/-- The operations of a first sync. -/
def exDeepOps : List (BulkOp (Option ParsedData)) :=
  match generateOps (realParser exEnv') 10 (committedOptionsOf ['x'] (afterCalls asciiU ['x'] exDeepCalls)) none (0, 0)
    ((afterCalls asciiU ['x'] exDeepCalls).data ['x']) with
  | .ok x => x.1
  | .error _ => []

set_option maxRecDepth 100000 in
/-- **C114**: so not all that is ingested and committed can be synced. -/
theorem C114_refuted : Orderly exDeepCalls ∧ (writtenTo .latest exDeepOps).length = 1 ∧
    depthDocs exEs depthLimit initialMapping ((writtenTo .latest exDeepOps).map (fun d => sentDict d.toDict)) = none := by
  refine ⟨⟨by decide +kernel, ?_⟩, by decide +kernel, by decide +kernel⟩
  intro c hc
  rw [exDeepCalls, List.mem_singleton] at hc
  subst hc
  unfold NoSpan
  decide

end Splitgill.Props
