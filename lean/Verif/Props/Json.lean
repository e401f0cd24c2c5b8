import Verif.Proof.Json5
import Verif.Props.Filter
import Verif.Props.EndToEnd
import Verif.Props.Names
/-!
# C94 and C95: what bulk requests say, and what comes back from searches

The texts of bulk requests are modelled in `Verif.Model.Json`; `Verif.Spec.Json` reads them as Elasticsearch does.
-/

namespace Splitgill.Props
open Splitgill

/-! ## C94 -/

/-- The full statement of C94: a bulk request says what its operations say. -/
def C94_full : Prop := ∀ (F : FloatText) (db : PyStr) (ops : List (BulkOp ParsedData)), (∀ op ∈ ops, op.Writable F) →
  ∃ body, bulkBody F db ops = .ok body ∧ readBulk F (lines body) = some (ops.map (BulkOp.wire db))

/-- **C94**: what is read from the text of a value is the value, with `None` for NaN and the infinities: whatever characters are in
its strings and keys. -/
theorem C94_json (F : FloatText) (v : Value) (hv : AllLeaves (FloatFits F) v) : loads F (dumps F v) = some v.sent :=
  loads_dumps ((floatsKept_iff v).2 hv)

/-- **C94** (what holds): a bulk request says what its operations say if the ids of deletions (and then the name of the database) have
no quotes, backslashes or control characters. Missing: deletions with these, see `C94_refuted`. -/
theorem C94_requests_partial (F : FloatText) (db : PyStr) (ops : List (BulkOp ParsedData)) (hw : ∀ op ∈ ops, op.Writable F)
    (hp : ∀ op ∈ ops, op.PlainDelete) (hdb : (∃ ix id, .delete ix id ∈ ops) → PlainStr db) :
    ∃ body, bulkBody F db ops = .ok body ∧ readBulk F (lines body) = some (ops.map (BulkOp.wire db)) :=
  read_body ops (fun op h => canWrite (hw op h)) hp hdb

/-- **C94**: without deletions, as in a first sync, for all ids and all names of databases. -/
theorem C94_index (F : FloatText) (db : PyStr) (ops : List (BulkOp ParsedData)) (hw : ∀ op ∈ ops, op.Writable F)
    (hi : ∀ op ∈ ops, ∃ ix id doc, op = .index ix id doc) :
    ∃ body, bulkBody F db ops = .ok body ∧ readBulk F (lines body) = some (ops.map (BulkOp.wire db)) := by
  refine C94_requests_partial F db ops hw (fun op h => ?_) ?_
  · obtain ⟨ix, id, doc, rfl⟩ := hi op h
    trivial
  · rintro ⟨ix, id, h⟩
    obtain ⟨_, _, _, e⟩ := hi _ h
    cases e

/-- **C94**: making a request raises iff there is an int in one of the documents that does not fit into 64 bits. -/
theorem C94_raises (F : FloatText) (db : PyStr) (ops : List (BulkOp ParsedData)) :
    (∃ body, bulkBody F db ops = .ok body) ↔ ∀ ix id doc, .index ix id doc ∈ ops → AllLeavesDict IntFits doc.toDict :=
  bulkBody_ok ops

/-- **C94**: a document made from stored data can be written: if the ints of the data, the dates read from strings and the versions
fit, and the floats of the data and those read from strings are kept. -/
theorem C94_stored (F : FloatText) (E : ParseEnv) (hE : LeavesOk E (fun v => IntFits v ∧ FloatFits F v)) (o : ParsingOptions) (data : Dict)
    (hd : AllLeavesDict (fun v => IntFits v ∧ FloatFits F v) data) (p : ParsedData) (hp : (realParser E).parse data o = some p)
    (ix : Ix) (docId : Option PyStr) (doc : Doc ParsedData) (hdoc : doc.parsed = p)
    (hv : ∀ v : Int, (v = doc.version ∨ v = doc.gte ∨ doc.lt = some v ∨ doc.next = some v) → -2 ^ 63 ≤ v ∧ v < 2 ^ 64) :
    (BulkOp.index ix docId doc).Writable F := by
  have hi : ∀ v : Int, (-2 ^ 63 ≤ v ∧ v < 2 ^ 64) → IntFits (.int v) ∧ FloatFits F (.int v) := fun v h =>
    ⟨fun i e => by cases e; exact h, fun f e => nomatch e⟩
  refine toDict_leaves hE.str (hi _ (hv _ (.inl rfl))) (hi _ (hv _ (.inr (.inl rfl)))) (fun v h => hi _ (hv _ (.inr (.inr (.inl h)))))
    (fun v h => hi _ (hv _ (.inr (.inr (.inr h))))) ?_
  rw [hdoc]
  simp only [realParser] at hp
  split at hp
  · rename_i x hx
    cases hp
    exact canonDict_leaves _ (parse_leaves hE hd hx)
  · cases hp

/-- **C94**: the fields of the document that Elasticsearch reads are those of the model of documents that all other properties are about. A
search at version `v` (a term query of the range `versions`) finds it iff the document covers `v`. -/
theorem C94_document (doc : Doc ParsedData) :
    aget "id".toList (sentDict doc.toDict) = some (.str doc.id) ∧
    aget "version".toList (sentDict doc.toDict) = some (.int doc.version) ∧
    aget "next".toList (sentDict doc.toDict) = doc.next.map Value.int ∧
    (∃ range, aget "versions".toList (sentDict doc.toDict) = some (.dict range) ∧ ∀ v, InRange range v ↔ doc.covers v) ∧
    aget "data".toList (sentDict doc.toDict) = some (.dict (sentDict doc.parsed.parsed)) ∧
    aget "data_types".toList (sentDict doc.toDict) = some (.list (doc.parsed.dataTypes.map Value.str)) ∧
    aget "parsed_types".toList (sentDict doc.toDict) = some (.list (doc.parsed.parsedTypes.map Value.str)) := by
  have hl : ∀ l : List PyStr, sentList (l.map Value.str) = l.map Value.str := by
    intro l
    induction l with
    | nil => rfl
    | cons x l ih => rw [List.map_cons, sentList, ih]; rfl
  obtain ⟨id, version, gte, lt, next, parsed⟩ := doc
  refine ⟨rfl, rfl, ?_, ?_, rfl, ?_, ?_⟩
  · cases next <;> rfl
  · cases lt with
    | none =>
      refine ⟨[("gte".toList, .int gte)], rfl, fun v => ⟨fun h => ?_, fun h k b hk => ?_⟩⟩
      · obtain ⟨i, e, h⟩ := h "gte".toList (.int gte) (by simp)
        cases e
        refine ⟨?_, fun e he => (nomatch he)⟩
        rcases h with ⟨_, h⟩ | ⟨h, _⟩ | ⟨h, _⟩ | ⟨h, _⟩
        · exact h
        all_goals exact absurd h (by decide)
      · rw [List.mem_singleton] at hk
        cases hk
        exact ⟨gte, rfl, .inl ⟨rfl, h.1⟩⟩
    | some l =>
      refine ⟨[("gte".toList, .int gte), ("lt".toList, .int l)], rfl, fun v => ⟨fun h => ?_, fun h k b hk => ?_⟩⟩
      · obtain ⟨i, e, h1⟩ := h "gte".toList (.int gte) (by simp)
        obtain ⟨j, e', h2⟩ := h "lt".toList (.int l) (by simp)
        cases e; cases e'
        refine ⟨?_, fun e he => ?_⟩
        · rcases h1 with ⟨_, h⟩ | ⟨h, _⟩ | ⟨h, _⟩ | ⟨h, _⟩
          · exact h
          all_goals exact absurd h (by decide)
        · cases he
          rcases h2 with ⟨h, _⟩ | ⟨h, _⟩ | ⟨h, _⟩ | ⟨_, h⟩
          · exact absurd h (by decide)
          · exact absurd h (by decide)
          · exact absurd h (by decide)
          · exact h
      · rcases List.mem_cons.1 hk with hk | hk
        · cases hk
          exact ⟨gte, rfl, .inl ⟨rfl, h.1⟩⟩
        · rw [List.mem_singleton] at hk
          cases hk
          exact ⟨l, rfl, .inr (.inr (.inr ⟨rfl, h.2 l rfl⟩))⟩
  · show some (Value.list (sentList _)) = _
    rw [hl]
  · show some (Value.list (sentList _)) = _
    rw [hl]

/-- A text for one float. -/
def exFloats : FloatText where
  write := fun _ => "1.5".toList
  read := fun s => if s = "1.5".toList then some (.fin (3 / 2)) else none

theorem exFloats_keeps : exFloats.Keeps (.fin (3 / 2)) :=
  ⟨rfl, by decide, ⟨'1', _, rfl, .inl (by decide)⟩, ⟨'.', by decide, .inl rfl⟩⟩

/-- A document with names and texts that need care in JSON, a float and an infinity. -/
def exWireDoc : Doc ParsedData where
  id := "a\"\n".toList
  version := 3
  gte := 3
  lt := some 5
  next := some 5
  parsed := ⟨[("x\\y".toList, .dict [("_u".toList, .float .pinf), ("_n".toList, .float (.fin (3 / 2))), ("_t".toList, .str "\t\"".toList)])],
    ["x\\y.str".toList], []⟩

/-- An operation of each kind. -/
def exWireOps : List (BulkOp ParsedData) := [.index .latest (some "a\"\n".toList) exWireDoc, .delete .latest ['b'], .index (.arc 0) none exWireDoc]

theorem exWireOps_writable : ∀ op ∈ exWireOps, op.Writable exFloats := by
  have h : (BulkOp.index .latest none exWireDoc).Writable exFloats := by
    simp [BulkOp.Writable, AllLeavesDict, AllLeaves, AllLeavesList, Doc.toDict, exWireDoc, IntFits, FloatFits, exFloats_keeps]
  intro op hop
  simp only [exWireOps, List.mem_cons, List.not_mem_nil, or_false] at hop
  rcases hop with rfl | rfl | rfl
  · exact h
  · trivial
  · exact h

set_option maxRecDepth 100000 in
/-- The request of `exWireOps` meets the conditions, and this is read from it. -/
example : ∃ body, bulkBody exFloats ['d'] exWireOps = .ok body ∧ readBulk exFloats (lines body) =
    some [.index "data-d-latest".toList (some "a\"\n".toList) (sentDict exWireDoc.toDict), .delete "data-d-latest".toList ['b'],
      .index "data-d-arc-0".toList none (sentDict exWireDoc.toDict)] := by
  obtain ⟨body, h1, h2⟩ := C94_requests_partial exFloats ['d'] exWireOps exWireOps_writable (by
    intro op hop
    simp only [exWireOps, List.mem_cons, List.not_mem_nil, or_false] at hop
    rcases hop with rfl | rfl | rfl
    · trivial
    · show PlainStr ['b']
      unfold PlainStr
      decide
    · trivial) (fun _ => by unfold PlainStr; decide)
  exact ⟨body, h1, h2⟩

set_option maxRecDepth 100000 in
/-- **C94 does not hold in full**: the deletion of one record whose id has quotes and a newline in it says that two documents are to be
deleted, one of them in another index. -/
theorem C94_refuted : ¬ C94_full := by
  intro h
  obtain ⟨body, h1, h2⟩ := h exFloats ['x'] [.delete .latest exInjection] (by
    intro op hop
    rw [List.mem_singleton] at hop
    subst hop
    trivial)
  have h3 : (match bulkBody exFloats ['x'] [.delete .latest exInjection] with
    | .ok body => (readBulk exFloats (lines body)).map List.length
    | .error _ => none) = some 2 := by decide +kernel
  rw [h1] at h3
  dsimp only at h3
  rw [h2] at h3
  cases h3

set_option maxRecDepth 100000 in
/-- An int that does not fit. -/
example : (match bulkBody exFloats ['x'] [.index .latest none { exWireDoc with version := 2 ^ 64 }] with | .ok _ => true | .error _ => false) = false := by
  decide +kernel

/-! ## C95 -/

/-- The full statement of C95: what is rebuilt from the hits of a search, which come through JSON, is the data of the records, where
it has no empty values (see C47). -/
def C95_full : Prop := ∀ (E : ParseEnv), E.IgnoresOrder → E.ScalarHints → ∀ (U : Unicode), U.Sane → ∀ (maxDocs : Nat) (db : PyStr)
  (calls : List ApiCall), Orderly calls → (∃ v, IsVersion (afterCalls U db calls) db v) →
  ∃ es, sync (realParser E) maxDocs db false (afterCalls U db calls) [] = .ok es ∧ ∀ v id a,
    AsOf (ingested U db calls id).committed v a → a ≠ [] → (ingested U db calls id).pending = none → Rebuildable (.dict a) →
    ∃ d p, foundFor es (.version v) id = [d] ∧ d.parsed = some p ∧ simEq (.dict (rebuildData (sentDict p.parsed))) (.dict a) = true

/-- **C95**: rebuilding what came through JSON gives what JSON makes of the rebuilt data. -/
theorem C95_rebuild (d : Dict) : rebuildData (sentDict d) = sentDict (rebuildData d) := rebuildItems_sent d

/-- **C95** (what holds) after one sync: as C70, with `None` for NaN and the infinities; so the data itself if it has none of these and
no empty values. Missing: NaN and the infinities (`C95_refuted`), and as in C70. -/
theorem C95_first_sync_partial (E : ParseEnv) (hE : E.IgnoresOrder) (hS : E.ScalarHints) (U : Unicode) (hU : U.Sane) (maxDocs : Nat)
    (db : PyStr) (calls : List ApiCall) (ho : Orderly calls) (hv : ∃ v, IsVersion (afterCalls U db calls) db v) :
    ∃ es, sync (realParser E) maxDocs db false (afterCalls U db calls) [] = .ok es ∧ ∀ v id a,
      AsOf (ingested U db calls id).committed v a → a ≠ [] → (ingested U db calls id).pending = none →
      ∃ d p, foundFor es (.version v) id = [d] ∧ d.parsed = some p ∧
        simEq (.dict (rebuildData (sentDict p.parsed))) (.dict (sentDict (remainsDict a))) = true ∧
        (NoPunsAmong U (calls.flatMap ApiCall.stream) →
          strictEq (.dict (rebuildData (sentDict p.parsed))) (.dict (sentDict (remainsDict a))) = true) ∧
        (Rebuildable (.dict a) → AllLeavesDict Finite a → simEq (.dict (rebuildData (sentDict p.parsed))) (.dict a) = true) := by
  obtain ⟨es, h1, h2⟩ := C70_first_sync_partial E hE hS U hU maxDocs db calls ho hv
  refine ⟨es, h1, fun v id a ha hne hp => ?_⟩
  obtain ⟨d, p, g1, g2, g3, g4⟩ := (h2 v id).1 a ha hne hp
  have g3 := simEq_sent g3
  rw [Value.sent, Value.sent, ← C95_rebuild] at g3
  refine ⟨d, p, g1, g2, g3, fun hn => ?_, fun hr hf => ?_⟩
  · have g4 := strictEq_sent (g4 hn)
    rw [Value.sent, Value.sent, ← C95_rebuild] at g4
    exact g4
  · have e := (remains_iff _).2 hr
    rw [remains, Value.dict.injEq] at e
    rw [e, sentDict_finite a hf] at g3
    exact g3

/-- **C95** (what holds) after any calls and syncs between them, under the conditions of `C70_syncs_partial`. Missing: as there, and NaN
and the infinities. -/
theorem C95_syncs_partial (E : ParseEnv) (hE : E.IgnoresOrder) (hS : E.ScalarHints) (U : Unicode) (hU : U.Sane) (maxDocs : Nat)
    (db : PyStr) (first : List ApiCall) (parts : List (List ApiCall)) (ho : Orderly (first ++ parts.flatten))
    (hv : ∃ v, IsVersion (afterCalls U db first) db v) (he : EachPart (NoUpdateDelete db) U db first parts)
    (hp : ∀ m ∈ statesOf U db first parts, NoPending db m)
    (hn : NoPunsAmong U ((first ++ parts.flatten).flatMap ApiCall.stream)) :
    ∃ es, runSyncs (realParser E) maxDocs db [] (statesOf U db first parts) = .ok es ∧ ∀ v id a,
      AsOf (ingested U db (first ++ parts.flatten) id).committed v a → a ≠ [] →
      ∃ d p, foundFor es (.version v) id = [d] ∧ d.parsed = some p ∧
        strictEq (.dict (rebuildData (sentDict p.parsed))) (.dict (sentDict (remainsDict a))) = true ∧
        (Rebuildable (.dict a) → AllLeavesDict Finite a → strictEq (.dict (rebuildData (sentDict p.parsed))) (.dict a) = true) := by
  obtain ⟨es, h1, h2⟩ := C70_syncs_partial E hE hS U hU maxDocs db first parts ho hv he hp hn
  refine ⟨es, h1, fun v id a ha hne => ?_⟩
  obtain ⟨d, p, g1, g2, g3, _⟩ := (h2 v id).1 a ha hne
  have g3 := strictEq_sent g3
  rw [Value.sent, Value.sent, ← C95_rebuild] at g3
  refine ⟨d, p, g1, g2, g3, fun hr hf => ?_⟩
  have e := (remains_iff _).2 hr
  rw [remains, Value.dict.injEq] at e
  rw [e, sentDict_finite a hf] at g3
  exact g3

/-- **C95**: term and range queries give the same answers on what came through JSON, so what is proved of them (C50, C52, C85) holds for it. -/
theorem C95_queries (Q : QueryEnv) (d : Dict) : (∀ q : EsTerm, q.matches Q (sentDict d) = q.matches Q d) ∧
    (∀ q : EsRange, q.matches Q (sentDict d) = q.matches Q d) :=
  ⟨fun q => term_sent Q q d, fun q => range_sent Q q d⟩

/-- **C95**: match queries too, for any document. -/
theorem C95_match (Q : QueryEnv) (q : EsMatch) (d : Dict) : q.matches Q (sentDict d) = q.matches Q d := match_sent Q q d

/-- **C95**: and exists queries for fields of the data, and `has_geo`, for documents made by the parser: a NaN or an infinity is indexed
as a text, so it is still there. -/
theorem C95_exists (E : ParseEnv) (hE : E.IgnoresOrder) (hP : E.PlacesHaveValues) (o : ParsingOptions) (d : Dict) (pd : ParsedData)
    (hw : (Value.dict d).wf = true) (hf : FieldNames (.dict d)) (h : parse E o d = .ok pd) :
    (∀ field, (∀ k ∈ splitDots field, FieldName k) →
      existsMatches (existsQuery field) (sentDict pd.parsed) = existsMatches (existsQuery field) pd.parsed) ∧
    existsMatches hasGeo (sentDict pd.parsed) = existsMatches hasGeo pd.parsed :=
  ⟨fun _ hk => exists_sent hP hw hf h hk, hasGeo_sent hE hw hf h⟩

/-- Data with an infinity. -/
def exLost : Dict := [("x".toList, .dict [("y".toList, .list [.float .pinf])])]

example : (Value.dict exLost).wf = true ∧ FieldNames (.dict exLost) ∧ (∃ pd, parse exNoGeo exParseOpts exLost = .ok pd) ∧
    (∀ k ∈ splitDots "x.y".toList, FieldName k) := by
  refine ⟨by decide, fieldNames_of_check (by decide), ⟨_, rfl⟩, ?_⟩
  intro k hk
  have : k = "x".toList ∨ k = "y".toList := by simpa [splitDots] using hk
  rcases this with rfl | rfl
  · exact ⟨by decide, by decide, by decide⟩
  · exact ⟨by decide, by decide, by decide⟩

/-- The number is lost, the field is still found. -/
example : (parse exNoGeo exParseOpts exLost).toOption.map (fun pd => (existsMatches (existsQuery "x.y".toList) (sentDict pd.parsed),
    existsMatches (parsedPath "x.y".toList .number) (sentDict pd.parsed), existsMatches (parsedPath "x.y".toList .number) pd.parsed)) =
    some (true, false, true) := by decide

/-- One record with an infinity. -/
def exInfinite : List ApiCall := [.ingest none [⟨['a'], [(.str ['x'], .float .pinf)]⟩] true 1]

set_option maxRecDepth 100000 in
/-- **C95 does not hold in full**: an infinity is given back as `None`. -/
theorem C95_refuted : ¬ C95_full := by
  intro h
  have ho : Orderly exInfinite := by
    refine ⟨by decide, ?_⟩
    intro c hc
    simp [exInfinite] at hc
    rcases hc with rfl
    unfold NoSpan
    decide
  have hv : IsVersion (afterCalls asciiU ['x'] exInfinite) ['x'] 1 :=
    .inr ⟨(afterCalls asciiU ['x'] exInfinite).options.head (by decide), by decide, by decide, by decide⟩
  obtain ⟨es, h1, h2⟩ := h exEnv' exEnv'_order exEnv'_scalar asciiU asciiU_sane 10 ['x'] exInfinite ho ⟨1, hv⟩
  have hs : sync (realParser exEnv') 10 ['x'] false (afterCalls asciiU ['x'] exInfinite) [] = .ok (exIndexed exInfinite) := rfl
  rw [hs] at h1; cases h1
  obtain ⟨d, p, g1, g2, g3⟩ := h2 1 ['a'] [(['x'], .float .pinf), ("_id".toList, .str ['a'])] (by
    have e : (ingested asciiU ['x'] exInfinite ['a']).committed = [(1, [(['x'], .float .pinf), ("_id".toList, .str ['a'])])] := by decide
    rw [e]
    exact ⟨1, by simp, by simp, by simp⟩) (by simp) (by decide) ((remains_iff _).1 (by decide))
  have e : (foundFor (exIndexed exInfinite) (.version 1) ['a']).all (fun d => match d.parsed with
    | some p => decide (simEq (.dict (rebuildData (sentDict p.parsed))) (.dict [(['x'], .float .pinf), ("_id".toList, .str ['a'])]) = false)
    | none => true) = true := by decide
  rw [g1] at e
  simp only [List.all_cons, List.all_nil, Bool.and_true, g2, decide_eq_true_eq] at e
  rw [e] at g3
  cases g3

set_option maxRecDepth 100000 in
/-- What the record is given back as. -/
example : (foundFor (exIndexed exInfinite) (.version 1) ['a']).map (fun d => d.parsed.map (fun p => rebuildData (sentDict p.parsed))) =
    [some [("_id".toList, .str ['a']), (['x'], .none)]] := by decide

/-- The calls of the examples of C70 meet the conditions (see there), and their data has no infinities. -/
example : Rebuildable (.dict (exData ['a'] 2)) ∧ AllLeavesDict Finite (exData ['a'] 2) :=
  ⟨(remains_iff _).1 (by decide), trivial, trivial, trivial⟩

end Splitgill.Props
