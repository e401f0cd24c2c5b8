import Verif.Proof.Wire2
import Verif.Props.EndToEnd
/-!
# C102: what was ingested comes back from Elasticsearch

Here the documents are sent as texts, read and taken (or not) by Elasticsearch, and found as JSON in indices that are found by their names
(`Verif.Model.Wire`). `ingested U db calls` are the histories of the records according to what the calls were given and what they returned
(`Verif.Spec.Life`).
-/

namespace Splitgill.Props
open Splitgill

/-- The data of a record comes back: one document is found for it, from which this data is rebuilt. -/
def ComesBack (s : Server) (db : PyStr) (v : Int) (id : PyStr) (same : Dict → Prop) : Prop :=
  ∃ hit d, s.searchFor db (.version v) id = [hit] ∧ hitData hit = some d ∧ same (rebuildData d)

/-- **C102**, as it should be: a sync succeeds and `search(v)` gives back all data that has no empty values (see C47). -/
def C102_full : Prop := ∀ (E : ParseEnv), E.IgnoresOrder → E.ScalarHints → ∀ (F : FloatText) (S : EsEnv), PlacesOk E S → S.NotLonger →
  ∀ (U : Unicode), U.Sane → ∀ (maxDocs chunkSize : Nat), 1 ≤ chunkSize → ∀ (db : PyStr), '*' ∉ db → ∀ (calls : List ApiCall),
    Orderly calls → (∃ v, IsVersion (afterCalls U db calls) db v) →
    ∃ s, Server.sync E F S maxDocs chunkSize db false (afterCalls U db calls) [] = .ok s ∧ ∀ v id a,
      AsOf (ingested U db calls id).committed v a → a ≠ [] → (ingested U db calls id).pending = none → Rebuildable (.dict a) →
      ComesBack s db v id (fun d => simEq (.dict d) (.dict a) = true)

/-- **C102** (what holds) after one sync, if all data can be sent and is taken (`Sendable`): the data comes back, with `None` for NaN and the
infinities and without empty values (C47), and with all types if no two data given for a record hold equal but different scalars at the same
place. Nothing is found for records that do not exist at `v` or have uncommitted data. Missing: what is not sendable, empty values, NaN and
the infinities (`C102_refuted`). -/
theorem C102_first_sync_partial (E : ParseEnv) (hE : E.IgnoresOrder) (hS : E.ScalarHints) (F : FloatText) (S : EsEnv) (hP : PlacesOk E S)
    (hl : S.NotLonger) (hL : LeavesOk E (fun v => IntFits v ∧ FloatFits F v)) (U : Unicode) (hU : U.Sane) (maxDocs chunkSize : Nat)
    (hc : 1 ≤ chunkSize) (db : PyStr) (hdb : '*' ∉ db) (hpl : PlainStr db) (calls : List ApiCall) (ho : Orderly calls)
    (hv : ∃ v, IsVersion (afterCalls U db calls) db v) (fields : List (List PyStr)) (hn : fields.length ≤ 443)
    (hs : Sendable E F fields db (afterCalls U db calls)) :
    ∃ s, Server.sync E F S maxDocs chunkSize db false (afterCalls U db calls) [] = .ok s ∧ ∀ v id,
      (∀ a, AsOf (ingested U db calls id).committed v a → a ≠ [] → (ingested U db calls id).pending = none →
        ComesBack s db v id (fun d => simEq (.dict d) (.dict (sentDict (remainsDict a))) = true ∧
          (NoPunsAmong U (calls.flatMap ApiCall.stream) → strictEq (.dict d) (.dict (sentDict (remainsDict a))) = true) ∧
          (Rebuildable (.dict a) → AllLeavesDict Finite a → simEq (.dict d) (.dict a) = true))) ∧
      (¬ Alive (ingested U db calls id).committed v ∨ (ingested U db calls id).pending ≠ none → s.searchFor db (.version v) id = []) := by
  obtain ⟨es, h1, h2⟩ := C70_first_sync_partial E hE hS U hU maxDocs db calls ho hv
  obtain ⟨es', h1', h2'⟩ := C95_first_sync_partial E hE hS U hU maxDocs db calls ho hv
  rw [h1] at h1'
  cases h1'
  obtain ⟨s, h3, h4⟩ := sync_shows (S := S) hP hl hn hdb hpl hc (syncGood hS hL hU ho hv hs maxDocs) (Shows.mk (es := []) (s := []) List.nodup_nil .nil) h1
  refine ⟨s, h3, fun v id => ⟨fun a ha hne hp => ?_, fun hna => ?_⟩⟩
  · obtain ⟨d, p, g1, g2, g3⟩ := h2' v id a ha hne hp
    obtain ⟨hit, k1, k2⟩ := h4.one hdb g1 g2
    exact ⟨hit, _, k1, k2, g3⟩
  · exact h4.nothing hdb ((h2 v id).2 hna)

/-- **C102** (what holds) after any calls and syncs between them, under the conditions of `C70_syncs_partial`, if at each sync all data can be sent
and is taken: it comes back with all types. Missing: as there and in `C102_first_sync_partial`. -/
theorem C102_syncs_partial (E : ParseEnv) (hE : E.IgnoresOrder) (hS : E.ScalarHints) (F : FloatText) (S : EsEnv) (hP : PlacesOk E S)
    (hl : S.NotLonger) (hL : LeavesOk E (fun v => IntFits v ∧ FloatFits F v)) (U : Unicode) (hU : U.Sane) (maxDocs chunkSize : Nat)
    (hc : 1 ≤ chunkSize) (db : PyStr) (hdb : '*' ∉ db) (hpl : PlainStr db) (first : List ApiCall) (parts : List (List ApiCall))
    (ho : Orderly (first ++ parts.flatten)) (hv : ∃ v, IsVersion (afterCalls U db first) db v)
    (he : EachPart (NoUpdateDelete db) U db first parts) (hp : ∀ m ∈ statesOf U db first parts, NoPending db m)
    (hn : NoPunsAmong U ((first ++ parts.flatten).flatMap ApiCall.stream)) (fields : List (List PyStr)) (hf : fields.length ≤ 443)
    (hs : ∀ m ∈ statesOf U db first parts, Sendable E F fields db m) :
    ∃ s, Server.syncs E F S maxDocs chunkSize db [] (statesOf U db first parts) = .ok s ∧ ∀ v id,
      (∀ a, AsOf (ingested U db (first ++ parts.flatten) id).committed v a → a ≠ [] →
        ComesBack s db v id (fun d => strictEq (.dict d) (.dict (sentDict (remainsDict a))) = true ∧
          (Rebuildable (.dict a) → AllLeavesDict Finite a → strictEq (.dict d) (.dict a) = true))) ∧
      (¬ Alive (ingested U db (first ++ parts.flatten) id).committed v → s.searchFor db (.version v) id = []) := by
  obtain ⟨es, h1, h2⟩ := C70_syncs_partial E hE hS U hU maxDocs db first parts ho hv he hp hn
  obtain ⟨es', h1', h2'⟩ := C95_syncs_partial E hE hS U hU maxDocs db first parts ho hv he hp hn
  rw [h1] at h1'
  cases h1'
  have hg : ∀ m ∈ statesOf U db first parts, SyncGood E F fields maxDocs db m := by
    intro m hm
    have hok := life_dbOks parts first ho hv m hm
    obtain ⟨calls, rfl, hcalls⟩ := states_calls parts first ho m hm
    exact syncGood hS hL hU hcalls hok.isVersion (hs _ hm) maxDocs
  obtain ⟨s, h3, h4⟩ := syncs_shows (S := S) hP hl hf hdb hpl hc hg (Shows.mk (es := []) (s := []) List.nodup_nil .nil) h1
  refine ⟨s, h3, fun v id => ⟨fun a ha hne => ?_, fun hna => ?_⟩⟩
  · obtain ⟨d, p, g1, g2, g3⟩ := h2' v id a ha hne
    obtain ⟨hit, k1, k2⟩ := h4.one hdb g1 g2
    exact ⟨hit, _, k1, k2, g3⟩
  · exact h4.nothing hdb ((h2 v id).2 hna)

/-- **C102**: after any calls of `sync`, `sync(resync=True)` and `resync_arcs`, each after any calls of the API, the indices hold as JSON the
documents that they hold in the model of the other properties: their versions and archives are the same, and so is what all searches find. -/
theorem C102_calls (E : ParseEnv) (hS : E.ScalarHints) (F : FloatText) (S : EsEnv) (hP : PlacesOk E S) (hl : S.NotLonger)
    (hL : LeavesOk E (fun v => IntFits v ∧ FloatFits F v)) (U : Unicode) (hU : U.Sane) (maxDocs chunkSize : Nat) (hc : 1 ≤ chunkSize)
    (db : PyStr) (hdb : '*' ∉ db) (hpl : PlainStr db) (fields : List (List PyStr)) (hf : fields.length ≤ 443) (cs : List (SyncCall × List ApiCall))
    (hcs : ∀ c ∈ cs, Orderly c.2 ∧ (∃ v, IsVersion (afterCalls U db c.2) db v) ∧ Sendable E F fields db (afterCalls U db c.2))
    (es : ES (Option ParsedData)) (h : runInOrder (realParser E) maxDocs db [] (cs.map (fun c => (c.1, afterCalls U db c.2))) = .ok es) :
    ∃ s, Server.calls E F S maxDocs chunkSize db [] (cs.map (fun c => (c.1, afterCalls U db c.2))) = .ok s ∧
      s.version db = es.version ∧ s.arcStatus db = .ok es.arcStatus ∧ ∀ at_, (s.search db at_).map some = (found es at_).map Doc.json := by
  obtain ⟨s, h1, h2⟩ := calls_shows (S := S) hP hl hf hdb hpl hc (cs := cs.map (fun c => (c.1, afterCalls U db c.2))) (fun cm hcm => by
    obtain ⟨c, hm, rfl⟩ := List.mem_map.1 hcm
    obtain ⟨g1, g2, g3⟩ := hcs c hm
    exact syncGood hS hL hU g1 g2 g3 maxDocs) (Shows.mk (es := []) (s := []) List.nodup_nil .nil) h
  exact ⟨s, h1, h2.version hdb, h2.arcStatus hdb, fun at_ => sentAs_map (h2.search hdb at_)⟩

set_option maxRecDepth 100000 in
/-- **C102 does not hold in full**: an infinity comes back as `None`. -/
theorem C102_refuted : ¬ C102_full := by
  intro h
  have ho : Orderly exInfinite := by
    refine ⟨by decide, ?_⟩
    intro c hc
    simp [exInfinite] at hc
    rcases hc with rfl
    unfold NoSpan
    decide
  have hv : IsVersion (afterCalls asciiU ['x'] exInfinite) ['x'] 1 :=
    .inr ⟨(afterCalls asciiU ['x'] exInfinite).options.head (by decide), by decide, by decide, by decide⟩
  obtain ⟨s, h1, h2⟩ := h exEnv' exEnv'_order exEnv'_scalar exFloats exEs (exEs_places _) exEs_lower asciiU asciiU_sane 10 10 (by decide) ['x']
    (by decide) exInfinite ho ⟨1, hv⟩
  obtain ⟨hit, d, g1, g2, g3⟩ := h2 1 ['a'] [(['x'], .float .pinf), ("_id".toList, .str ['a'])] (by
    have e : (ingested asciiU ['x'] exInfinite ['a']).committed = [(1, [(['x'], .float .pinf), ("_id".toList, .str ['a'])])] := by decide
    rw [e]
    exact ⟨1, by simp, by simp, by simp⟩) (by simp) (by decide) ((remains_iff _).1 (by decide))
  have e : (match Server.sync exEnv' exFloats exEs 10 10 ['x'] false (afterCalls asciiU ['x'] exInfinite) [] with
    | .ok s => (s.searchFor ['x'] (.version 1) ['a']).map (fun hit => (hitData hit).map rebuildData)
    | .error _ => []) = [some [("_id".toList, .str ['a']), (['x'], .none)]] := by decide +kernel
  rw [h1] at e
  dsimp only at e
  rw [g1, List.map_cons, g2] at e
  simp only [Option.map_some, List.map_nil, List.cons.injEq, Option.some.injEq, and_true] at e
  rw [e] at g3
  revert g3
  decide

/-- A record whose id has a quote, and its deletion. -/
def exQuoted : List (List ApiCall) := [[.ingest none [exDel "a\"".toList] true 2]]

set_option maxRecDepth 100000 in
/-- Nor without the condition on the ids: after the deletion of a record with a quote in its id, a sync sends a text that cannot be read. -/
theorem C102_quotes : (match Server.syncs exEnv' exFloats exEs 10 10 ['x'] []
      (statesOf asciiU ['x'] [.ingest none [exRec "a\"".toList 1] true 1] exQuoted) with
    | .error .malformed => true
    | _ => false) = true := by decide +kernel

/-- The text of the number that the libraries of the example find. -/
def exFloats1 : FloatText where
  write := fun _ => "1.0".toList
  read := fun s => if s = "1.0".toList then some (.fin 1) else none

theorem exFloats1_leaves : LeavesOk exEnv' (fun v => IntFits v ∧ FloatFits exFloats1 v) := by
  have hk : exFloats1.Keeps (.fin 1) := ⟨rfl, by decide, ⟨'1', _, rfl, .inl (by decide)⟩, ⟨'.', by decide, .inl rfl⟩⟩
  refine ⟨⟨fun _ e => (nomatch e), fun _ e => (nomatch e)⟩, fun _ => ⟨fun _ e => (nomatch e), fun _ e => (nomatch e)⟩,
    fun _ => ⟨fun _ e => (nomatch e), fun _ e => (nomatch e)⟩, fun s f i h => ⟨fun j e => ?_, fun _ e => (nomatch e)⟩,
    fun s f h => ⟨fun _ e => (nomatch e), fun g e => ?_⟩⟩
  · cases e
    simp only [exEnv', exEnv] at h
    split at h
    · split at h
      · cases h; decide
      · split at h
        · cases h; decide
        · cases h
    · cases h
  · cases e
    simp only [exEnv', exEnv] at h
    split at h
    · cases h; exact .inr (.inr (.inr hk))
    · cases h

/-- The fields of the example. -/
def exWireFields : List (List PyStr) := [[], [['x']], ["_id".toList]]

/-- What `Sendable` says, where the data has only ints and texts. -/
def sendable (E : ParseEnv) (fields : List (List PyStr)) (db : PyStr) (m : Mongo) : Bool :=
  let small := fun i : Int => decide (-2 ^ 63 ≤ i) && decide (i < 2 ^ 63)
  let short := fun s : PyStr => decide (utf8Len s ≤ 32766)
  (m.data db).all (fun r =>
    short r.id && r.id.all (fun c => decide (c ≠ '"') && decide (c ≠ '\\') && decide (32 ≤ c.toNat)) && r.getVersions.all small &&
    match r.iter with
    | .error _ => true
    | .ok items => items.all (fun x => x.2.all (fun kv => match kv.2 with
        | .int i => small i
        | .str _ => true
        | _ => false) && (fieldsOfDict x.2).all (fun q => decide (q ∈ fields)) &&
        (committedOptionsOf db m).all (fun o => match (realParser E).parse x.2 o.2 with
          | none => true
          | some p => p.dataTypes.all short && p.parsedTypes.all short))) &&
  m.options.all (fun d => match d.version with | none => true | some v => small v) &&
  (committedOptionsOf db m).all (fun o => decide (0 ≤ o.2.keywordLength) && decide (o.2.keywordLength ≤ 8191))

theorem sendable_of_check {E : ParseEnv} {F : FloatText} {fields : List (List PyStr)} {db : PyStr} {m : Mongo} (h : sendable E fields db m = true) :
    Sendable E F fields db m := by
  simp only [sendable, Bool.and_eq_true, List.all_eq_true, decide_eq_true_eq] at h
  obtain ⟨⟨h1, h2⟩, h3⟩ := h
  have hi : ∀ r ∈ m.data db, ∀ items, r.iter = .ok items → ∀ x ∈ items, _ := fun r hr items e => by
    have := (h1 r hr).2
    rw [e] at this
    simp only [List.all_eq_true, Bool.and_eq_true, decide_eq_true_eq] at this
    exact this
  refine ⟨fun r hr => ⟨fun c hc => ?_, (h1 r hr).1.1.1⟩, fun v hv => ?_, fun x hx => h3 x hx, fun r hr items e x hx => ?_,
    fun r hr items e x hx => (hi r hr items e x hx).1.2, fun r hr items e x hx o ho p hp => ?_⟩
  · have := (h1 r hr).1.1.2 c hc
    exact ⟨this.1.1, this.1.2, this.2⟩
  · rcases hv with ⟨d, hd, hv⟩ | ⟨d, hd, _, hv⟩
    · exact (h1 d hd).1.2 v hv
    · have := h2 d hd
      rw [hv] at this
      simpa using this
  · have h4 := (hi r hr items e x hx).1.1
    generalize x.2 = d at h4
    induction d with
    | nil => trivial
    | cons kv d ih =>
      refine ⟨?_, ih (fun kv hm => h4 kv (List.mem_cons_of_mem _ hm))⟩
      have h5 := h4 kv List.mem_cons_self
      obtain ⟨k, v⟩ := kv
      cases v with
      | int i =>
        simp only [Bool.and_eq_true, decide_eq_true_eq] at h5
        exact ⟨fun j e => by cases e; exact ⟨h5.1, by omega⟩, fun _ e => (nomatch e)⟩
      | str t => exact ⟨fun _ e => (nomatch e), fun _ e => (nomatch e)⟩
      | _ => cases h5
  · have := (hi r hr items e x hx).2 o ho
    rw [hp] at this
    simpa only [Bool.and_eq_true, List.all_eq_true, decide_eq_true_eq] using this

set_option maxRecDepth 100000 in
/-- The conditions of `C102_first_sync_partial` and `C102_syncs_partial` are met by a change of a record, a deletion and new options between two
syncs. (For the conditions of C70 see there.) -/
example : LeavesOk exEnv' (fun v => IntFits v ∧ FloatFits exFloats1 v) ∧ PlacesOk exEnv' exEs ∧ exEs.NotLonger ∧ PlainStr ['x'] ∧ '*' ∉ ['x'] ∧
    exWireFields.length ≤ 443 ∧ (∀ m ∈ statesOf asciiU ['x'] exCalls1 exParts, Sendable exEnv' exFloats1 exWireFields ['x'] m) ∧
    Sendable exEnv' exFloats1 exWireFields ['x'] (afterCalls asciiU ['x'] exCalls1) := by
  have h : ∀ m ∈ statesOf asciiU ['x'] exCalls1 exParts, sendable exEnv' exWireFields ['x'] m = true := by decide +kernel
  refine ⟨exFloats1_leaves, exEs_places _, exEs_lower, by unfold PlainStr; decide, by decide, by decide, fun m hm => sendable_of_check (h m hm), ?_⟩
  exact sendable_of_check (h _ (by simp [exParts, statesOf]))

set_option maxRecDepth 100000 in
/-- The conditions of `C102_calls` are met by a sync, a resync and a `resync_arcs` of these. -/
example : (∀ c ∈ [(SyncCall.sync false, exCalls1), (.sync true, exCalls1 ++ exParts.flatten), (.resyncArcs, exCalls1 ++ exParts.flatten)],
      (∃ v, IsVersion (afterCalls asciiU ['x'] c.2) ['x'] v) ∧ Sendable exEnv' exFloats1 exWireFields ['x'] (afterCalls asciiU ['x'] c.2)) ∧
    (match runInOrder (realParser exEnv') 10 ['x'] [] ([(SyncCall.sync false, exCalls1), (.sync true, exCalls1 ++ exParts.flatten),
        (.resyncArcs, exCalls1 ++ exParts.flatten)].map (fun c => (c.1, afterCalls asciiU ['x'] c.2))) with
      | .ok es => es.all.length
      | .error _ => 0) = 4 := by
  refine ⟨?_, by decide +kernel⟩
  have h : ∀ c ∈ [exCalls1, exCalls1 ++ exParts.flatten], sendable exEnv' exWireFields ['x'] (afterCalls asciiU ['x'] c) = true ∧
      ∃ d ∈ (afterCalls asciiU ['x'] c).options, d.name = ['x'] ∧ d.version = some 1 := by decide +kernel
  have key : ∀ c ∈ [exCalls1, exCalls1 ++ exParts.flatten], (∃ v, IsVersion (afterCalls asciiU ['x'] c) ['x'] v) ∧
      Sendable exEnv' exFloats1 exWireFields ['x'] (afterCalls asciiU ['x'] c) := fun c hc =>
    ⟨⟨1, .inr (h c hc).2⟩, sendable_of_check (h c hc).1⟩
  intro c hc
  simp only [List.mem_cons, List.not_mem_nil, or_false] at hc
  rcases hc with rfl | rfl | rfl
  · exact key _ (by simp)
  · exact key _ (by simp)
  · exact key _ (by simp)

set_option maxRecDepth 100000 in
/-- The indices after a sync of all these calls, with one document in each archive and one operation in each request. -/
example : (match Server.sync exEnv' exFloats1 exEs 1 1 ['x'] false (afterCalls asciiU ['x'] (exCalls1 ++ exParts.flatten)) [] with
    | .ok s => s.map (fun x => (x.1, x.2.docs.map Prod.fst))
    | .error _ => []) = [("data-x-arc-0".toList, [none]), ("data-x-latest".toList, [some ['a']]), ("data-x-arc-1".toList, [none])] := by
  decide +kernel

set_option maxRecDepth 100000 in
/-- What is found in them. -/
example : (match Server.sync exEnv' exFloats1 exEs 1 1 ['x'] false (afterCalls asciiU ['x'] (exCalls1 ++ exParts.flatten)) [] with
    | .ok s => ((s.searchFor ['x'] (.version 1) ['b']).map (fun hit => (hitData hit).map rebuildData),
        (s.searchFor ['x'] (.version 3) ['b']).length, s.version ['x'])
    | .error _ => ([], 0, none)) = ([some [("_id".toList, .str ['b']), (['x'], .int 5)]], 0, some 3) := by decide +kernel

end Splitgill.Props
