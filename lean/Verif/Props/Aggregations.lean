import Verif.Props.Entries
/-!
# C107: versions, counts of changes and fields, by the entries that Elasticsearch indexes

`get_versions`, `get_rounded_version`, `get_version_changed_counts`, `get_data_fields` and `get_parsed_fields` aggregate the values that the documents
have in the fields `version`, `next`, `data_types` and `parsed_types`. Here these values are the entries of the documents that were sent to
Elasticsearch (`Verif.Model.Entries`).
-/

namespace Splitgill.Props
open Splitgill

/-- The versions and counts that Elasticsearch tells are those at which the records change, for histories `h` and committed options `opts`. -/
structure ServerTells (E : ParseEnv) (h : Store) (opts : List (Int × ParsingOptions)) (ids : List PyStr) (db : PyStr) (s : Server) : Prop where
  /-- `get_versions` and `get_rounded_version` -/
  versions : ∃ vs, s.versions db = some vs ∧ vs.Pairwise (· < ·) ∧
    (∀ v, v ∈ vs ↔ ∃ id, (h id).pending = none ∧ ChangesAt E (h id).committed opts v) ∧
    ∀ v, (s.roundedVersion db v = some none ∧ ∀ w ∈ vs, v < w) ∨
      ∃ w, s.roundedVersion db v = some (some w) ∧ w ∈ vs ∧ w ≤ v ∧ ∀ w' ∈ vs, w' ≤ v → w' ≤ w
  /-- `get_version_changed_counts` -/
  counts : ∃ c, s.changedCounts db = some c ∧ CountsChanges E h opts ids c

/-- `get_data_fields` and `get_parsed_fields`, with the queries of the API or none, list the fields and types that the records have as of the version
which the search finds, and count these records. -/
structure ServerLists (E : ParseEnv) (h : Store) (opts : List (Int × ParsingOptions)) (ids : List PyStr) (db : PyStr) (s : Server) : Prop where
  data : ∀ (Q : QueryEnv) (v : Int) (q : Option EsQuery), (∀ x, q = some x → x.Made ∧ (x.AsksValues → E.PlacesHaveValues)) →
    ∃ fs, s.fieldsOfData Q db (.version v) q = some (.ok fs) ∧
      ListsFields DType.name ids (fun id p t => ServerFinds Q db s v q id ∧ ∃ a, AsOf (h id).committed v a ∧ DataTypeAt a p t)
        (fs.map DataField.toFieldCounts) ∧ LinksFields fs
  parsed : (∀ x ∈ opts, E.HintsOk x.2) → ∀ (Q : QueryEnv) (v : Int) (q : Option EsQuery),
    (∀ x, q = some x → x.Made ∧ (x.AsksValues → E.PlacesHaveValues)) →
    ∃ fs, s.fieldsOfParsed Q db (.version v) q = some (.ok fs) ∧
      ListsFields PType.name ids (fun id p t => ServerFinds Q db s v q id ∧ ∃ a o, AsOf (h id).committed v a ∧
        OptionsAsOf (effectiveOptions (h id).committed opts) v o ∧ ParsedTypeAt E o a p t) fs

/-- **C107**, as it should be: after a sync that succeeds, the versions, counts and fields are those of the records. -/
def C107_full : Prop := ∀ (E : ParseEnv), E.IgnoresOrder → E.ScalarHints → E.NumbersExist → ∀ (F : FloatText) (S : EsEnv), PlacesOk E S →
  S.NotLonger → ∀ (U : Unicode), U.Sane → ∀ (maxDocs chunkSize : Nat), 1 ≤ chunkSize → ∀ (db : PyStr), '*' ∉ db → ∀ (calls : List ApiCall),
    Orderly calls → (∃ v, IsVersion (afterCalls U db calls) db v) → NoPunsAmong U (calls.flatMap ApiCall.stream) →
    ∀ (ids : List PyStr), ids.Nodup → (∀ r ∈ calls.flatMap ApiCall.stream, r.id ∈ ids) →
    ∀ s, Server.sync E F S maxDocs chunkSize db false (afterCalls U db calls) [] = .ok s →
      ServerTells E (ingested U db calls) (committedOptionsOf db (afterCalls U db calls)) ids db s ∧
      ServerLists E (ingested U db calls) (committedOptionsOf db (afterCalls U db calls)) ids db s

/-- **C107**: after any calls of `sync`, `sync(resync=True)` and `resync_arcs`, each after any calls of the API, the versions, counts and fields are
those that are computed from the documents in the model of the other properties. -/
theorem C107_calls (E : ParseEnv) (hE : E.IgnoresOrder) (hS : E.ScalarHints) (F : FloatText) (S : EsEnv) (hP : PlacesOk E S) (hl : S.NotLonger)
    (hL : LeavesOk E (fun v => IntFits v ∧ FloatFits F v)) (U : Unicode) (hU : U.Sane) (maxDocs chunkSize : Nat) (hc : 1 ≤ chunkSize)
    (db : PyStr) (hdb : '*' ∉ db) (hpl : PlainStr db) (fields : List (List PyStr)) (hf : fields.length ≤ 443) (cs : List (SyncCall × List ApiCall))
    (hcs : ∀ c ∈ cs, Orderly c.2 ∧ (∃ v, IsVersion (afterCalls U db c.2) db v) ∧ Sendable E F fields db (afterCalls U db c.2))
    (es : ES (Option ParsedData)) (h : runInOrder (realParser E) maxDocs db [] (cs.map (fun c => (c.1, afterCalls U db c.2))) = .ok es) :
    ∃ s, Server.calls E F S maxDocs chunkSize db [] (cs.map (fun c => (c.1, afterCalls U db c.2))) = .ok s ∧
      s.changedCounts db = es.changedCounts ∧ s.versions db = es.versions ∧ (∀ v, s.roundedVersion db v = es.roundedVersion v) ∧
      ∀ (Q : QueryEnv) (q : Option EsQuery), (∀ x, q = some x → x.Made ∧ (x.AsksValues → E.PlacesHaveValues)) → ∀ at_,
        s.fieldsOfData Q db at_ q = es.fieldsOfData Q at_ q ∧ s.fieldsOfParsed Q db at_ q = es.fieldsOfParsed Q at_ q := by
  obtain ⟨s, h1, h2⟩ := calls_shows (S := S) hP hl hf hdb hpl hc (cs := cs.map (fun c => (c.1, afterCalls U db c.2))) (fun cm hcm => by
    obtain ⟨c, hm, rfl⟩ := List.mem_map.1 hcm
    obtain ⟨g1, g2, g3⟩ := hcs c hm
    exact syncGood hS hL hU g1 g2 g3 maxDocs) (Shows.mk (es := []) (s := []) List.nodup_nil .nil) h
  exact ⟨s, h1, h2.changedCounts hdb hE, h2.versions hdb hE, h2.roundedVersion hdb hE, fun Q q hq at_ =>
    ⟨h2.fieldsOfData hdb hE Q q hq at_, h2.fieldsOfParsed hdb hE Q q hq at_⟩⟩

theorem server_tells {E : ParseEnv} (hE : E.IgnoresOrder) {fields : List (List PyStr)} {db : PyStr} (hdb : '*' ∉ db) {h : Store}
    {opts : List (Int × ParsingOptions)} {ids : List PyStr} {es : ES (Option ParsedData)} {s : Server} (hs : Shows E db fields es s)
    (ht : TellsChanges E h opts ids es) : ServerTells E h opts ids db s where
  versions := by
    rw [hs.versions hdb hE]
    simp only [hs.roundedVersion hdb hE]
    exact ht.versions
  counts := by
    rw [hs.changedCounts hdb hE]
    exact ht.counts

theorem server_finds {E : ParseEnv} (hE : E.IgnoresOrder) {fields : List (List PyStr)} {db : PyStr} (hdb : '*' ∉ db)
    {es : ES (Option ParsedData)} {s : Server} (hs : Shows E db fields es s) {Q : QueryEnv} {v : Int} {q : Option EsQuery}
    (hq : ∀ x, q = some x → x.Made ∧ (x.AsksValues → E.PlacesHaveValues)) (id : PyStr) : ServerFinds Q db s v q id ↔ FoundBy Q es v q id := by
  unfold ServerFinds
  have h := hs.askIn hdb hE Q q hq (.version v)
  have h' := askedIds_eq ((List.forall₂_map_right_iff (f := Prod.snd)).2 (h.imp (fun _ _ e => e.2.sentAs)))
  rw [h']
  cases q with
  | some q => exact Iff.rfl
  | none =>
    simp only [FoundBy, foundIds, List.mem_map]
    constructor
    · rintro ⟨d, hd⟩
      exact List.ne_nil_of_mem (mem_found_iff.2 hd)
    · intro h
      obtain ⟨d, hd⟩ := List.exists_mem_of_ne_nil _ h
      exact ⟨d, mem_found_iff.1 hd⟩

theorem server_lists {E : ParseEnv} (hE : E.IgnoresOrder) {fields : List (List PyStr)} {db : PyStr} (hdb : '*' ∉ db) {h : Store}
    {opts : List (Int × ParsingOptions)} {ids : List PyStr} {es : ES (Option ParsedData)} {s : Server} (hs : Shows E db fields es s)
    (ht : ListsContents E h opts ids es) : ServerLists E h opts ids db s where
  data Q v q hq := by
    rw [hs.fieldsOfData hdb hE Q q hq]
    simp only [server_finds hE hdb hs hq]
    exact ht.data Q v q
  parsed hH Q v q hq := by
    rw [hs.fieldsOfParsed hdb hE Q q hq]
    simp only [server_finds hE hdb hs hq]
    exact ht.parsed hH Q v q

/-- **C107** (what holds) after one sync, if all data can be sent and is taken (`Sendable`, see C102) and no two data given for a record hold equal but
different scalars at the same place: for data without NaN the versions and counts, and if no field name below the root starts with `#` or `_` the
fields. Missing: what is not sendable, and such data (`C107_refuted`). -/
theorem C107_first_sync_partial (E : ParseEnv) (hE : E.IgnoresOrder) (hS : E.ScalarHints) (hN : E.NumbersExist) (F : FloatText) (S : EsEnv)
    (hP : PlacesOk E S) (hl : S.NotLonger) (hL : LeavesOk E (fun v => IntFits v ∧ FloatFits F v)) (U : Unicode) (hU : U.Sane)
    (maxDocs chunkSize : Nat) (hc : 1 ≤ chunkSize) (db : PyStr) (hdb : '*' ∉ db) (hpl : PlainStr db) (calls : List ApiCall) (ho : Orderly calls)
    (hv : ∃ v, IsVersion (afterCalls U db calls) db v) (fields : List (List PyStr)) (hn : fields.length ≤ 443)
    (hs : Sendable E F fields db (afterCalls U db calls)) (hp : NoPunsAmong U (calls.flatMap ApiCall.stream))
    (ids : List PyStr) (hids : ids.Nodup) (hall : ∀ r ∈ calls.flatMap ApiCall.stream, r.id ∈ ids) :
    ∃ s, Server.sync E F S maxDocs chunkSize db false (afterCalls U db calls) [] = .ok s ∧
      ((∀ r ∈ calls.flatMap ApiCall.stream, (Value.dict (prepareRecordData U r)).noNaN = true) →
        ServerTells E (ingested U db calls) (committedOptionsOf db (afterCalls U db calls)) ids db s) ∧
      ((∀ r ∈ calls.flatMap ApiCall.stream, NestedNames '#' (.dict (prepareRecordData U r)) ∧ NestedNames '_' (.dict (prepareRecordData U r))) →
        ServerLists E (ingested U db calls) (committedOptionsOf db (afterCalls U db calls)) ids db s) := by
  obtain ⟨es, hi, h1, g1, g2, g3, g4⟩ := setup_first E U hU maxDocs db calls ho hv hp
  obtain ⟨s, h3, h4⟩ := sync_shows (S := S) hP hl hn hdb hpl hc (syncGood hS hL hU ho hv hs maxDocs) (Shows.mk (es := []) (s := []) List.nodup_nil .nil) h1
  have hall' : ∀ id, (ingested U db calls id).committed ≠ [] → id ∈ ids := fun id h => by
    obtain ⟨x, hx⟩ := List.exists_mem_of_ne_nil _ h
    obtain ⟨r, hr, rfl, _⟩ := ingested_from U db _ hx
    exact hall r hr
  refine ⟨s, h3, fun hnan => server_tells hE hdb h4 (tells_of_life hE hS g1 g2 g3 g4 hN (fun id x hx => ?_) hids hall'),
    fun hk => server_lists hE hdb h4 (lists_of_life hE hS g1 g2 g3 g4 hids hall' (fun id v a ha => ?_) (fun id v a ha => ?_))⟩
  · obtain ⟨r, hr, _, e⟩ := ingested_from U db calls hx
    rw [e]; exact hnan r hr
  · obtain ⟨r, hr, _, rfl⟩ := ingested_asOf U db _ ha
    exact (hk r hr).1
  · obtain ⟨r, hr, _, rfl⟩ := ingested_asOf U db _ ha
    exact (hk r hr).2

/-- **C107** (what holds) after any calls and syncs between them, under the conditions of `C102_syncs_partial`. Missing: as there and in
`C107_first_sync_partial`. -/
theorem C107_syncs_partial (E : ParseEnv) (hE : E.IgnoresOrder) (hS : E.ScalarHints) (hN : E.NumbersExist) (F : FloatText) (S : EsEnv)
    (hP : PlacesOk E S) (hl : S.NotLonger) (hL : LeavesOk E (fun v => IntFits v ∧ FloatFits F v)) (U : Unicode) (hU : U.Sane)
    (maxDocs chunkSize : Nat) (hc : 1 ≤ chunkSize) (db : PyStr) (hdb : '*' ∉ db) (hpl : PlainStr db) (first : List ApiCall)
    (parts : List (List ApiCall)) (ho : Orderly (first ++ parts.flatten)) (hv : ∃ v, IsVersion (afterCalls U db first) db v)
    (he : EachPart (NoUpdateDelete db) U db first parts) (hp : ∀ m ∈ statesOf U db first parts, NoPending db m)
    (hn : NoPunsAmong U ((first ++ parts.flatten).flatMap ApiCall.stream)) (fields : List (List PyStr)) (hf : fields.length ≤ 443)
    (hs : ∀ m ∈ statesOf U db first parts, Sendable E F fields db m) (ids : List PyStr) (hids : ids.Nodup)
    (hall : ∀ r ∈ (first ++ parts.flatten).flatMap ApiCall.stream, r.id ∈ ids) :
    ∃ s, Server.syncs E F S maxDocs chunkSize db [] (statesOf U db first parts) = .ok s ∧
      ((∀ r ∈ (first ++ parts.flatten).flatMap ApiCall.stream, (Value.dict (prepareRecordData U r)).noNaN = true) →
        ServerTells E (ingested U db (first ++ parts.flatten)) (committedOptionsOf db (afterCalls U db (first ++ parts.flatten))) ids db s) ∧
      ((∀ r ∈ (first ++ parts.flatten).flatMap ApiCall.stream, NestedNames '#' (.dict (prepareRecordData U r)) ∧
          NestedNames '_' (.dict (prepareRecordData U r))) →
        ServerLists E (ingested U db (first ++ parts.flatten)) (committedOptionsOf db (afterCalls U db (first ++ parts.flatten))) ids db s) := by
  obtain ⟨es, hi, h1, g1, g2, g3, g4, _⟩ := setup_syncs E hE U hU maxDocs db first parts ho hv he hp hn
  have hg : ∀ m ∈ statesOf U db first parts, SyncGood E F fields maxDocs db m := by
    intro m hm
    have hok := life_dbOks parts first ho hv m hm
    obtain ⟨calls, rfl, hcalls⟩ := states_calls parts first ho m hm
    exact syncGood hS hL hU hcalls hok.isVersion (hs _ hm) maxDocs
  obtain ⟨s, h3, h4⟩ := syncs_shows (S := S) hP hl hf hdb hpl hc hg (Shows.mk (es := []) (s := []) List.nodup_nil .nil) h1
  have hall' : ∀ id, (ingested U db (first ++ parts.flatten) id).committed ≠ [] → id ∈ ids := fun id h => by
    obtain ⟨x, hx⟩ := List.exists_mem_of_ne_nil _ h
    obtain ⟨r, hr, rfl, _⟩ := ingested_from U db _ hx
    exact hall r hr
  refine ⟨s, h3, fun hnan => server_tells hE hdb h4 (tells_of_life hE hS g1 g2 g3 g4 hN (fun id x hx => ?_) hids hall'),
    fun hk => server_lists hE hdb h4 (lists_of_life hE hS g1 g2 g3 g4 hids hall' (fun id v a ha => ?_) (fun id v a ha => ?_))⟩
  · obtain ⟨r, hr, _, e⟩ := ingested_from U db _ hx
    rw [e]; exact hnan r hr
  · obtain ⟨r, hr, _, rfl⟩ := ingested_asOf U db _ ha
    exact (hk r hr).1
  · obtain ⟨r, hr, _, rfl⟩ := ingested_asOf U db _ ha
    exact (hk r hr).2

set_option maxRecDepth 100000 in
/-- **C107 does not hold in full**: with one record, the field for the elements of `a` has the count 2 (C57). -/
theorem C107_refuted : ¬ C107_full := by
  intro h
  have hv : ∃ d ∈ (afterCalls asciiU ['x'] exHash).options, d.name = ['x'] ∧ d.version = some 1 := by decide +kernel
  have e : (match Server.sync exEnv' exFloats1 exEs 10 10 ['x'] false (afterCalls asciiU ['x'] exHash) [] with
    | .ok s => (s.fieldsOfData exQuery ['x'] (.version 1) none).map (fun r => r.toOption.map (fun l => l.any (fun x => decide (x.count = 2))))
    | .error _ => none) = some (some true) := by decide +kernel
  cases h1 : Server.sync exEnv' exFloats1 exEs 10 10 ['x'] false (afterCalls asciiU ['x'] exHash) [] with
  | error e' => rw [h1] at e; cases e
  | ok s =>
    rw [h1] at e
    obtain ⟨_, h2⟩ := h exEnv' exEnv'_order exEnv'_scalar exEnv'_numbers exFloats1 exEs (exEs_places _) exEs_lower asciiU asciiU_sane 10 10 (by decide)
      ['x'] (by decide) exHash
      ⟨by decide +kernel, by
        intro c hc
        simp only [exHash, List.mem_singleton] at hc
        subst hc; unfold NoSpan; decide⟩
      ⟨1, .inr hv⟩
      (by
        intro r hr r' hr' _ p v w hv hw _ _ _
        simp only [exHash, List.flatMap_cons, List.flatMap_nil, ApiCall.stream, List.append_nil, List.mem_singleton] at hr hr'
        subst hr; subst hr'
        rw [hv] at hw
        exact Option.some.inj hw)
      [['r']] (by simp) (by decide +kernel) s h1
    obtain ⟨fs, h3, h4, _⟩ := h2.data exQuery 1 none (fun x hx => nomatch hx)
    dsimp only at e
    rw [h3] at e
    have e : fs.any (fun x => decide (x.count = 2)) = true := by simpa [Except.toOption] using e
    rw [List.any_eq_true] at e
    obtain ⟨f, hf, hf2⟩ := e
    have hf2 : f.count = 2 := of_decide_eq_true hf2
    have hcount := h4.count f.toFieldCounts (List.mem_map_of_mem hf)
    rw [hf2] at hcount
    have hle : ∀ {α : Type} (l : List α) (P : α → Prop), howMany l P ≤ l.length := fun l P => List.length_filter_le _ _
    have h' := hle [['r']] (fun id => ∃ p t, (ServerFinds exQuery ['x'] s 1 none id ∧
      ∃ a, AsOf (ingested asciiU ['x'] exHash id).committed 1 a ∧ DataTypeAt a p t) ∧ pathText p = f.toFieldCounts.path)
    rw [← hcount] at h'
    exact absurd h' (by decide)

set_option maxRecDepth 100000 in
/-- The conditions of the theorems are those of C102 and C106 (see there for a case that meets them), and these. -/
example : exEnv'.NumbersExist ∧ (∀ r ∈ (exCalls1 ++ exParts.flatten).flatMap ApiCall.stream, r.id ∈ [['a'], ['b']]) ∧
    (∀ r ∈ (exCalls1 ++ exParts.flatten).flatMap ApiCall.stream, (Value.dict (prepareRecordData asciiU r)).noNaN = true) ∧
    (∀ r ∈ (exCalls1 ++ exParts.flatten).flatMap ApiCall.stream,
      NestedNames '#' (.dict (prepareRecordData asciiU r)) ∧ NestedNames '_' (.dict (prepareRecordData asciiU r))) := by
  refine ⟨exEnv'_numbers, by decide +kernel, by decide +kernel, ?_⟩
  have h : ∀ r ∈ (exCalls1 ++ exParts.flatten).flatMap ApiCall.stream, ∀ c ∈ ['#', '_'],
      (prepareRecordData asciiU r).all (fun kv => allKeys (fun k => k.head? != some c) kv.2) = true := by decide +kernel
  exact fun r hr => ⟨nestedNames_of_check (h r hr _ (by simp)), nestedNames_of_check (h r hr _ (by simp))⟩

/-- The paths and counts of fields. -/
def exCounts (r : Option (Except PyErr (List DataField))) : List (PyStr × Nat) :=
  match r with
  | some (.ok l) => l.map (fun f => (f.path, f.count))
  | _ => []

set_option maxRecDepth 100000 in
/-- The versions and counts of changes after a sync of these calls, and the fields at version 2: of all records, and of those that
`term_query("x", 2)` finds. -/
example : (match Server.sync exEnv' exFloats1 exEs 10 10 ['x'] false (afterCalls asciiU ['x'] (exCalls1 ++ exParts.flatten)) [] with
    | .ok s => decide (s.versions ['x'] = some [1, 2, 3] ∧ s.changedCounts ['x'] = some [(1, 2), (2, 1), (3, 1)] ∧
        s.roundedVersion ['x'] 9 = some (some 3) ∧ s.roundedVersion ['x'] 0 = some none ∧
        exCounts (s.fieldsOfData exQuery ['x'] (.version 2) none) = [("_id".toList, 2), (['x'], 2)] ∧
        exCounts (s.fieldsOfData exQuery ['x'] (.version 2) (some (.term ⟨parsedPath ['x'] .number, .int 2⟩))) = [("_id".toList, 1), (['x'], 1)])
    | .error _ => false) = true := by decide +kernel

end Splitgill.Props
