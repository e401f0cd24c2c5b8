import Verif.Proof.Entries5
import Verif.Props.Wire
import Verif.Props.CrashQueries
/-!
# C106: queries, by the entries that Elasticsearch indexes

The other properties on queries find the values of a field in a document by its names. Here Elasticsearch has an index of entries: for each value of
a document the path of its field and, by the type that the mapping of the index has for this field, the fields that the value is copied to
(`Verif.Model.Entries`). A query looks at the entries and the types.
-/

namespace Splitgill.Props
open Splitgill

/-- Queries find in the indices of Elasticsearch each record once whose data as of the version (for histories `h` and committed options `opts`) has
what is asked for, and no other. -/
structure ServerAnswers (E : ParseEnv) (h : Store) (opts : List (Int × ParsingOptions)) (db : PyStr) (s : Server) : Prop where
  /-- `term_query` and `range_query` -/
  asked : ∀ (Q : QueryEnv) (field : PyStr) (k : Asked), k.Bounded → ∃ q, k.query Q field = .ok q ∧
    ∀ v, (askedIds (s.ask Q db (.version v) q)).Nodup ∧ ∀ id, id ∈ askedIds (s.ask Q db (.version v) q) ↔
      HoldsAsOf h opts v id (fun a o => HasInField a field (k.holds Q E o))
  /-- `match_query` -/
  text : ∀ (Q : QueryEnv) (query : PyStr) (field : Option PyStr) (every : Bool) (v : Int),
    (askedIds (s.ask Q db (.version v) (.match_ (matchQuery query field every)))).Nodup ∧
    ∀ id, id ∈ askedIds (s.ask Q db (.version v) (.match_ (matchQuery query field every))) ↔
      HoldsAsOf h opts v id (fun a o => MatchesText Q.analyse every query (IsTextOf E o a field))
  /-- `exists_query` -/
  values : E.PlacesHaveValues → ∀ (Q : QueryEnv) (field : PyStr), (∀ k ∈ splitDots field, FieldName k) → ∀ v,
    (askedIds (s.ask Q db (.version v) (.exists_ (existsQuery field)))).Nodup ∧
    ∀ id, id ∈ askedIds (s.ask Q db (.version v) (.exists_ (existsQuery field))) ↔
      (h id).pending = none ∧ ∃ a, AsOf (h id).committed v a ∧ ∃ p x, fieldPath p = field ∧ getAt p (.dict a) = some x ∧ HasValue x
  /-- `has_geo` -/
  places : ∀ (Q : QueryEnv) (v : Int), (askedIds (s.ask Q db (.version v) (.exists_ hasGeo))).Nodup ∧
    ∀ id, id ∈ askedIds (s.ask Q db (.version v) (.exists_ hasGeo)) ↔ HoldsAsOf h opts v id (fun a o => ∃ p g, PlaceAt E o a p g)

/-- **C106**, as it should be: after a sync that succeeds, queries find the records whose data as of the version has what is asked for. -/
def C106_full : Prop := ∀ (E : ParseEnv), E.IgnoresOrder → E.ScalarHints → ∀ (F : FloatText) (S : EsEnv), PlacesOk E S → S.NotLonger →
  ∀ (U : Unicode), U.Sane → ∀ (maxDocs chunkSize : Nat), 1 ≤ chunkSize → ∀ (db : PyStr), '*' ∉ db → ∀ (calls : List ApiCall),
    Orderly calls → (∃ v, IsVersion (afterCalls U db calls) db v) →
    (∀ x ∈ committedOptionsOf db (afterCalls U db calls), 0 ≤ x.2.keywordLength) →
    ∀ s, Server.sync E F S maxDocs chunkSize db false (afterCalls U db calls) [] = .ok s →
      ServerAnswers E (ingested U db calls) (committedOptionsOf db (afterCalls U db calls)) db s

/-- **C106** for one document: after it was taken by an index whose types are regular, the queries of the API match it by its entries if and only if
they match it by the names of its fields. -/
theorem C106_document (E : ParseEnv) (hE : E.IgnoresOrder) (S : EsEnv) (Q : QueryEnv) (opts : ParsingOptions → Prop) (doc : Doc ParsedData)
    (hd : MadeFrom E opts doc.parsed) (m m' : Mapping) (hm : mapDoc S m (sentDict doc.toDict) = some m') (hr : RegularMapping m') (q : EsQuery)
    (hq : q.Made) (hV : q.AsksValues → E.PlacesHaveValues) :
    q.matchesIn Q m' (sentDict doc.toDict) = q.matches Q doc.parsed.parsed := by
  rw [matchesIn_eq hr (docIn_made hE hd (mapDoc_covered _ hm).2) Q hq, matches_sent hE Q hd hV hq]

/-- **C106**: after any calls of `sync`, `sync(resync=True)` and `resync_arcs`, each after any calls of the API, all searches with queries of the API
find by entries the documents that they find by names in the model of the other properties. -/
theorem C106_calls (E : ParseEnv) (hE : E.IgnoresOrder) (hS : E.ScalarHints) (F : FloatText) (S : EsEnv) (hP : PlacesOk E S) (hl : S.NotLonger)
    (hL : LeavesOk E (fun v => IntFits v ∧ FloatFits F v)) (U : Unicode) (hU : U.Sane) (maxDocs chunkSize : Nat) (hc : 1 ≤ chunkSize)
    (db : PyStr) (hdb : '*' ∉ db) (hpl : PlainStr db) (fields : List (List PyStr)) (hf : fields.length ≤ 443) (cs : List (SyncCall × List ApiCall))
    (hcs : ∀ c ∈ cs, Orderly c.2 ∧ (∃ v, IsVersion (afterCalls U db c.2) db v) ∧ Sendable E F fields db (afterCalls U db c.2))
    (es : ES (Option ParsedData)) (h : runInOrder (realParser E) maxDocs db [] (cs.map (fun c => (c.1, afterCalls U db c.2))) = .ok es) :
    ∃ s, Server.calls E F S maxDocs chunkSize db [] (cs.map (fun c => (c.1, afterCalls U db c.2))) = .ok s ∧
      ∀ (Q : QueryEnv) (q : EsQuery), q.Made → (q.AsksValues → E.PlacesHaveValues) → ∀ at_,
        (s.ask Q db at_ q).map some = (es.searchFor Q at_ q).map Doc.json := by
  obtain ⟨s, h1, h2⟩ := calls_shows (S := S) hP hl hf hdb hpl hc (cs := cs.map (fun c => (c.1, afterCalls U db c.2))) (fun cm hcm => by
    obtain ⟨c, hm, rfl⟩ := List.mem_map.1 hcm
    obtain ⟨g1, g2, g3⟩ := hcs c hm
    exact syncGood hS hL hU g1 g2 g3 maxDocs) (Shows.mk (es := []) (s := []) List.nodup_nil .nil) h
  exact ⟨s, h1, fun Q q hq hV at_ => sentAs_map (h2.ask hdb hE Q hV hq at_)⟩

theorem geo_not_values {P : Prop} : (EsQuery.exists_ hasGeo).AsksValues → P := by
  rintro ⟨field, e⟩
  have e : hasGeo = existsQuery field := EsQuery.exists_.inj e
  have : hasGeo.head? = (existsQuery field).head? := by rw [← e]
  exact absurd this (by show ¬ some 'a' = some 'd'; decide)

theorem query_made {Q : QueryEnv} {field : PyStr} {k : Asked} (hb : k.Bounded) {q : EsQuery} (h : k.query Q field = .ok q) :
    q.Made ∧ (q.AsksValues → False) := by
  obtain ⟨q', t, h1, h2, _⟩ := k.query_ok Q field hb
  rw [h] at h1
  cases h1
  cases h2 with
  | term _ _ v ht => exact ⟨.term _ _ v ht, fun ⟨_, e⟩ => nomatch e⟩
  | range _ _ b ht => exact ⟨.range _ _ b ht, fun ⟨_, e⟩ => nomatch e⟩

theorem server_answers {E : ParseEnv} (hE : E.IgnoresOrder) {fields : List (List PyStr)} {db : PyStr} (hdb : '*' ∉ db) {h : Store}
    {opts : List (Int × ParsingOptions)} (hk : ∀ x ∈ opts, 0 ≤ x.2.keywordLength) {es : ES (Option ParsedData)} {s : Server} (hs : Shows E db fields es s)
    (ha : AnswersQueries E h opts es) : ServerAnswers E h opts db s where
  asked Q field k hb := by
    obtain ⟨q, h1, h2⟩ := ha.asked hk Q field k hb
    obtain ⟨g1, g2⟩ := query_made hb h1
    refine ⟨q, h1, fun v => ?_⟩
    rw [askedIds_eq (hs.ask hdb hE Q (fun e => (g2 e).elim) g1 _)]
    exact h2 v
  text Q query field every v := by
    rw [askedIds_eq (hs.ask hdb hE Q (fun ⟨_, e⟩ => nomatch e) (.match_ query field every) _)]
    exact ha.text Q query field every v
  values hV Q field hf v := by
    rw [askedIds_eq (hs.ask hdb hE Q (fun _ => hV) (.exists_ field hf) _)]
    exact ha.values hV Q field hf v
  places Q v := by
    rw [askedIds_eq (hs.ask hdb hE Q geo_not_values .hasGeo _)]
    exact ha.places Q v

/-- **C106** (what holds) after one sync, if all data can be sent and is taken (`Sendable`, see C102) and no two data given for a record hold equal but
different scalars at the same place. Missing: what is not sendable, and such data (`C106_refuted`). -/
theorem C106_first_sync_partial (E : ParseEnv) (hE : E.IgnoresOrder) (hS : E.ScalarHints) (F : FloatText) (S : EsEnv) (hP : PlacesOk E S)
    (hl : S.NotLonger) (hL : LeavesOk E (fun v => IntFits v ∧ FloatFits F v)) (U : Unicode) (hU : U.Sane) (maxDocs chunkSize : Nat)
    (hc : 1 ≤ chunkSize) (db : PyStr) (hdb : '*' ∉ db) (hpl : PlainStr db) (calls : List ApiCall) (ho : Orderly calls)
    (hv : ∃ v, IsVersion (afterCalls U db calls) db v) (fields : List (List PyStr)) (hn : fields.length ≤ 443)
    (hs : Sendable E F fields db (afterCalls U db calls)) (hp : NoPunsAmong U (calls.flatMap ApiCall.stream)) :
    ∃ s, Server.sync E F S maxDocs chunkSize db false (afterCalls U db calls) [] = .ok s ∧
      ServerAnswers E (ingested U db calls) (committedOptionsOf db (afterCalls U db calls)) db s := by
  obtain ⟨es, hi, h1, g1, g2, g3, g4⟩ := setup_first E U hU maxDocs db calls ho hv hp
  obtain ⟨s, h3, h4⟩ := sync_shows (S := S) hP hl hn hdb hpl hc (syncGood hS hL hU ho hv hs maxDocs) (Shows.mk (es := []) (s := []) List.nodup_nil .nil) h1
  exact ⟨s, h3, server_answers hE hdb (fun x hx => (hs.options x hx).1) h4 (answers_of_life hE hS g1 g2 g3 g4)⟩

/-- **C106** (what holds) after any calls and syncs between them, under the conditions of `C102_syncs_partial`. Missing: as there and in
`C106_first_sync_partial`. -/
theorem C106_syncs_partial (E : ParseEnv) (hE : E.IgnoresOrder) (hS : E.ScalarHints) (F : FloatText) (S : EsEnv) (hP : PlacesOk E S)
    (hl : S.NotLonger) (hL : LeavesOk E (fun v => IntFits v ∧ FloatFits F v)) (U : Unicode) (hU : U.Sane) (maxDocs chunkSize : Nat)
    (hc : 1 ≤ chunkSize) (db : PyStr) (hdb : '*' ∉ db) (hpl : PlainStr db) (first : List ApiCall) (parts : List (List ApiCall))
    (ho : Orderly (first ++ parts.flatten)) (hv : ∃ v, IsVersion (afterCalls U db first) db v)
    (he : EachPart (NoUpdateDelete db) U db first parts) (hp : ∀ m ∈ statesOf U db first parts, NoPending db m)
    (hn : NoPunsAmong U ((first ++ parts.flatten).flatMap ApiCall.stream)) (fields : List (List PyStr)) (hf : fields.length ≤ 443)
    (hs : ∀ m ∈ statesOf U db first parts, Sendable E F fields db m) :
    ∃ s, Server.syncs E F S maxDocs chunkSize db [] (statesOf U db first parts) = .ok s ∧
      ServerAnswers E (ingested U db (first ++ parts.flatten)) (committedOptionsOf db (afterCalls U db (first ++ parts.flatten))) db s := by
  obtain ⟨es, hi, h1, g1, g2, g3, g4, _⟩ := setup_syncs E hE U hU maxDocs db first parts ho hv he hp hn
  have hg : ∀ m ∈ statesOf U db first parts, SyncGood E F fields maxDocs db m := by
    intro m hm
    have hok := life_dbOks parts first ho hv m hm
    obtain ⟨calls, rfl, hcalls⟩ := states_calls parts first ho m hm
    exact syncGood hS hL hU hcalls hok.isVersion (hs _ hm) maxDocs
  obtain ⟨s, h3, h4⟩ := syncs_shows (S := S) hP hl hf hdb hpl hc hg (Shows.mk (es := []) (s := []) List.nodup_nil .nil) h1
  have hlast : afterCalls U db (first ++ parts.flatten) ∈ statesOf U db first parts := by
    obtain ⟨ms, hms⟩ := statesOf_getLast U db parts first
    rw [hms]
    simp
  exact ⟨s, h3, server_answers hE hdb (fun x hx => ((hs _ hlast).options x hx).1) h4 (answers_of_life hE hS g1 g2 g3 g4)⟩

set_option maxRecDepth 100000 in
/-- **C106 does not hold in full**: the older version of the record of C77 is indexed with `True` instead of `1` (C68), so
`term_query("x", True)` finds it. -/
theorem C106_refuted : ¬ C106_full := by
  intro h
  have hv : ∃ d ∈ (afterCalls asciiU ['x'] exFilterPun).options, d.name = ['x'] ∧ d.version = some 1 := by decide +kernel
  have e : (match Server.sync exEnv' exFloats exEs 10 10 ['x'] false (afterCalls asciiU ['x'] exFilterPun) [] with
    | .ok s => askedIds (s.ask exQuery ['x'] (.version 2) (.term ⟨parsedPath ['x'] .boolean, .bool true⟩))
    | .error _ => []) = [['a']] := by decide +kernel
  cases h1 : Server.sync exEnv' exFloats exEs 10 10 ['x'] false (afterCalls asciiU ['x'] exFilterPun) [] with
  | error e' => rw [h1] at e; cases e
  | ok s =>
    rw [h1] at e
    have h2 := h exEnv' exEnv'_order exEnv'_scalar exFloats exEs (exEs_places _) exEs_lower asciiU asciiU_sane 10 10 (by decide) ['x'] (by decide)
      exFilterPun exFilterPun_orderly ⟨1, .inr hv⟩ (by decide +kernel) s h1
    obtain ⟨q, hq, h3⟩ := h2.asked exQuery ['x'] (.boolean true) trivial
    cases hq
    refine exFilterPun_not (((h3 2).2 ['a']).1 ?_)
    show ['a'] ∈ askedIds (s.ask exQuery ['x'] (.version 2) (.term ⟨parsedPath ['x'] .boolean, .bool true⟩))
    have e : askedIds (s.ask exQuery ['x'] (.version 2) (.term ⟨parsedPath ['x'] .boolean, .bool true⟩)) = [['a']] := e
    rw [e]
    simp

/-- The conditions of `C106_first_sync_partial`, `C106_syncs_partial` and `C106_calls` are those of C102 (see there for a case that meets them) and
that no two data given for a record hold equal but different scalars at the same place. -/
example : NoPunsAmong asciiU ((exCalls1 ++ exParts.flatten).flatMap ApiCall.stream) := exCalls_noPuns

/-- Queries that the API makes. -/
example : (Asked.number (.int 2)).Bounded ∧ (Asked.number (.int 2)).query exQuery ['x'] = .ok (.term ⟨parsedPath ['x'] .number, .int 2⟩) ∧
    (EsQuery.term ⟨parsedPath ['x'] .number, .int 2⟩).Made ∧ (∀ k ∈ splitDots "x.y".toList, FieldName k) :=
  ⟨trivial, rfl, .term _ _ _ (.inr (.inl rfl)), by
    intro k hk
    have : k = ['x'] ∨ k = ['y'] := by simpa [splitDots] using hk
    rcases this with rfl | rfl <;> exact ⟨by decide, by decide, by decide⟩⟩

set_option maxRecDepth 100000 in
/-- The entries of the documents of the newest index after a sync of these calls: for each value one for each type, and the copies of the texts. -/
example : (match Server.sync exEnv' exFloats1 exEs 10 10 ['x'] false (afterCalls asciiU ['x'] (exCalls1 ++ exParts.flatten)) [] with
    | .ok s => (s.filter (fun x => decide (x.1 = indexName ['x'] .latest))).flatMap (fun x => x.2.docs.flatMap (fun d =>
        (indexEntries x.2.mapping d.2).filter (fun e => decide (e.1 = "data.x._n".toList) || decide (e.1 = "data.x._t".toList) ||
          decide (e.1 = "data.x._u".toList) || decide (e.1 = "all_text".toList))))
    | .error _ => []) =
    [("data.x._n".toList, .int 2), ("data.x._t".toList, .str ['2']), ("all_text".toList, .str ['a']), ("all_text".toList, .str ['2'])] := by
  decide +kernel

set_option maxRecDepth 100000 in
/-- What queries find after it: `term_query("x", 5)` at version 1, `range_query("x", gte=1)` at 2 and 3, `exists_query("x")` at 2 and
`match_query("2")` at 4. -/
example : (match Server.sync exEnv' exFloats1 exEs 10 10 ['x'] false (afterCalls asciiU ['x'] (exCalls1 ++ exParts.flatten)) [] with
    | .ok s => [askedIds (s.ask exQuery ['x'] (.version 1) (.term ⟨parsedPath ['x'] .number, .int 5⟩)),
        askedIds (s.ask exQuery ['x'] (.version 2) (.range ⟨parsedPath ['x'] .number, { gte := some (.int 1) }⟩)),
        askedIds (s.ask exQuery ['x'] (.version 3) (.range ⟨parsedPath ['x'] .number, { gte := some (.int 1) }⟩)),
        askedIds (s.ask exQuery ['x'] (.version 2) (.exists_ (existsQuery ['x']))),
        askedIds (s.ask exQuery ['x'] (.version 4) (.match_ (matchQuery ['2'] none)))]
    | .error _ => []) = [[['b']], [['b'], ['a']], [['a']], [['b'], ['a']], [['a']]] := by decide +kernel

end Splitgill.Props
