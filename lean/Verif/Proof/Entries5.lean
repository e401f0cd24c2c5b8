import Verif.Proof.Wire2
/-!
# Lemmas: searches with a query in the indices of Elasticsearch
-/

namespace Splitgill

variable {E : ParseEnv} {fields : List (List PyStr)} {db : PyStr} {es : ES (Option ParsedData)} {s : Server}

theorem SentIn.finds (hE : E.IgnoresOrder) (Q : QueryEnv) {m : Mapping} (hm : RegularMapping m) {q : EsQuery}
    (hV : q.AsksValues → E.PlacesHaveValues) (hq : q.Made)
    {d : Doc (Option ParsedData)} {e : Dict} (h : SentIn E m d e) : q.finds Q d = q.matchesIn Q m e := by
  obtain ⟨p, h1, rfl, h2, h3⟩ := h
  rw [matchesIn_eq hm (docIn_made hE h2 h3) Q hq, matches_sent hE Q h2 hV hq]
  obtain ⟨x, h4, rfl⟩ := Option.map_eq_some_iff.1 h1
  unfold EsQuery.finds
  rw [h4]

/-- The document, sent to an index with regular types. -/
def FoundIn (E : ParseEnv) (d : Doc (Option ParsedData)) (x : Mapping × Dict) : Prop := RegularMapping x.1 ∧ SentIn E x.1 d x.2

theorem hitsIn_rel (h : Related (indexName db) (IndexShows E fields) es s) :
    List.Forall₂ (FoundIn E) (es.flatMap (fun x => x.2.map Prod.snd)) (s.flatMap (fun x => x.2.docs.map (fun d => (x.2.mapping, d.2)))) := by
  induction h with
  | nil => exact .nil
  | @cons x y a b hxy h ih =>
    rw [List.flatMap_cons, List.flatMap_cons]
    refine List.rel_append ?_ ih
    rw [List.forall₂_map_left_iff, List.forall₂_map_right_iff]
    exact hxy.2.2.imp (fun _ _ e => ⟨hxy.2.1.regular, e.2⟩)

theorem Shows.hitsIn_all (h : Shows E db fields es s) (hdb : '*' ∉ db) : List.Forall₂ (FoundIn E) es.all (s.hitsIn (wildcardName db)) := by
  unfold ES.all Server.hitsIn
  have := forall₂_filter (p := fun _ => true) (q := fun x : PyStr × JsonIndex => glob (wildcardName db) x.1)
    (fun x y e => by rw [e.1, wildcard_self hdb]) h.rel
  rw [List.filter_eq_self.2 (fun _ _ => rfl)] at this
  exact hitsIn_rel this

theorem Shows.hitsIn_latest (h : Shows E db fields es s) (hdb : '*' ∉ db) :
    List.Forall₂ (FoundIn E) ((es.docs .latest).map Prod.snd) (s.hitsIn (indexName db .latest)) := by
  rw [← latest_docs h.nodup]
  exact hitsIn_rel (forall₂_filter (fun x y e => by rw [e.1, latest_self hdb]) h.rel)

theorem Shows.foundIn (h : Shows E db fields es s) (hdb : '*' ∉ db) (at_ : SearchAt) :
    List.Forall₂ (FoundIn E) (found es at_) (s.foundIn db at_) := by
  have hf : ∀ v, List.Forall₂ (FoundIn E) (es.all.filter (fun d => d.inRange v))
      ((s.hitsIn (wildcardName db)).filter (fun x => versionQuery v x.2)) := fun v =>
    forall₂_filter (fun x y e => (e.2.sentAs.read.2.2.2.1 v).symm) (h.hitsIn_all hdb)
  cases at_ with
  | latest => exact h.hitsIn_latest hdb
  | all => exact h.hitsIn_all hdb
  | version v =>
    unfold found ES.search Server.foundIn
    dsimp only
    rw [h.version hdb]
    cases es.version with
    | none => exact hf v
    | some c =>
      dsimp only
      split
      · exact h.hitsIn_latest hdb
      · exact hf v

/-- A search with a query finds the same. -/
theorem Shows.askIn (h : Shows E db fields es s) (hdb : '*' ∉ db) (hE : E.IgnoresOrder) (Q : QueryEnv) (q : Option EsQuery)
    (hq : ∀ x, q = some x → x.Made ∧ (x.AsksValues → E.PlacesHaveValues)) (at_ : SearchAt) :
    List.Forall₂ (FoundIn E) (match (generalizing := false) q with | some q => es.searchFor Q at_ q | none => (es.search at_).run es) (s.askIn Q db at_ q) := by
  cases q with
  | none => exact h.foundIn hdb at_
  | some q => exact forall₂_filter (fun x y e => e.2.finds hE Q e.1 (hq q rfl).2 (hq q rfl).1) (h.foundIn hdb at_)

theorem Shows.ask (h : Shows E db fields es s) (hdb : '*' ∉ db) (hE : E.IgnoresOrder) (Q : QueryEnv) {q : EsQuery}
    (hV : q.AsksValues → E.PlacesHaveValues) (hq : q.Made) (at_ : SearchAt) : List.Forall₂ SentAs (es.searchFor Q at_ q) (s.ask Q db at_ q) := by
  unfold Server.ask
  rw [List.forall₂_map_right_iff]
  exact (h.askIn hdb hE Q (some q) (fun x e => by cases e; exact ⟨hq, hV⟩) at_).imp (fun _ _ e => e.2.sentAs)

theorem SentAs.id {d : Doc (Option ParsedData)} {e : Dict} (h : SentAs d e) : aget "id".toList e = some (.str d.id) := h.read.1

theorem askedIds_eq {l : List (Doc (Option ParsedData))} {k : List Dict} (h : List.Forall₂ SentAs l k) : askedIds k = foundIds l := by
  unfold askedIds foundIds
  induction h with
  | nil => rfl
  | cons h1 h2 ih => rw [List.filterMap_cons, h1.id, List.map_cons, ih]

/-! ## Aggregations -/

theorem entries_data_path {m : Mapping} {doc : Doc ParsedData} (hm : RegularMapping m) (hd : DocIn m doc) {q : PyStr} {x : Value}
    (h : (q, x) ∈ entries m "data".toList (.dict (sentDict doc.parsed.parsed))) (hq : q ∈ outerFields) : False := by
  have hmem : ("data".toList, Value.dict (sentDict doc.parsed.parsed)) ∈ sentDict doc.toDict := by
    rw [toDict_items]; simp
  obtain ⟨ks, t, _, h1, _⟩ := (entryAt_iff hd.shaped).1 ((mem_entries_data hm hd.shaped hd.wf (hd.covered _ _ hmem) q x).1 h)
  cases ks with
  | nil => exact outer_no_data hq t.name [] h1
  | cons a r => exact outer_no_data hq a (r ++ [t.name]) h1

theorem entriesElems_strs {m : Mapping} {path : PyStr} {b : Bool} (h : aget path m = some (.keyword b)) : ∀ l : List PyStr,
    entriesElems m path (sentList (l.map Value.str)) = l.map (fun s => (path, Value.str s))
  | [] => rfl
  | s :: l => by
    rw [List.map_cons, sentList, entriesElems, entriesElems_strs h l]
    show leafEntries m path (.str s) ++ _ = _
    unfold leafEntries
    rw [h]
    rfl

theorem no_copies {α : Type} (m : Mapping) (d : Dict) {path : PyStr} (hp : path ∈ outerFields) (f : Value → Option α) :
    ((ownEntries m d).filterMap (fun e => ((aget e.1 m).bind EsType.copyTo).map (fun target => (target, e.2)))).filterMap
      (fun e => if e.1 = path then f e.2 else none) = [] := by
  rw [List.filterMap_eq_nil_iff]
  rintro ⟨q, x⟩ hx
  obtain ⟨_, _, _, _, g3⟩ := mem_copies.1 hx
  rw [if_neg]
  intro e
  replace e : q = path := e
  subst e
  rcases copyTo_name g3 with ⟨_, rfl⟩ | ⟨_, rfl⟩ | ⟨_, rfl⟩
  · exact absurd hp (by decide)
  · exact absurd hp (by decide)
  · exact absurd hp (by decide)

theorem no_data_entries {α : Type} {m : Mapping} {doc : Doc ParsedData} (hm : RegularMapping m) (hd : DocIn m doc) {path : PyStr} (hp : path ∈ outerFields)
    (f : Value → Option α) :
    (entries m "data".toList (.dict (sentDict doc.parsed.parsed))).filterMap (fun e => if e.1 = path then f e.2 else none) = [] := by
  rw [List.filterMap_eq_nil_iff]
  rintro ⟨q, x⟩ hx
  rw [if_neg]
  intro e
  replace e : q = path := e
  subst e
  exact entries_data_path hm hd hx hp

/-- The entries of a document outside of its data. -/
def outerEntries (doc : Doc ParsedData) : List (PyStr × Value) :=
  [("id".toList, .str doc.id)] ++ ([("version".toList, .int doc.version)] ++ (doc.parsed.dataTypes.map (fun s => ("data_types".toList, Value.str s)) ++
    (doc.parsed.parsedTypes.map (fun s => ("parsed_types".toList, Value.str s)) ++ doc.next.toList.map (fun v => ("next".toList, Value.int v)))))

theorem toDict_items' (doc : Doc ParsedData) : sentDict doc.toDict = ("id".toList, .str doc.id) :: ("version".toList, .int doc.version) ::
      ("versions".toList, .dict (("gte".toList, .int doc.gte) :: doc.lt.toList.map (fun v => ("lt".toList, Value.int v)))) ::
      ("data".toList, .dict (sentDict doc.parsed.parsed)) ::
      ("data_types".toList, .list (sentList (doc.parsed.dataTypes.map Value.str))) ::
      ("parsed_types".toList, .list (sentList (doc.parsed.parsedTypes.map Value.str))) ::
      doc.next.toList.map (fun v => ("next".toList, Value.int v)) := by
  obtain ⟨id, version, gte, lt, next, parsed⟩ := doc
  cases lt <;> cases next <;> rfl

/-- What is read at a field outside of the data. -/
theorem read_outer {α : Type} {m : Mapping} {doc : Doc ParsedData} (hm : RegularMapping m) (hd : DocIn m doc) {path : PyStr} (hp : path ∈ outerFields)
    (f : Value → Option α) :
    (indexEntries m (sentDict doc.toDict)).filterMap (fun e => if e.1 = path then f e.2 else none) =
      (outerEntries doc).filterMap (fun e => if e.1 = path then f e.2 else none) := by
  have hver : ∀ v : Dict, entries m "versions".toList (.dict v) = [] := by
    intro v
    rw [entries, hm.initial "versions".toList .dateRange (by decide)]
  have i1 : ∀ s, entries m "id".toList (.str s) = [("id".toList, .str s)] := fun s => by
    show leafEntries m _ _ = _
    unfold leafEntries
    rw [hm.initial "id".toList (.keyword false) (by decide)]
  have i2 : ∀ i, entries m "version".toList (.int i) = [("version".toList, .int i)] := fun s => by
    show leafEntries m _ _ = _
    unfold leafEntries
    rw [hm.initial "version".toList .date (by decide)]
  have i3 : ∀ i, entries m "next".toList (.int i) = [("next".toList, .int i)] := fun s => by
    show leafEntries m _ _ = _
    unfold leafEntries
    rw [hm.initial "next".toList .date (by decide)]
  have i4 : ∀ l : List PyStr, entries m "data_types".toList (.list (sentList (l.map Value.str))) = l.map (fun s => ("data_types".toList, Value.str s)) := fun l => by
    rw [entries, entriesElems_strs (hm.initial "data_types".toList (.keyword false) (by decide))]
  have i5 : ∀ l : List PyStr, entries m "parsed_types".toList (.list (sentList (l.map Value.str))) = l.map (fun s => ("parsed_types".toList, Value.str s)) := fun l => by
    rw [entries, entriesElems_strs (hm.initial "parsed_types".toList (.keyword false) (by decide))]
  have i6 : (doc.next.toList.map (fun v => ("next".toList, Value.int v))).flatMap (fun kv : PyStr × Value => entries m kv.1 kv.2) =
      doc.next.toList.map (fun v => ("next".toList, Value.int v)) := by
    cases doc.next with
    | none => rfl
    | some v =>
      show entries m "next".toList (.int v) ++ [] = _
      rw [i3]
      rfl
  unfold indexEntries
  rw [List.filterMap_append, no_copies m _ hp, List.append_nil]
  unfold ownEntries outerEntries
  rw [toDict_items']
  rw [List.flatMap_cons, List.flatMap_cons, List.flatMap_cons, List.flatMap_cons, List.flatMap_cons, List.flatMap_cons, i6]
  dsimp only
  rw [i1, i2, hver, i4, i5]
  simp only [List.filterMap_append, no_data_entries hm hd hp, List.filterMap_nil, List.nil_append]

theorem read_none {α β : Type} {path k : PyStr} (h : k ≠ path) (g : β → Value) (f : Value → Option α) (l : List β) :
    (l.map (fun x => (k, g x))).filterMap (fun e => if e.1 = path then f e.2 else none) = [] := by
  rw [List.filterMap_map, List.filterMap_eq_nil_iff]
  intro x _
  exact if_neg h

theorem read_some {α : Type} {path : PyStr} (g : α → Value) (f : Value → Option α) (h : ∀ x, f (g x) = some x) (l : List α) :
    (l.map (fun x => (path, g x))).filterMap (fun e => if e.1 = path then f e.2 else none) = l := by
  induction l with
  | nil => rfl
  | cons x l ih => rw [List.map_cons, List.filterMap_cons, if_pos rfl, h, ih]

variable {m : Mapping} {doc : Doc ParsedData}

theorem datesAt_version (hm : RegularMapping m) (hd : DocIn m doc) : datesAt "version".toList (m, sentDict doc.toDict) = [doc.version] := by
  unfold datesAt
  rw [read_outer hm hd (by decide)]
  unfold outerEntries
  rw [List.filterMap_append, List.filterMap_append, List.filterMap_append, List.filterMap_append, read_none (by decide), read_none (by decide),
    read_none (by decide)]
  rfl

theorem datesAt_next (hm : RegularMapping m) (hd : DocIn m doc) : datesAt "next".toList (m, sentDict doc.toDict) = doc.next.toList := by
  unfold datesAt
  rw [read_outer hm hd (by decide)]
  unfold outerEntries
  rw [List.filterMap_append, List.filterMap_append, List.filterMap_append, List.filterMap_append, read_none (by decide), read_none (by decide),
    read_some Value.int esDate (fun _ => rfl)]
  rfl

theorem keywordsAt_data (hm : RegularMapping m) (hd : DocIn m doc) :
    keywordsAt "data_types".toList (m, sentDict doc.toDict) = doc.parsed.dataTypes := by
  unfold keywordsAt
  rw [read_outer hm hd (by decide)]
  unfold outerEntries
  rw [List.filterMap_append, List.filterMap_append, List.filterMap_append, List.filterMap_append, read_some Value.str plainKeyword (fun _ => rfl),
    read_none (by decide), read_none (by decide)]
  exact List.append_nil _

theorem keywordsAt_parsed (hm : RegularMapping m) (hd : DocIn m doc) :
    keywordsAt "parsed_types".toList (m, sentDict doc.toDict) = doc.parsed.parsedTypes := by
  unfold keywordsAt
  rw [read_outer hm hd (by decide)]
  unfold outerEntries
  rw [List.filterMap_append, List.filterMap_append, List.filterMap_append, List.filterMap_append, read_none (by decide), read_some Value.str plainKeyword (fun _ => rfl),
    read_none (by decide)]
  exact List.append_nil _

theorem FoundIn.read (hE : E.IgnoresOrder) {d : Doc (Option ParsedData)} {x : Mapping × Dict} (h : FoundIn E d x) :
    datesAt "version".toList x = [d.version] ∧ datesAt "next".toList x = d.next.toList ∧ keywordsAt "data_types".toList x = d.dataTypes ∧
      keywordsAt "parsed_types".toList x = d.parsedTypes := by
  obtain ⟨m, e⟩ := x
  obtain ⟨hm, p, h1, h2, h3, h4⟩ := h
  dsimp only at hm h2 h4
  subst h2
  have hd := docIn_made hE h3 h4
  obtain ⟨y, h5, rfl⟩ := Option.map_eq_some_iff.1 h1
  refine ⟨(datesAt_version hm hd).trans rfl, (datesAt_next hm hd).trans rfl, (keywordsAt_data hm hd).trans ?_, (keywordsAt_parsed hm hd).trans ?_⟩
  · unfold Doc.dataTypes; rw [h5]
  · unfold Doc.parsedTypes; rw [h5]

theorem map_read {α : Type} {f : Mapping × Dict → α} {g : Doc (Option ParsedData) → α} (h : ∀ d x, FoundIn E d x → f x = g d)
    {l : List (Doc (Option ParsedData))} {k : List (Mapping × Dict)} (r : List.Forall₂ (FoundIn E) l k) : k.map f = l.map g := by
  induction r with
  | nil => rfl
  | cons h1 _ ih => rw [List.map_cons, List.map_cons, h _ _ h1, ih]

theorem Shows.changedCounts (h : Shows E db fields es s) (hdb : '*' ∉ db) (hE : E.IgnoresOrder) : s.changedCounts db = es.changedCounts := by
  unfold Server.changedCounts ES.changedCounts versionValues nextValues
  dsimp only
  rw [map_read (fun d x e => (e.read hE).1) (h.foundIn hdb .all), map_read (fun d x e => (e.read hE).2.1) (h.foundIn hdb .all)]
  rfl

theorem Shows.versions (h : Shows E db fields es s) (hdb : '*' ∉ db) (hE : E.IgnoresOrder) : s.versions db = es.versions := by
  unfold Server.versions ES.versions
  rw [h.changedCounts hdb hE]

theorem Shows.roundedVersion (h : Shows E db fields es s) (hdb : '*' ∉ db) (hE : E.IgnoresOrder) (v : Int) : s.roundedVersion db v = es.roundedVersion v := by
  unfold Server.roundedVersion ES.roundedVersion
  rw [h.versions hdb hE]
  cases es.versions with
  | none => rfl
  | some l => cases l <;> rfl

theorem Shows.fieldsOfData (h : Shows E db fields es s) (hdb : '*' ∉ db) (hE : E.IgnoresOrder) (Q : QueryEnv) (q : Option EsQuery)
    (hq : ∀ x, q = some x → x.Made ∧ (x.AsksValues → E.PlacesHaveValues)) (at_ : SearchAt) :
    s.fieldsOfData Q db at_ q = es.fieldsOfData Q at_ q := by
  unfold Server.fieldsOfData ES.fieldsOfData
  rw [map_read (fun d x e => (e.read hE).2.2.1) (h.askIn hdb hE Q q hq at_)]
  cases q <;> rfl

theorem Shows.fieldsOfParsed (h : Shows E db fields es s) (hdb : '*' ∉ db) (hE : E.IgnoresOrder) (Q : QueryEnv) (q : Option EsQuery)
    (hq : ∀ x, q = some x → x.Made ∧ (x.AsksValues → E.PlacesHaveValues)) (at_ : SearchAt) :
    s.fieldsOfParsed Q db at_ q = es.fieldsOfParsed Q at_ q := by
  unfold Server.fieldsOfParsed ES.fieldsOfParsed
  rw [map_read (fun d x e => (e.read hE).2.2.2) (h.askIn hdb hE Q q hq at_)]
  cases q <;> rfl

end Splitgill
