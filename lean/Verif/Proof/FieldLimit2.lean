import Verif.Proof.FieldLimit
import Verif.Proof.Canon
import Verif.Proof.Json4
/-!
# Data that needs as many fields as there can be
-/

namespace Splitgill

variable {S : EsEnv} {E : ParseEnv} {o : ParsingOptions}

/-! ## Fields that an index has afterwards -/

theorem mem_akeys_of_aget {q : PyStr} {t : EsType} {m : Mapping} (h : aget q m = some t) : q ∈ akeys m := mem_akeys_of_mem (aget_mem h)

theorem Adds.mem {m m' : Mapping} {l : List PyStr} (h : Adds m m' l) {q : PyStr} (hq : q ∈ akeys m) : q ∈ akeys m' := by
  cases hg : aget q m with
  | none => exact absurd hq (aget_eq_none_iff.1 hg)
  | some t => exact mem_akeys_of_aget (h.mono q t hg)

theorem mapLeaf_has {path : PyStr} {m m' : Mapping} {v : Value} (h : mapLeaf S path m v = some m') : path ∈ akeys m' := by
  unfold mapLeaf at h
  split at h
  · rename_i hg
    cases h; exact mem_akeys_of_aget hg
  · rename_i hg
    split at h
    · cases h; exact mem_akeys_of_aget hg
    · cases h
  · split at h
    · cases h
    · cases h; exact mem_akeys_aset.2 (.inl rfl)
    · split at h
      · cases h; exact mem_akeys_aset.2 (.inl rfl)
      · cases h

theorem mapValue_leaf_has {path : PyStr} {m m' : Mapping} {v : Value} (hv : isLeaf v) (hn : v ≠ .none) (h : mapValue S path m v = some m') :
    path ∈ akeys m' := by
  cases v with
  | none => exact absurd rfl hn
  | dict _ => exact absurd hv id
  | list _ => exact absurd hv id
  | bool b => rw [mapValue] at h; exact mapLeaf_has h
  | int b => rw [mapValue] at h; exact mapLeaf_has h
  | float b => rw [mapValue] at h; exact mapLeaf_has h
  | str b => rw [mapValue] at h; exact mapLeaf_has h

/-- One of the items is mapped on the way. -/
theorem mapItems_item {path : PyStr} : ∀ {d : Dict} {m m' : Mapping}, mapItems S path m d = some m' → ∀ {k v}, (k, v) ∈ d →
    ∃ m1 m2 l, mapValue S (dotted path k) m1 v = some m2 ∧ Adds m2 m' l
  | [], _, _, _, _, _, hm => by cases hm
  | (k', v') :: r, m, m', h, k, v, hm => by
    rw [mapItems] at h
    split at h
    · cases h
    · rename_i m2 hv
      rcases List.mem_cons.1 hm with e | hm
      · cases e
        exact ⟨m, m2, _, hv, mapItems_adds h⟩
      · exact mapItems_item h hm

theorem mapDoc_item : ∀ {d : Dict} {m m' : Mapping}, mapDoc S m d = some m' → (∃ l, Adds m m' l) ∧ ∀ {k v}, (k, v) ∈ d →
    ∃ m1 m2 l, mapValue S k m1 v = some m2 ∧ Adds m2 m' l
  | [], m, m', h => by cases h; exact ⟨⟨[], .refl _ _⟩, fun hm => nomatch hm⟩
  | (k', v') :: r, m, m', h => by
    rw [mapDoc] at h
    split at h
    · cases h
    · rename_i m2 hv
      obtain ⟨⟨l, h1⟩, h2⟩ := mapDoc_item h
      refine ⟨⟨_, (mapValue_adds hv).trans h1⟩, fun {k v} hm => ?_⟩
      rcases List.mem_cons.1 hm with e | hm
      · cases e
        exact ⟨m, m2, _, hv, h1⟩
      · exact h2 hm

/-- An object is mapped: its field is there, and its items are mapped. -/
theorem mapValue_object {path : PyStr} {m m' m'' : Mapping} {l : List PyStr} {d : Dict} (h : mapValue S path m (.dict d) = some m') (ha : Adds m' m'' l)
    (ho : ∀ t, aget path m'' = some t → t = .object) (hd : dynamicType path = none) :
    path ∈ akeys m' ∧ ∃ m1, mapItems S path m1 d = some m' := by
  have hk := mapValue_adds h
  rw [mapValue] at h
  split at h
  · rename_i hg
    exact ⟨mem_akeys_of_aget (hk.mono _ _ hg), m, h⟩
  · rename_i hg
    have := ho _ (ha.mono _ _ (hk.mono _ _ hg))
    cases this
  · rename_i hg
    have := ho _ (ha.mono _ _ (hk.mono _ _ hg))
    cases this
  · cases h
  · rw [hd] at h
    exact ⟨(mapItems_adds h).mem (mem_akeys_aset.2 (.inl rfl)), _, h⟩

/-! ## Data with the same value in all fields -/

theorem parseItems_same {x y : Value} {dts pts : List PyStr} (hx : parseInner E o false x = .ok ⟨some y, dts, pts⟩) :
    ∀ (ks : List PyStr) (z : PResult Dict), parseItems E o (uniformData x ks) = .ok z → z.parsed = uniformData y ks
  | [], z, h => by cases h; rfl
  | k :: ks, z, h => by
    unfold uniformData at h
    rw [List.map_cons, parseItems, hx] at h
    dsimp only at h
    cases hr : parseItems E o (List.map (fun k => (k, x)) ks) with
    | error _ => rw [hr] at h; cases h
    | ok w =>
      rw [hr] at h
      cases h
      have := parseItems_same hx ks w hr
      dsimp only
      rw [this]
      rfl

theorem akeys_same (x : Value) (ks : List PyStr) : akeys (uniformData x ks) = ks := by
  unfold uniformData akeys
  rw [List.map_map]
  exact List.map_id' ks

theorem aget_same {x : Value} {ks : List PyStr} {k : PyStr} (hn : ks.Nodup) (hk : k ∈ ks) : aget k (uniformData x ks) = some x :=
  aget_of_mem (by rw [akeys_same]; exact hn) (List.mem_map_of_mem (f := fun k => (k, x)) hk)

theorem parse_same {x y : Value} {dts pts : List PyStr} (hx : parseInner E o false x = .ok ⟨some y, dts, pts⟩) (hh : o.geoHints = []) {ks : List PyStr}
    (hn : ks.Nodup) {p : ParsedData} (h : (realParser E).parse (uniformData x ks) o = some p) {k : PyStr} (hk : k ∈ ks) :
    (k, (canon y).sent) ∈ sentDict p.parsed := by
  simp only [realParser] at h
  split at h
  · rename_i z hz
    cases h
    obtain ⟨w, hw, e, _⟩ := parse_ok hz
    obtain ⟨items, hi, ha⟩ := parseDict_ok hw
    have h1 := parseItems_same hx ks items hi
    unfold assembleDict matchHints at ha
    rw [hh] at ha
    cases ha
    dsimp only at e ⊢
    rw [← e, sentDict_map]
    refine List.mem_map.2 ⟨(k, canon y), (canonDict_perm _).mem_iff.2 (List.mem_map.2 ⟨(k, y), ?_, rfl⟩), rfl⟩
    refine aget_mem ?_
    rw [h1, aget_aupdate _ _ _ (by rw [akeys_same]; exact hn), aget_same hn hk]
    rfl
  · cases h

/-- A check for a dict having values of types. -/
def hasLeaf (d : Dict) (t : PType) : Bool :=
  match aget t.name d with
  | some (.dict _) => false
  | some (.list _) => false
  | some .none => false
  | some _ => true
  | none => false

theorem hasLeaf_of_check {d : Dict} {ts : List PType} (h : ts.all (hasLeaf d) = true) : ∀ t ∈ ts, ∃ v, (t.name, v) ∈ d ∧ isLeaf v ∧ v ≠ .none := by
  intro t ht
  have := List.all_eq_true.1 h t ht
  unfold hasLeaf at this
  cases hg : aget t.name d with
  | none => rw [hg] at this; cases this
  | some v =>
    rw [hg] at this
    refine ⟨v, aget_mem hg, ?_⟩
    cases v <;> first | cases this; done | exact ⟨trivial, fun e => nomatch e⟩

theorem typeName_inj {t u : PType} (h : t.name = u.name) : t = u := by
  cases t <;> cases u <;> first | rfl | exact absurd h (by decide)

theorem allFields_nodup {ts : List PType} (hts : ts.Nodup) {ks : List PyStr} (hn : ks.Nodup) (hf : ∀ k ∈ ks, FieldName k) :
    (allFields ts (ks.map (fun k => [k]))).Nodup := by
  have hp : ∀ k, indexedPath [k] = dotted "data".toList k := fun k => rfl
  have hs1 : ∀ k ∈ ks, splitDots (indexedPath [k]) = ["data".toList, k] := fun k hk => by
    rw [hp, splitDots_dotted (hf k hk).no_dot]
    rfl
  have hs2 : ∀ k ∈ ks, ∀ t : PType, splitDots (dotted (indexedPath [k]) t.name) = ["data".toList, k, t.name] := fun k hk t => by
    rw [splitDots_dotted (typeName_no_dot t), hs1 k hk]
    rfl
  have inner : ∀ k ∈ ks, ∀ q ∈ indexedPath [k] :: ts.map (fun t => dotted (indexedPath [k]) t.name),
      splitDots q = ["data".toList, k] ∨ ∃ t : PType, splitDots q = ["data".toList, k, t.name] := by
    intro k hk q hq
    rcases List.mem_cons.1 hq with rfl | hq
    · exact .inl (hs1 k hk)
    · obtain ⟨t, _, rfl⟩ := List.mem_map.1 hq
      exact .inr ⟨t, hs2 k hk t⟩
  have hflat : ((ks.map (fun k => [k])).flatMap (fun p => indexedPath p :: ts.map (fun t => dotted (indexedPath p) t.name))).Nodup := by
    have : ∀ l : List PyStr, l.Nodup → (∀ k ∈ l, k ∈ ks) →
        ((l.map (fun k => [k])).flatMap (fun p => indexedPath p :: ts.map (fun t => dotted (indexedPath p) t.name))).Nodup := by
      intro l
      induction l with
      | nil => exact fun _ _ => List.nodup_nil
      | cons k l ih =>
        intro hl hs
        rw [List.nodup_cons] at hl
        have hk := hs k List.mem_cons_self
        have hr := ih hl.2 (fun k hk => hs k (List.mem_cons_of_mem _ hk))
        rw [List.map_cons, List.flatMap_cons, List.nodup_append]
        refine ⟨List.nodup_cons.2 ⟨?_, ?_⟩, hr, ?_⟩
        · intro hm
          obtain ⟨t, _, e⟩ := List.mem_map.1 hm
          have := congrArg splitDots e
          rw [hs1 k hk, hs2 k hk] at this
          cases this
        · refine (List.nodup_map_iff_inj_on hts).2 (fun t _ u _ e => ?_)
          have := congrArg splitDots e
          rw [hs2 k hk, hs2 k hk] at this
          injection this with _ this
          injection this with _ this
          injection this with this _
          exact typeName_inj this
        · intro a ha b hb e
          subst e
          obtain ⟨p, hp, hq⟩ := List.mem_flatMap.1 hb
          obtain ⟨k', hk', rfl⟩ := List.mem_map.1 hp
          have h1 := inner k hk a ha
          have h2 := inner k' (hs k' (List.mem_cons_of_mem _ hk')) a hq
          have e1 : (splitDots a).tail.head? = some k := by rcases h1 with e | ⟨t, e⟩ <;> rw [e] <;> rfl
          have e2 : (splitDots a).tail.head? = some k' := by rcases h2 with e | ⟨t, e⟩ <;> rw [e] <;> rfl
          rw [e1] at e2
          cases e2
          exact hl.1 hk'
    exact this ks hn (fun _ h => h)
  unfold allFields
  rw [List.nodup_append]
  refine ⟨by decide, List.nodup_cons.2 ⟨?_, hflat⟩, ?_⟩
  · intro hm
    obtain ⟨p, hp, hq⟩ := List.mem_flatMap.1 hm
    obtain ⟨k, hk, rfl⟩ := List.mem_map.1 hp
    rcases inner k hk _ hq with e | ⟨t, e⟩
    · exact absurd (congrArg List.length e) (by decide : (splitDots "data".toList).length ≠ 2)
    · exact absurd (congrArg List.length e) (by decide : (splitDots "data".toList).length ≠ 3)
  · intro a ha b hb e
    subst e
    have hlen : (splitDots a).length = 1 := by
      revert ha
      have : ∀ a ∈ akeys initialMapping, (splitDots a).length = 1 := by decide
      exact this a
    rcases List.mem_cons.1 hb with rfl | hb
    · exact absurd ha (by decide)
    · obtain ⟨p, hp, hq⟩ := List.mem_flatMap.1 hb
      obtain ⟨k, hk, rfl⟩ := List.mem_map.1 hp
      rcases inner k hk _ hq with e | ⟨t, e⟩
      · rw [e] at hlen; cases hlen
      · rw [e] at hlen; cases hlen

/-- All of the fields are there when data with the same value in all fields is indexed. -/
theorem same_has {x : Value} {D : Dict} {dts pts : List PyStr} (hx : parseInner E o false x = .ok ⟨some (.dict D), dts, pts⟩) (hh : o.geoHints = [])
    {ks : List PyStr} (hn : ks.Nodup) (hf : ∀ k ∈ ks, FieldName k) {ts : List PType}
    (hD : ∀ t ∈ ts, ∃ v, (t.name, v) ∈ sentDict (canonDict D) ∧ isLeaf v ∧ v ≠ .none)
    {doc : Doc ParsedData} (h : (realParser E).parse (uniformData x ks) o = some doc.parsed) {m m' : Mapping}
    (hm : RegularMapping m) (hm' : RegularMapping m') (hmap : mapDoc S m (sentDict doc.toDict) = some m') :
    ∀ q ∈ allFields ts (ks.map (fun k => [k])), q ∈ akeys m' := by
  obtain ⟨⟨l, ha⟩, hi⟩ := mapDoc_item hmap
  have hdata : ("data".toList, Value.dict (sentDict doc.parsed.parsed)) ∈ sentDict doc.toDict := by
    rw [sentDict_map]
    exact List.mem_map.2 ⟨("data".toList, .dict doc.parsed.parsed), by unfold Doc.toDict; simp, by rw [Value.sent]⟩
  obtain ⟨m1, m2, l2, h1, h2⟩ := hi hdata
  obtain ⟨h3, m3, h4⟩ := mapValue_object h1 h2 (fun t ht => by
    have := hm'.types _ _ ht
    rw [show fieldType "data".toList = some .object by decide] at this
    cases this; rfl) (by decide)
  intro q hq
  unfold allFields at hq
  rcases List.mem_append.1 hq with hq | hq
  · cases hg : aget q initialMapping with
    | none => exact absurd hq (aget_eq_none_iff.1 hg)
    | some t => exact mem_akeys_of_aget (ha.mono _ _ (hm.initial _ _ hg))
  rcases List.mem_cons.1 hq with rfl | hq
  · exact h2.mem h3
  obtain ⟨p, hp, hq⟩ := List.mem_flatMap.1 hq
  obtain ⟨k, hk, rfl⟩ := List.mem_map.1 hp
  have hy := parse_same hx hh hn h hk
  rw [canon, Value.sent] at hy
  obtain ⟨m5, m6, l6, h5, h6⟩ := mapItems_item h4 hy
  obtain ⟨h7, m8, h8⟩ := mapValue_object h5 (h6.trans h2) (fun t ht => by
    have := hm'.types _ _ ht
    rw [fieldType_child ⟨[], rfl⟩ (hf k hk)] at this
    cases this; rfl) (dynamicType_child (hf k hk))
  rcases List.mem_cons.1 hq with rfl | hq
  · exact h2.mem (h6.mem h7)
  · obtain ⟨t, ht, rfl⟩ := List.mem_map.1 hq
    obtain ⟨v, hv, hl, hnn⟩ := hD t ht
    obtain ⟨m9, m10, l10, h9, h10⟩ := mapItems_item h8 hv
    exact h2.mem (h6.mem (h10.mem (mapValue_leaf_has hl hnn h9)))

/-- The number of fields that it needs is the bound. -/
theorem same_exact (hP : PlacesOk E S) (hl : S.NotLonger) {x : Value} {D : Dict} {dts pts : List PyStr}
    (hx : parseInner E o false x = .ok ⟨some (.dict D), dts, pts⟩) (hxw : x.wf = true) (hxf : FieldNames x) (hxs : fieldsOf x = [])
    (hh : o.geoHints = []) (ho : ShortKeywords o) {ks : List PyStr} (hn : ks.Nodup) (hf : ∀ k ∈ ks, FieldName k) {ts : List PType}
    (ht : ParserTypes E (· ∈ ts)) (hts : ts.Nodup) (hD : ∀ t ∈ ts, ∃ v, (t.name, v) ∈ sentDict (canonDict D) ∧ isLeaf v ∧ v ≠ .none)
    {doc : Doc ParsedData} (h : (realParser E).parse (uniformData x ks) o = some doc.parsed) (hs : ShortTexts doc) (limit : Nat) :
    limitDocs S limit initialMapping [sentDict doc.toDict] = none ↔ limit < 10 + (1 + ts.length) * ks.length := by
  have hfields : ∀ q ∈ fieldsOfDict (uniformData x ks), q ∈ ks.map (fun k => [k]) := by
    clear h hn hf
    induction ks with
    | nil => exact fun q hq => nomatch hq
    | cons k ks ih =>
      intro q hq
      have e : uniformData x (k :: ks) = (k, x) :: uniformData x ks := rfl
      rw [e, fieldsOfDict, hxs, List.map_nil, List.nil_append] at hq
      rcases List.mem_cons.1 hq with rfl | hq
      · exact List.mem_cons_self
      · exact List.mem_cons_of_mem _ (ih q hq)
  have hwf : (Value.dict (uniformData x ks)).wf = true := by
    rw [wf_dict_iff, akeys_same]
    refine ⟨hn, fun k v hm => ?_⟩
    obtain ⟨_, _, e⟩ := List.mem_map.1 hm
    cases e
    exact hxw
  have hnames : FieldNames (.dict (uniformData x ks)) := by
    intro p d hg k hk
    cases p with
    | nil =>
      cases hg
      rw [akeys_same] at hk
      exact hf k hk
    | cons a p =>
      cases a with
      | idx i => cases hg
      | key a =>
        rw [getAt] at hg
        cases hx' : aget a (uniformData x ks) with
        | none => rw [hx'] at hg; cases hg
        | some y =>
          rw [hx'] at hg
          obtain ⟨_, _, e⟩ := List.mem_map.1 (aget_mem hx')
          cases e
          exact hxf p d hg k hk
  constructor
  · intro hnone
    by_contra hlt
    obtain ⟨m', hm'⟩ := limitDocs_ok hP hl ht (ps := ks.map (fun k => [k])) (limit := limit) (by rw [List.length_map]; omega) [doc]
      (fun d hd => by
        rw [List.mem_singleton] at hd
        subst hd
        exact ⟨⟨_, o, hwf, hnames, ho, hfields, h⟩, hs⟩)
      initialMapping regular_initial (by decide) (fun q hq => List.mem_append_left _ hq)
    rw [List.map_cons, List.map_nil, hnone] at hm'
    cases hm'
  · intro hlt
    obtain ⟨m', h1, h2⟩ := mapDoc_ok (madeFrom_shaped hP hl ⟨_, o, hwf, hnames, ho, h⟩) hs regular_initial
    have h3 := same_has hx hh hn hf hD h regular_initial h2 h1
    have h4 := (List.subperm_of_subset (allFields_nodup hts hn hf) h3).length_le
    rw [allFields_length, List.length_map] at h4
    have h5 : (akeys m').length = m'.length := by simp [akeys]
    unfold limitDocs limitDoc
    rw [h1]
    dsimp only
    rw [if_neg (by omega)]

end Splitgill
