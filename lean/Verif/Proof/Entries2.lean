import Verif.Proof.Entries
import Verif.Spec.Entries
/-!
# Lemmas: queries by entries and by names
-/

namespace Splitgill

/-- A scalar in parsed data is at the name of a type below names of fields. -/
theorem shaped_path {x : Value} (hx : x.isScalar = true) (hn : x ≠ .none) : ∀ (v : Value),
    (Shaped OnlyScalars v → ∀ p, getAt p v = some x → ∃ ns t, keysOf p = ns ++ [PType.name t] ∧ ∀ n ∈ ns, FieldName n) ∧
    (∀ types d, v = .dict d → ShapedDict OnlyScalars types d → ∀ p, getAt p v = some x →
      ∃ ns t, keysOf p = ns ++ [PType.name t] ∧ ∀ n ∈ ns, FieldName n) := by
  refine Value.ind' ?_ ?_ ?_
  · intro v hv
    refine ⟨fun hs p hp => ?_, fun types d e => by subst e; cases hv⟩
    cases v with
    | none =>
      cases p with
      | nil => cases hp; exact absurd rfl hn
      | cons a p => rw [getAt_scalar_cons rfl] at hp; cases hp
    | list l => cases hv
    | dict d => cases hv
    | _ => exact hs.elim
  · intro l ih
    refine ⟨fun hs p hp => ?_, fun types d e => by cases e⟩
    rw [Shaped] at hs
    have hs' : ∀ v ∈ l, Shaped OnlyScalars v := by
      clear ih hp
      induction l with
      | nil => exact fun _ h => nomatch h
      | cons v l ihl =>
        intro w hw
        rcases List.mem_cons.1 hw with rfl | hw
        · exact hs.1
        · exact ihl hs.2 w hw
    cases p with
    | nil => cases hp; cases hx
    | cons a p =>
      cases a with
      | key k => cases hp
      | idx i =>
        rw [getAt, Option.bind_eq_some_iff] at hp
        obtain ⟨v, hv, hp⟩ := hp
        have hv := List.mem_of_getElem? hv
        exact (ih v hv).1 (hs' v hv) p hp
  · intro d ih
    have key : ∀ types, ShapedDict OnlyScalars types d → ∀ p, getAt p (.dict d) = some x →
        ∃ ns t, keysOf p = ns ++ [PType.name t] ∧ ∀ n ∈ ns, FieldName n := by
      intro types hs p hp
      cases p with
      | nil => cases hp; cases hx
      | cons a p =>
        cases a with
        | idx i => cases hp
        | key k =>
          rw [getAt, Option.bind_eq_some_iff] at hp
          obtain ⟨v, hv, hp⟩ := hp
          have hm := aget_mem hv
          rcases shapedDict_iff.1 hs _ hm with ⟨_, t, e, hl⟩ | ⟨hk, hsh⟩
          · have hl : v.isScalar = true := hl
            cases p with
            | cons a p => rw [getAt_scalar_cons hl] at hp; cases hp
            | nil => exact ⟨[], t, by rw [← e]; rfl, fun _ h => nomatch h⟩
          · obtain ⟨ns, t, h1, h2⟩ := (ih k v hm).1 hsh p hp
            refine ⟨k :: ns, t, ?_, ?_⟩
            · show k :: keysOf p = _
              rw [h1]; rfl
            · intro n hn
              rcases List.mem_cons.1 hn with rfl | hn
              · exact hk
              · exact h2 n hn
    refine ⟨fun hs => key true (by rw [Shaped] at hs; exact hs), fun types d' e => ?_⟩
    cases e
    exact key types

theorem name_inj {t t' : PType} (h : t.name = t'.name) : t = t' := by
  have := congrArg typeNamed h
  rw [typeNamed_name, typeNamed_name] at this
  injection this

theorem entryAt_iff {d : Dict} (hs : ShapedDict OnlyScalars false d) {q : PyStr} {x : Value} :
    EntryAt "data".toList (.dict d) q x ↔ ∃ ks t, t ≠ PType.unparsed ∧ splitDots q = "data".toList :: (ks ++ [PType.name t]) ∧
      x ∈ esValues (.dict d) (ks ++ [PType.name t]) := by
  constructor
  · rintro ⟨p, ns, t, h1, h2, h3, h4, h5, h6, h7⟩
    refine ⟨ns, t, h6, ?_, (mem_esValues h2 h3 _ _).2 ⟨p, h4, h1⟩⟩
    rw [h7, h4]; rfl
  · rintro ⟨ks, t, h1, h2, h3⟩
    obtain ⟨g1, g2⟩ := esValues_scalar _ _ h3
    obtain ⟨p, h4, h5⟩ := (mem_esValues g1 g2 _ _).1 h3
    obtain ⟨ns, t', h6, h7⟩ := (shaped_path g1 g2 (.dict d)).2 false d rfl hs p h5
    have e := h4.symm.trans h6
    have e1 := List.append_inj_left' e rfl
    have e2 := List.append_inj_right' e rfl
    injection e2 with e2
    have e2 := name_inj e2
    subst e1; subst e2
    exact ⟨p, ks, t, h5, g1, g2, h4, h7, h1, by rw [h2, h4]; rfl⟩

mutual
theorem entries_typed {m : Mapping} {q : PyStr} {x : Value} : ∀ (v : Value) (path : PyStr), (q, x) ∈ entries m path v →
    ∃ u, aget q m = some u ∧ u ≠ .object ∧ u ≠ .disabled
  | .none, path, h => by cases h
  | .list l, path, h => by rw [entries] at h; exact entriesElems_typed l path h
  | .dict d, path, h => by
    rw [entries] at h
    split at h
    · exact entriesItems_typed d path h
    · cases h
  | .bool b, path, h => leafEntries_typed h
  | .int b, path, h => leafEntries_typed h
  | .float b, path, h => leafEntries_typed h
  | .str b, path, h => leafEntries_typed h
theorem entriesElems_typed {m : Mapping} {q : PyStr} {x : Value} : ∀ (l : List Value) (path : PyStr), (q, x) ∈ entriesElems m path l →
    ∃ u, aget q m = some u ∧ u ≠ .object ∧ u ≠ .disabled
  | [], path, h => by cases h
  | v :: r, path, h => by
    rw [entriesElems] at h
    rcases List.mem_append.1 h with h | h
    · exact entries_typed v path h
    · exact entriesElems_typed r path h
theorem entriesItems_typed {m : Mapping} {q : PyStr} {x : Value} : ∀ (d : Dict) (path : PyStr), (q, x) ∈ entriesItems m path d →
    ∃ u, aget q m = some u ∧ u ≠ .object ∧ u ≠ .disabled
  | [], path, h => by cases h
  | (k, v) :: r, path, h => by
    rw [entriesItems] at h
    rcases List.mem_append.1 h with h | h
    · exact entries_typed v _ h
    · exact entriesItems_typed r path h
theorem leafEntries_typed {m : Mapping} {q : PyStr} {x : Value} {path : PyStr} {v : Value} (h : (q, x) ∈ leafEntries m path v) :
    ∃ u, aget q m = some u ∧ u ≠ .object ∧ u ≠ .disabled := by
  unfold leafEntries at h
  cases ha : aget path m with
  | none => rw [ha] at h; cases h
  | some t =>
    rw [ha] at h
    cases t <;> dsimp only at h <;> first | (rw [List.mem_singleton] at h; cases h; exact ⟨_, ha, by simp, by simp⟩) | cases h
end

/-- A document in an index: its fields have the types that their names tell, and its data is parsed data. -/
structure DocIn (m : Mapping) (doc : Doc ParsedData) : Prop where
  shaped : ShapedDict OnlyScalars false (sentDict doc.parsed.parsed)
  wf : (Value.dict (sentDict doc.parsed.parsed)).wf = true
  covered : CoveredDoc m (sentDict doc.toDict)

section
variable {m : Mapping} {doc : Doc ParsedData}

theorem toDict_items (doc : Doc ParsedData) : sentDict doc.toDict = ("id".toList, .str doc.id) :: ("version".toList, .int doc.version) ::
      ("versions".toList, .dict (("gte".toList, .int doc.gte) :: match doc.lt with | some v => [("lt".toList, .int v)] | none => [])) ::
      ("data".toList, .dict (sentDict doc.parsed.parsed)) ::
      ("data_types".toList, .list (sentList (doc.parsed.dataTypes.map Value.str))) ::
      ("parsed_types".toList, .list (sentList (doc.parsed.parsedTypes.map Value.str))) ::
      (match doc.next with | some v => [("next".toList, .int v)] | none => []) := by
  obtain ⟨id, version, gte, lt, next, parsed⟩ := doc
  cases lt <;> cases next <;> rfl

/-- The fields of documents outside of the data that have entries. -/
def outerFields : List PyStr := ["id".toList, "version".toList, "next".toList, "data_types".toList, "parsed_types".toList]

theorem entries_outer {path q : PyStr} {x : Value} : ∀ (l : List Value), (∀ v ∈ l, v.isScalar = true) → (q, x) ∈ entriesElems m path l → q = path
  | [], _, h => by cases h
  | v :: r, hs, h => by
    rw [entriesElems] at h
    rcases List.mem_append.1 h with h | h
    · have := hs v List.mem_cons_self
      have key : ∀ w : Value, (q, x) ∈ leafEntries m path w → q = path := by
        intro w h
        unfold leafEntries at h
        split at h <;> first | (rw [List.mem_singleton] at h; cases h; rfl) | cases h
      cases v with
      | none => cases h
      | list l => cases this
      | dict d => cases this
      | bool b => exact key _ h
      | int b => exact key _ h
      | float b => exact key _ h
      | str b => exact key _ h
    · exact entries_outer r (fun v hv => hs v (List.mem_cons_of_mem _ hv)) h

theorem sentStrs_scalar (l : List PyStr) : ∀ v ∈ sentList (l.map Value.str), v.isScalar = true := by
  induction l with
  | nil => intro v h; cases h
  | cons s l ih =>
    intro v h
    rw [List.map_cons, sentList] at h
    rcases List.mem_cons.1 h with rfl | h
    · rfl
    · exact ih v h

theorem mem_ownEntries (hm : RegularMapping m) (hd : DocIn m doc) {q : PyStr} {x : Value} :
    (EntryAt "data".toList (.dict (sentDict doc.parsed.parsed)) q x → (q, x) ∈ ownEntries m (sentDict doc.toDict)) ∧
    ((q, x) ∈ ownEntries m (sentDict doc.toDict) → EntryAt "data".toList (.dict (sentDict doc.parsed.parsed)) q x ∨ q ∈ outerFields) := by
  have hmem : ("data".toList, Value.dict (sentDict doc.parsed.parsed)) ∈ sentDict doc.toDict := by
    rw [toDict_items]; simp
  have hdata := mem_entries_data hm hd.shaped hd.wf (hd.covered _ _ hmem) q x
  constructor
  · intro h
    exact List.mem_flatMap.2 ⟨_, hmem, hdata.2 h⟩
  · intro h
    obtain ⟨⟨k, v⟩, h1, h2⟩ := List.mem_flatMap.1 h
    dsimp only at h2
    have one : ∀ {path : PyStr} {v : Value}, v.isScalar = true → (q, x) ∈ entries m path v → q = path := fun {path v} hs h =>
      entries_outer [v] (fun w hw => by rw [List.mem_singleton] at hw; subst hw; exact hs)
        (by rw [entriesElems]; exact List.mem_append_left _ h)
    rw [toDict_items] at h1
    simp only [List.mem_cons] at h1
    rcases h1 with e | e | e | e | e | e | e
    · cases e; exact .inr (by rw [one rfl h2]; decide)
    · cases e; exact .inr (by rw [one rfl h2]; decide)
    · cases e
      rw [entries, hm.initial "versions".toList .dateRange (by decide)] at h2
      cases h2
    · cases e; exact .inl (hdata.1 h2)
    · cases e; rw [entries] at h2; exact .inr (by rw [entries_outer _ (sentStrs_scalar _) h2]; decide)
    · cases e; rw [entries] at h2; exact .inr (by rw [entries_outer _ (sentStrs_scalar _) h2]; decide)
    · cases hn : doc.next with
      | none => rw [hn] at e; cases e
      | some n =>
        rw [hn] at e
        rw [List.mem_singleton] at e
        cases e
        exact .inr (by rw [one rfl h2]; decide)

/-- The type of the field of an entry. -/
theorem entry_type (hm : RegularMapping m) (hd : DocIn m doc) {q : PyStr} {x : Value} {ks : List PyStr} {t : PType}
    (h : EntryAt "data".toList (.dict (sentDict doc.parsed.parsed)) q x) (hq : splitDots q = "data".toList :: (ks ++ [t.name])) :
    aget q m = some t.esType ∧ ks ≠ [] := by
  have hmem : ("data".toList, Value.dict (sentDict doc.parsed.parsed)) ∈ sentDict doc.toDict := by
    rw [toDict_items]; simp
  obtain ⟨u, h1, h2, _⟩ := entries_typed _ _ ((mem_entries_data hm hd.shaped hd.wf (hd.covered _ _ hmem) q x).2 h)
  have h3 := hm.types _ _ h1
  rw [fieldType, hq] at h3
  cases ks with
  | nil =>
    have h3 : some EsType.object = some u := h3
    cases h3
    exact absurd rfl h2
  | cons a ks =>
    have h4 : (a :: ks ++ [t.name]).getLast? = some t.name := List.getLast?_concat
    have h5 : some t.esType = some u := by
      rw [← h3]
      cases ks with
      | nil => 
        show _ = (if _ then _ else _)
        rw [if_pos rfl]
        simp [typeNamed_name]
      | cons b ks =>
        show _ = (if _ then _ else _)
        rw [if_pos rfl]
        show _ = some (((List.getLast? (a :: b :: ks ++ [t.name])).bind typeNamed).map PType.esType |>.getD .object)
        rw [h4, Option.bind_some, typeNamed_name]
        rfl
    rw [h1, h5]
    exact ⟨rfl, by simp⟩

theorem splitDots_parsedPath (f : PyStr) (t : PType) : splitDots (parsedPath f t) = "data".toList :: (splitDots f ++ [t.name]) := by
  rw [parsedPath, splitDots_append, splitDots_append, splitDots_clean (typeName_no_dot t)]
  rfl

theorem outer_no_data {q : PyStr} (h : q ∈ outerFields) : ∀ k ks, splitDots q ≠ "data".toList :: k :: ks := by
  intro k ks
  simp only [outerFields, List.mem_cons, List.not_mem_nil, or_false] at h
  rcases h with rfl | rfl | rfl | rfl | rfl
  · rw [splitDots_clean (by decide)]; simp
  · rw [splitDots_clean (by decide)]; simp
  · rw [splitDots_clean (by decide)]; simp
  · rw [splitDots_clean (by decide)]; simp
  · rw [splitDots_clean (by decide)]; simp

theorem copyTo_name {t : EsType} {q : PyStr} (h : t.copyTo = some q) :
    (t = .geoPoint ∧ q = "all_points".toList) ∨ (t = .geoShape ∧ q = "all_shapes".toList) ∨ (t = .text ∧ q = "all_text".toList) := by
  cases t <;> cases h <;> simp

theorem mem_copies {q : PyStr} {x : Value} {l : List (PyStr × Value)} :
    (q, x) ∈ l.filterMap (fun e => ((aget e.1 m).bind EsType.copyTo).map (fun target => (target, e.2))) ↔
      ∃ q' u, (q', x) ∈ l ∧ aget q' m = some u ∧ u.copyTo = some q := by
  rw [List.mem_filterMap]
  constructor
  · rintro ⟨⟨q', x'⟩, h1, h2⟩
    obtain ⟨t, h3, h4⟩ := Option.map_eq_some_iff.1 h2
    obtain ⟨u, h5, h6⟩ := Option.bind_eq_some_iff.1 h3
    cases h4
    exact ⟨q', u, h1, h5, h6⟩
  · rintro ⟨q', u, h1, h2, h3⟩
    exact ⟨(q', x), h1, by simp only [h2, Option.bind_some, h3, Option.map_some]⟩

/-- The entries at the path of a query. -/
theorem entries_at (hm : RegularMapping m) (hd : DocIn m doc) (f : PyStr) {t : PType} (ht : t ≠ .unparsed) {x : Value} :
    (parsedPath f t, x) ∈ indexEntries m (sentDict doc.toDict) ↔ x ∈ esValues (.dict (sentDict doc.parsed.parsed)) (splitDots f ++ [t.name]) := by
  obtain ⟨h1, h2⟩ := mem_ownEntries hm hd (q := parsedPath f t) (x := x)
  have hq := splitDots_parsedPath f t
  unfold indexEntries
  rw [List.mem_append]
  constructor
  · rintro (h | h)
    · rcases h2 h with h | h
      · obtain ⟨ks, t', g1, g2, g3⟩ := (entryAt_iff hd.shaped).1 h
        rw [hq] at g2
        injection g2 with _ g2
        rw [g2]; exact g3
      · have := outer_no_data h
        cases hf : splitDots f with
        | nil => exact absurd hf (splitDots_ne f)
        | cons a r => rw [hf] at hq; exact absurd hq (this _ _)
    · obtain ⟨q', u, _, _, g3⟩ := mem_copies.1 h
      rcases copyTo_name g3 with ⟨_, e⟩ | ⟨_, e⟩ | ⟨_, e⟩ <;> simp [parsedPath] at e
  · intro h
    exact .inl (h1 ((entryAt_iff hd.shaped).2 ⟨_, t, ht, hq, h⟩))

/-- The entries at the fields with copies. -/
theorem entries_copied (hm : RegularMapping m) (hd : DocIn m doc) {t : PType} (ht : t ≠ .unparsed) {target : PyStr}
    (hc : t.esType.copyTo = some target) {x : Value} :
    (target, x) ∈ indexEntries m (sentDict doc.toDict) ↔ x ∈ esCopied t (sentDict doc.parsed.parsed) := by
  have htarget : target = "all_points".toList ∨ target = "all_shapes".toList ∨ target = "all_text".toList := by
    rcases copyTo_name hc with ⟨_, e⟩ | ⟨_, e⟩ | ⟨_, e⟩ <;> simp [e]
  have hinj : ∀ t' : PType, t'.esType.copyTo = some target → t' = t := by
    intro t' h
    cases t <;> cases hc <;> cases t' <;> first | rfl | simp [PType.esType, EsType.copyTo] at h
  unfold indexEntries
  rw [List.mem_append, mem_copies, mem_esCopied hd.wf]
  constructor
  · rintro (h | ⟨q', u, h1, h2, h3⟩)
    · exfalso
      rcases (mem_ownEntries hm hd).2 h with h | h
      · obtain ⟨ks, t', _, g2, _⟩ := (entryAt_iff hd.shaped).1 h
        rcases htarget with rfl | rfl | rfl <;> rw [splitDots_clean (by decide)] at g2 <;> simp at g2
      · rcases htarget with rfl | rfl | rfl <;> exact absurd h (by decide)
    · rcases (mem_ownEntries hm hd).2 h1 with h | h
      · obtain ⟨ks, t', g1, g2, g3⟩ := (entryAt_iff hd.shaped).1 h
        obtain ⟨g4, g5⟩ := entry_type hm hd h g2
        rw [g4] at h2
        cases h2
        rw [hinj t' h3] at g3
        exact ⟨ks, g5, g3⟩
      · exfalso
        have : ∃ w, aget q' initialMapping = some w ∧ w.copyTo = none := by
          simp only [outerFields, List.mem_cons, List.not_mem_nil, or_false] at h
          rcases h with rfl | rfl | rfl | rfl | rfl
          · exact ⟨_, rfl, rfl⟩
          · exact ⟨_, rfl, rfl⟩
          · exact ⟨_, rfl, rfl⟩
          · exact ⟨_, rfl, rfl⟩
          · exact ⟨_, rfl, rfl⟩
        obtain ⟨w, w1, w2⟩ := this
        rw [hm.initial _ _ w1] at h2
        cases h2
        rw [w2] at h3; cases h3
  · rintro ⟨ks, h1, h2⟩
    have hq : splitDots (['.'].intercalate ("data".toList :: (ks ++ [t.name]))) = "data".toList :: (ks ++ [t.name]) := by
      obtain ⟨g1, g2⟩ := esValues_scalar _ _ h2
      obtain ⟨p, h4, h5⟩ := (mem_esValues g1 g2 _ _).1 h2
      obtain ⟨ns, t', h6, h7⟩ := (shaped_path g1 g2 (.dict (sentDict doc.parsed.parsed))).2 false _ rfl hd.shaped p h5
      have e1 := List.append_inj_left' (h4.symm.trans h6) rfl
      subst e1
      clear h4 h6 h5 h2
      have key : ∀ l : List PyStr, l ≠ [] → (∀ k ∈ l, '.' ∉ k) → splitDots (['.'].intercalate l) = l := by
        intro l
        induction l with
        | nil => exact fun h => absurd rfl h
        | cons a r ih =>
          intro _ hk
          cases r with
          | nil => simpa using splitDots_clean (hk a List.mem_cons_self)
          | cons b r =>
            rw [intercalate_cons (by simp), splitDots_append, splitDots_clean (hk a List.mem_cons_self),
              ih (by simp) (fun k hm => hk k (List.mem_cons_of_mem _ hm))]
            rfl
      refine key _ (by simp) (fun k hk => ?_)
      rcases List.mem_cons.1 hk with rfl | hk
      · decide
      · rcases List.mem_append.1 hk with hk | hk
        · exact (h7 k hk).no_dot
        · rw [List.mem_singleton] at hk; subst hk; exact typeName_no_dot t
    have he : EntryAt "data".toList (.dict (sentDict doc.parsed.parsed)) (['.'].intercalate ("data".toList :: (ks ++ [t.name]))) x :=
      (entryAt_iff hd.shaped).2 ⟨ks, t, ht, hq, h2⟩
    exact .inr ⟨_, t.esType, (mem_ownEntries hm hd).1 he, (entry_type hm hd he hq).1, hc⟩

end
end Splitgill
