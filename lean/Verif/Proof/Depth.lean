import Verif.Spec.Depth
import Verif.Proof.FieldLimit2
/-!
# The depth of the objects of an index
-/

namespace Splitgill

variable {S : EsEnv} {E : ParseEnv} {o : ParsingOptions}

/-! ## Shallow data -/

theorem count_dotted (path k : PyStr) : (dotted path k).count '.' = path.count '.' + (k.count '.' + 1) := by
  unfold dotted
  rw [List.count_append, List.count_cons_self]

theorem count_clean {k : PyStr} (h : '.' ∉ k) : k.count '.' = 0 := List.count_eq_zero.2 h

theorem count_foldl : ∀ (ks : List PyStr) (path : PyStr), (∀ k ∈ ks, '.' ∉ k) → (ks.foldl dotted path).count '.' = path.count '.' + ks.length
  | [], _, _ => rfl
  | k :: ks, path, h => by
    rw [List.foldl_cons, count_foldl ks _ (fun k hk => h k (List.mem_cons_of_mem _ hk)), count_dotted, count_clean (h k List.mem_cons_self),
      List.length_cons]
    omega

theorem count_indexedPath {p : List PyStr} (h : ∀ k ∈ p, '.' ∉ k) : (indexedPath p).count '.' = p.length := by
  unfold indexedPath
  rw [count_foldl _ _ h, count_clean (by decide)]
  omega

mutual
theorem fieldsOf_clean : ∀ (v : Value), v.wf = true → FieldNames v → ∀ q ∈ fieldsOf v, ∀ k ∈ q, '.' ∉ k
  | .dict d, hw, hf, q, hq, k, hk => by
    rw [fieldsOf] at hq
    have hw' := wf_dict_iff.1 hw
    exact fieldsOfDict_clean d (fun k v hm => ⟨(hf.dict k (mem_akeys_of_mem hm)).no_dot, hw'.2 k v hm, hf.item hw'.1 hm⟩) q hq k hk
  | .list l, hw, hf, q, hq, k, hk => by
    rw [fieldsOf] at hq
    exact fieldsOfList_clean l (fun v hm => ⟨wf_list_iff.1 hw v hm, hf.elem hm⟩) q hq k hk
  | .none, _, _, q, hq, _, _ => by cases hq
  | .bool _, _, _, q, hq, _, _ => by cases hq
  | .int _, _, _, q, hq, _, _ => by cases hq
  | .float _, _, _, q, hq, _, _ => by cases hq
  | .str _, _, _, q, hq, _, _ => by cases hq
theorem fieldsOfDict_clean : ∀ (d : Dict), (∀ k v, (k, v) ∈ d → '.' ∉ k ∧ v.wf = true ∧ FieldNames v) → ∀ q ∈ fieldsOfDict d, ∀ k ∈ q, '.' ∉ k
  | [], _, q, hq, _, _ => by cases hq
  | (k', v) :: r, h, q, hq, k, hk => by
    obtain ⟨h1, h2, h3⟩ := h k' v List.mem_cons_self
    rw [fieldsOfDict] at hq
    rcases List.mem_cons.1 hq with rfl | hq
    · rw [List.mem_singleton] at hk
      subst hk
      exact h1
    · rcases List.mem_append.1 hq with hq | hq
      · obtain ⟨q', hq', rfl⟩ := List.mem_map.1 hq
        rcases List.mem_cons.1 hk with rfl | hk
        · exact h1
        · exact fieldsOf_clean v h2 h3 q' hq' k hk
      · exact fieldsOfDict_clean r (fun k v hm => h k v (List.mem_cons_of_mem _ hm)) q hq k hk
theorem fieldsOfList_clean : ∀ (l : List Value), (∀ v ∈ l, v.wf = true ∧ FieldNames v) → ∀ q ∈ fieldsOfList l, ∀ k ∈ q, '.' ∉ k
  | [], _, q, hq, _, _ => by cases hq
  | v :: r, h, q, hq, k, hk => by
    rw [fieldsOfList] at hq
    rcases List.mem_append.1 hq with hq | hq
    · exact fieldsOf_clean v (h v List.mem_cons_self).1 (h v List.mem_cons_self).2 q hq k hk
    · exact fieldsOfList_clean r (fun v hm => h v (List.mem_cons_of_mem _ hm)) q hq k hk
end

theorem depthOk_iff {limit : Nat} {m : Mapping} : depthOk limit m = true ↔ ∀ f ∈ m, f.2.isObject = true → objectDepth f.1 ≤ limit := by
  unfold depthOk
  rw [List.all_eq_true]
  refine forall₂_congr (fun f _ => ?_)
  cases f.2.isObject <;> simp

theorem allTypes_parser (E : ParseEnv) : ParserTypes E (· ∈ [PType.unparsed, .number, .date, .boolean, .text, .keyword, .geoPoint, .geoShape]) :=
  ⟨fun t _ _ => by cases t <;> decide, fun _ _ _ => ⟨by decide, by decide⟩, fun _ _ _ => ⟨by decide, by decide⟩, fun _ _ _ _ _ _ => ⟨by decide, by decide⟩⟩

/-- A field that a shallow document adds is not deep. -/
theorem shallow_adds {opts : ParsingOptions → Prop} {n : Nat} {doc : Doc ParsedData} (h : MadeFromShallow E opts n doc.parsed) {m m' : Mapping}
    (hm : RegularMapping m) (hd : mapDoc S m (sentDict doc.toDict) = some m') : ∀ q ∈ akeys m', q ∈ akeys m ∨ q.count '.' ≤ n + 1 := by
  obtain ⟨data, o, hw, hf, ho, hn, hp⟩ := h
  have ha := mapDoc_adds hm hd
  intro q hq
  refine (ha.keys q hq).imp id (fun hq => ?_)
  rcases List.mem_append.1 hq with hq | hq
  · have : ∀ q ∈ akeys initialMapping, q.count '.' = 0 := by decide
    rw [this q hq]
    omega
  rcases List.mem_cons.1 hq with rfl | hq
  · rw [count_clean (by decide)]
    omega
  · obtain ⟨p, hp1, hq⟩ := placed_root (madeFrom_placed (allTypes_parser E) ⟨data, o, hw, hf, ho, fun _ h => h, hp⟩) q hq
    have hw' := wf_dict_iff.1 hw
    have hc := fieldsOfDict_clean data (fun k v hm => ⟨(hf.dict k (mem_akeys_of_mem hm)).no_dot, hw'.2 k v hm, hf.item hw'.1 hm⟩) p hp1
    have hl := hn p hp1
    rcases hq with rfl | ⟨t, _, rfl⟩
    · rw [count_indexedPath hc]
      omega
    · rw [count_dotted, count_indexedPath hc, count_clean (typeName_no_dot t)]
      omega

theorem depthDocs_ok (hP : PlacesOk E S) (hl : S.NotLonger) {n limit : Nat} (hn : n + 3 ≤ limit) : ∀ (docs : List (Doc ParsedData)),
    (∀ doc ∈ docs, MadeFromShallow E ShortKeywords n doc.parsed ∧ ShortTexts doc) → ∀ (m : Mapping), RegularMapping m → (akeys m).Nodup →
    depthOk limit m = true → ∃ m', depthDocs S limit m (docs.map (fun d => sentDict d.toDict)) = some m'
  | [], _, m, _, _, _ => ⟨m, rfl⟩
  | doc :: docs, hd, m, hr, hnd, ho => by
    obtain ⟨h1, h2⟩ := hd doc List.mem_cons_self
    have h1' : MadeFrom E ShortKeywords doc.parsed := by
      obtain ⟨data, o, a, b, c, _, e⟩ := h1
      exact ⟨data, o, a, b, c, e⟩
    obtain ⟨m', h3, h4⟩ := mapDoc_ok (madeFrom_shaped hP hl h1') h2 hr
    have ha := mapDoc_adds hr h3
    have ho' : depthOk limit m' = true := by
      rw [depthOk_iff] at ho ⊢
      intro f hf hob
      have hq := shallow_adds h1 hr h3 f.1 (mem_akeys_of_mem hf)
      by_cases hc : f.1.count '.' ≤ n + 1
      · unfold objectDepth
        omega
      · rcases hq with hq | hq
        · cases hgm : aget f.1 m with
          | none => exact absurd hq (aget_eq_none_iff.1 hgm)
          | some t =>
            have h5 := ha.mono _ _ hgm
            rw [aget_of_mem (ha.nodup hnd) hf] at h5
            cases h5
            exact ho (f.1, f.2) (aget_mem hgm) hob
        · exact absurd hq hc
    have : depthDoc S limit m (sentDict doc.toDict) = some m' := by
      unfold depthDoc
      rw [h3]
      exact if_pos ho'
    rw [List.map_cons, depthDocs, this]
    exact depthDocs_ok hP hl hn docs (fun d hm => hd d (List.mem_cons_of_mem _ hm)) m' h4 (ha.nodup hnd) ho'

/-! ## Deep data -/

/-- There is a value at a path: as `getAt`, but dicts can be in any order. -/
def Reach : Path → Value → Value → Prop
  | [], v, x => v = x
  | .key k :: p, .dict d, x => ∃ v, (k, v) ∈ d ∧ Reach p v x
  | .idx _ :: p, .list l, x => ∃ v ∈ l, Reach p v x
  | _, _, _ => False

theorem reach_of_getAt : ∀ {p : Path} {v x : Value}, getAt p v = some x → Reach p v x
  | [], v, x, h => by cases h; rfl
  | .key k :: p, v, x, h => by
    cases v with
    | dict d =>
      rw [getAt, Option.bind_eq_some_iff] at h
      obtain ⟨y, hy, h⟩ := h
      exact ⟨y, aget_mem hy, reach_of_getAt h⟩
    | _ => cases h
  | .idx i :: p, v, x, h => by
    cases v with
    | list l =>
      rw [getAt, Option.bind_eq_some_iff] at h
      obtain ⟨y, hy, h⟩ := h
      exact ⟨y, List.mem_of_getElem? hy, reach_of_getAt h⟩
    | _ => cases h

theorem reach_canon : ∀ {p : Path} {v x : Value}, Reach p v x → Reach p (canon v) (canon x)
  | [], v, x, h => by cases h; rfl
  | .key k :: p, v, x, h => by
    cases v with
    | dict d =>
      obtain ⟨y, hy, h⟩ := h
      rw [canon]
      exact ⟨canon y, (canonDict_perm _).mem_iff.2 (List.mem_map.2 ⟨(k, y), hy, rfl⟩), reach_canon h⟩
    | _ => cases h
  | .idx i :: p, v, x, h => by
    cases v with
    | list l =>
      obtain ⟨y, hy, h⟩ := h
      rw [canon]
      refine ⟨canon y, ?_, reach_canon h⟩
      clear h
      induction l with
      | nil => cases hy
      | cons a l ih =>
        rw [canonList]
        rcases List.mem_cons.1 hy with rfl | hy
        · exact List.mem_cons_self
        · exact List.mem_cons_of_mem _ (ih hy)
    | _ => cases h

theorem reach_sent : ∀ {p : Path} {v x : Value}, Reach p v x → Reach p v.sent x.sent
  | [], v, x, h => by cases h; rfl
  | .key k :: p, v, x, h => by
    cases v with
    | dict d =>
      obtain ⟨y, hy, h⟩ := h
      rw [Value.sent]
      refine ⟨y.sent, ?_, reach_sent h⟩
      rw [sentDict_map]
      exact List.mem_map.2 ⟨(k, y), hy, rfl⟩
    | _ => cases h
  | .idx i :: p, v, x, h => by
    cases v with
    | list l =>
      obtain ⟨y, hy, h⟩ := h
      rw [Value.sent]
      refine ⟨y.sent, ?_, reach_sent h⟩
      clear h
      induction l with
      | nil => cases hy
      | cons a l ih =>
        rw [sentList]
        rcases List.mem_cons.1 hy with rfl | hy
        · exact List.mem_cons_self
        · exact List.mem_cons_of_mem _ (ih hy)
    | _ => cases h

/-- One of the elements is mapped on the way. -/
theorem mapElems_elem {path : PyStr} : ∀ {l : List Value} {m m' : Mapping}, mapElems S path m l = some m' → ∀ {v}, v ∈ l →
    ∃ m1 m2 l, mapValue S path m1 v = some m2 ∧ Adds m2 m' l
  | [], _, _, _, _, hm => by cases hm
  | v' :: r, m, m', h, v, hm => by
    rw [mapElems] at h
    split at h
    · cases h
    · rename_i m2 hv
      rcases List.mem_cons.1 hm with rfl | hm
      · exact ⟨m, m2, _, hv, mapElems_adds h⟩
      · exact mapElems_elem h hm

/-- A value of a type at the end of a path of fields: its field is in the index afterwards. -/
theorem reach_mapped {x : Value} (hx : isLeaf x) (hn : x ≠ .none) {t : PType} : ∀ (p : Path) (v : Value) (path : PyStr) (m m' m'' : Mapping)
    (l : List PyStr), mapValue S path m v = some m' → Adds m' m'' l → RegularMapping m'' → InData path → fieldType path = some .object →
    dynamicType path = none → (∀ k ∈ p.filterMap PathEl.name?, FieldName k) → Reach (p ++ [.key t.name]) v x →
    dotted ((p.filterMap PathEl.name?).foldl dotted path) t.name ∈ akeys m''
  | [], v, path, m, m', m'', l, h, ha, hr, hi, ho, hd, hk, hv => by
    cases v with
    | dict d =>
      obtain ⟨y, hy, e⟩ := hv
      cases e
      obtain ⟨_, m1, h1⟩ := mapValue_object h ha (fun t ht => by
        have := hr.types _ _ ht
        rw [ho] at this
        cases this; rfl) hd
      obtain ⟨m2, m3, l3, h2, h3⟩ := mapItems_item h1 hy
      exact ha.mem (h3.mem (mapValue_leaf_has hx hn h2))
    | _ => cases hv
  | .key k :: p, v, path, m, m', m'', l, h, ha, hr, hi, ho, hd, hk, hv => by
    cases v with
    | dict d =>
      obtain ⟨y, hy, hv⟩ := hv
      obtain ⟨_, m1, h1⟩ := mapValue_object h ha (fun t ht => by
        have := hr.types _ _ ht
        rw [ho] at this
        cases this; rfl) hd
      obtain ⟨m2, m3, l3, h2, h3⟩ := mapItems_item h1 hy
      have hkf : FieldName k := hk k (by simp [PathEl.name?])
      have := reach_mapped hx hn p y (dotted path k) m2 m3 m'' _ h2 (h3.trans ha) hr (hi.child hkf.no_dot) (fieldType_child hi hkf)
        (dynamicType_child hkf) (fun k' hk' => hk k' (by
          rw [List.filterMap_cons]
          exact List.mem_cons_of_mem _ hk')) hv
      simpa [PathEl.name?] using this
    | _ => cases hv
  | .idx i :: p, v, path, m, m', m'', l, h, ha, hr, hi, ho, hd, hk, hv => by
    cases v with
    | list es =>
      obtain ⟨y, hy, hv⟩ := hv
      rw [mapValue] at h
      obtain ⟨m2, m3, l3, h2, h3⟩ := mapElems_elem h hy
      exact reach_mapped hx hn p y path m2 m3 m'' _ h2 (h3.trans ha) hr hi ho hd (fun k' hk' => hk k' (by simpa [PathEl.name?] using hk')) hv
    | _ => cases hv

theorem names_of_getAt : ∀ {p : Path} {v w : Value}, FieldNames v → getAt p v = some w → ∀ k ∈ p.filterMap PathEl.name?, FieldName k
  | [], _, _, _, _, k, hk => by simp at hk
  | .key k' :: p, v, w, hf, h, k, hk => by
    cases v with
    | dict d =>
      rw [getAt, Option.bind_eq_some_iff] at h
      obtain ⟨x, hx, h⟩ := h
      have hk' : k = k' ∨ k ∈ p.filterMap PathEl.name? := by simpa [PathEl.name?] using hk
      rcases hk' with rfl | hk'
      · exact hf.dict k (mem_akeys_of_mem (aget_mem hx))
      · refine names_of_getAt (v := x) ?_ h k hk'
        intro q e hq
        refine hf (.key k' :: q) e ?_
        rw [getAt, hx]
        exact hq
    | _ => cases h
  | .idx i :: p, v, w, hf, h, k, hk => by
    cases v with
    | list l =>
      rw [getAt, Option.bind_eq_some_iff] at h
      obtain ⟨x, hx, h⟩ := h
      have hk' : k ∈ p.filterMap PathEl.name? := by simpa [PathEl.name?] using hk
      refine names_of_getAt (v := x) ?_ h k hk'
      intro q e hq
      refine hf (.idx i :: q) e ?_
      rw [getAt, hx]
      exact hq
    | _ => cases h

theorem isIndexed_leaf {v : Value} (h : v.isIndexed = true) : isLeaf v ∧ v ≠ .none ∧ canon v = v := by
  cases v with
  | none => cases h
  | dict _ => cases h
  | list _ => cases h
  | _ => exact ⟨trivial, nofun, rfl⟩

/-- A document with a deep value gives the index a deep object. -/
theorem deep_rejected {opts : ParsingOptions → Prop} {n limit : Nat} (hn : limit < n + 3) {doc : Doc ParsedData} (h : MadeFromDeep E opts n doc.parsed)
    {m m' : Mapping} (hr : RegularMapping m') (hd : mapDoc S m (sentDict doc.toDict) = some m') : depthOk limit m' = false := by
  obtain ⟨data, o, hw, hf, ho, ⟨p, v, hg, hi, hs, hp⟩, hq⟩ := h
  obtain ⟨hl, hnn, hc⟩ := isIndexed_leaf hi
  have hreach : Reach (p ++ [.key PType.unparsed.name]) (.dict (sentDict doc.parsed.parsed)) v := by
    simp only [realParser] at hq
    split at hq
    · rename_i y hy
      have e := Option.some.inj hq
      obtain ⟨pv, h6, h7⟩ := parse_at hw hf hy hg hi
      have h8 : getAt (p ++ [.key PType.unparsed.name]) (.dict y.parsed) = some v := by
        rw [getAt_append, h6]
        show (aget PType.unparsed.name pv).bind (getAt []) = some v
        rw [h7 _ (by decide), show PType.unparsed.name = "_u".toList from rfl, aget_base (by decide)]
        rfl
      have h9 := reach_sent (reach_canon (reach_of_getAt h8))
      rw [hc, hs, canon, Value.sent] at h9
      rw [← e]
      exact h9
    · cases hq
  obtain ⟨_, hit⟩ := mapDoc_item hd
  have hdata : ("data".toList, Value.dict (sentDict doc.parsed.parsed)) ∈ sentDict doc.toDict := by
    rw [sentDict_map]
    exact List.mem_map.2 ⟨("data".toList, .dict doc.parsed.parsed), by unfold Doc.toDict; simp, by rw [Value.sent]⟩
  obtain ⟨m1, m2, l2, h1, h2⟩ := hit hdata
  have hk := names_of_getAt hf hg
  have hm := reach_mapped hl hnn p _ "data".toList m1 m2 m' l2 h1 h2 hr ⟨[], rfl⟩ (by decide) (by decide) hk hreach
  have hne : p.filterMap PathEl.name? ≠ [] := keysOf_ne hg (Value.isScalar_of_isIndexed hi)
  have hsp : splitDots (indexedPath (p.filterMap PathEl.name?)) = "data".toList :: p.filterMap PathEl.name? := by
    have : ∀ (ks : List PyStr) (path : PyStr), (∀ k ∈ ks, '.' ∉ k) → splitDots (ks.foldl dotted path) = splitDots path ++ ks := by
      intro ks
      induction ks with
      | nil => intro path _; simp
      | cons k ks ih =>
        intro path hk
        rw [List.foldl_cons, ih _ (fun k hk' => hk k (List.mem_cons_of_mem _ hk')), splitDots_dotted (hk k List.mem_cons_self),
          List.append_assoc]
        rfl
    exact this _ "data".toList (fun k hk' => (hk k hk').no_dot)
  cases hgm : aget (dotted (indexedPath (p.filterMap PathEl.name?)) PType.unparsed.name) m' with
  | none => exact absurd hm (aget_eq_none_iff.1 hgm)
  | some t =>
    have ht := hr.types _ _ hgm
    rw [(type_child hsp hne .unparsed).1] at ht
    cases ht
    rw [← Bool.not_eq_true, depthOk_iff]
    intro hall
    have h3 := hall _ (aget_mem hgm) rfl
    unfold objectDepth at h3
    dsimp only at h3
    rw [count_dotted, count_indexedPath (fun k hk' => (hk k hk').no_dot), count_clean (typeName_no_dot _)] at h3
    unfold nameCount at hp
    omega

end Splitgill
