import Verif.Spec.Parse
import Verif.Proof.Prepare
import Verif.Proof.Value
/-!
# Lemmas about parsing: rebuilding the data
-/

namespace Splitgill

theorem FieldNames.dict {d : Dict} (h : FieldNames (.dict d)) : ∀ k ∈ akeys d, FieldName k := h [] d rfl

theorem FieldNames.item {d : Dict} (h : FieldNames (.dict d)) (hn : (akeys d).Nodup) {k v} (hm : (k, v) ∈ d) :
    FieldNames v := by
  intro p d' hp
  refine h (.key k :: p) d' ?_
  simp only [getAt, aget_of_mem hn hm, Option.bind_some, hp]

theorem FieldNames.elem {l : List Value} (h : FieldNames (.list l)) {v} (hm : v ∈ l) : FieldNames v := by
  intro p d' hp
  obtain ⟨i, hi, rfl⟩ := List.mem_iff_getElem.1 hm
  refine h (.idx i :: p) d' ?_
  simp only [getAt, List.getElem?_eq_getElem hi, Option.bind_some, hp]

theorem fieldNames_of_clean {U : Unicode} {v : Value} (h : NamesClean U v) : FieldNames v :=
  fun p d hp k hk => ⟨(h p d hp k hk).nonempty, (h p d hp k hk).no_dot, (h p d hp k hk).no_underscore⟩

/-! ## Rebuilding -/

theorem rebuildItems_eq : ∀ d, rebuildItems d = d.map (fun kv => (kv.1, rebuildValue kv.2))
  | [] => rfl
  | (k, v) :: r => by simp [rebuildItems, rebuildItems_eq r]

theorem rebuildItems_append (a b : Dict) : rebuildItems (a ++ b) = rebuildItems a ++ rebuildItems b := by
  simp [rebuildItems_eq]

theorem rebuildItems_aset_same : ∀ {d : Dict} {k v v'}, aget k d = some v → rebuildValue v' = rebuildValue v →
    rebuildItems (aset k v' d) = rebuildItems d
  | [], _, _, _, h, _ => by simp at h
  | (k0, v0) :: r, k, v, v', h, hv => by
    rw [aget_cons] at h
    by_cases hk : k = k0
    · rw [if_pos hk] at h
      cases h
      simp only [aset, if_pos hk, rebuildItems, hv]
    · rw [if_neg hk] at h
      simp only [aset, if_neg hk, rebuildItems, rebuildItems_aset_same h hv]

theorem akeys_aset_of_some {d : Dict} {k v v'} (h : aget k d = some v) : akeys (aset k v' d) = akeys d := by
  have hk : k ∈ akeys d := aget_isSome_iff.1 (by rw [h]; rfl)
  rw [akeys_aset, if_pos hk]

theorem filter_rebuild_aset {k : PyStr} (hk : isDataField k = false) (v : Value) : ∀ d : Dict,
    (rebuildItems (aset k v d)).filter (fun kv => isDataField kv.1) = (rebuildItems d).filter (fun kv => isDataField kv.1)
  | [] => by simp [aset, rebuildItems, hk]
  | (k0, v0) :: r => by
    by_cases h : k = k0
    · subst h
      simp [aset, rebuildItems, hk]
    · simp only [aset, if_neg h, rebuildItems, List.filter_cons, filter_rebuild_aset hk v r]

theorem rebuild_geo (d : Dict) (g : PyStr × PyStr) :
    rebuildValue (.dict (aupdate d (geoDict g))) = rebuildValue (.dict d) := by
  have e : aupdate d (geoDict g) = aset PType.geoShape.name (.str g.2) (aset PType.geoPoint.name (.str g.1) d) := rfl
  have hu : aget PType.unparsed.name (aupdate d (geoDict g)) = aget PType.unparsed.name d := by
    rw [e, aget_aset, if_neg (by decide), aget_aset, if_neg (by decide)]
  simp only [rebuildValue]
  rw [hu, e, filter_rebuild_aset (by decide), filter_rebuild_aset (by decide)]

theorem addHints_rebuild : ∀ {hs : List (PyStr × (PyStr × PyStr))} {p p' : Dict}, addHints hs p = .ok p' →
    rebuildItems p' = rebuildItems p ∧ akeys p' = akeys p
  | [], p, p', h => by cases h; exact ⟨rfl, rfl⟩
  | (k, g) :: r, p, p', h => by
    rw [addHints] at h
    split at h
    · cases h
    · rename_i d hd
      obtain ⟨h1, h2⟩ := addHints_rebuild h
      rw [h1, h2]
      exact ⟨rebuildItems_aset_same hd (rebuild_geo d g), akeys_aset_of_some hd⟩
    · cases h

theorem parseItems_keys {E : ParseEnv} {o : ParsingOptions} : ∀ {d : Dict} {x}, parseItems E o d = .ok x →
    (akeys x.parsed).Sublist (akeys d)
  | [], x, h => by cases h; exact List.Sublist.refl _
  | (k, v) :: r, x, h => by
    rw [parseItems] at h
    split at h
    · cases h
    · split at h
      · cases h
      · rename_i y hy
        cases h
        have ih := parseItems_keys hy
        dsimp only
        split
        · exact ih.cons_cons k
        · exact ih.cons k

theorem FieldName.isData {k : PyStr} (h : FieldName k) : isDataField k = true := by
  unfold isDataField
  cases k with
  | nil => exact absurd rfl h.nonempty
  | cons c s =>
    by_cases hc : c = '_'
    · have := h.no_underscore (by rw [hc]; rfl)
      rw [this]
      decide
    · rw [Bool.or_eq_true]
      left
      have : ('_' == c) = false := by simp [Ne.symm hc]
      simp [List.isPrefixOf, this]

theorem FieldName.ne_type {k : PyStr} (h : FieldName k) (t : PType) : k ≠ t.name := by
  rintro rfl
  have := h.isData
  cases t <;> exact absurd this (by decide)

theorem aget_unparsed_parseValue (E : ParseEnv) (o : ParsingOptions) (v : Value) :
    aget PType.unparsed.name (parseValue E o v) = some v := by
  have hopt : ∀ (k : PyStr) (w : Option Value) (d : Dict), PType.unparsed.name ≠ k →
      aget PType.unparsed.name (asetOpt k w d) = aget PType.unparsed.name d := by
    intro k w d hk
    cases w with
    | none => rfl
    | some w => simp only [asetOpt]; rw [aget_aset, if_neg hk]
  unfold parseValue
  simp only []
  rw [hopt _ _ _ (by decide), hopt _ _ _ (by decide), hopt _ _ _ (by decide)]
  split
  · rfl
  · rfl

theorem rebuild_parseValue (E : ParseEnv) (o : ParsingOptions) (v : Value) :
    rebuildValue (.dict (parseValue E o v)) = v := by
  rw [rebuildValue, aget_unparsed_parseValue]

/-- What is left of the value of a field. -/
def remainsField (v : Value) : Option Value := if v.isEmptyContainer then none else some (remains v)

/-- What is left of an element of a list. -/
def remainsElem (v : Value) : Value := if v.isEmptyContainer || strictEq v (.str []) then .none else remains v

theorem assembleDict_ok {E : ParseEnv} {o : ParsingOptions} {c : Bool} {d : Dict} {items x : PResult Dict}
    (h : assembleDict E o c d items = .ok x) :
    addHints (matchHints E d o.geoHints)
      (aupdate (((if c then matchGeojson E d else none).map geoDict).getD []) items.parsed) = .ok x.parsed := by
  unfold assembleDict at h
  simp only [] at h
  split at h
  · cases h
  · rename_i h'
    cases h
    exact h'

theorem geoBase_keys (g : Option (PyStr × PyStr)) : ∀ k ∈ akeys ((g.map geoDict).getD []), k = PType.geoPoint.name ∨ k = PType.geoShape.name := by
  cases g with
  | none => simp
  | some g =>
    intro k hk
    simpa [geoDict, akeys] using hk

theorem geoBase_nodup (g : Option (PyStr × PyStr)) : (akeys ((g.map geoDict).getD [])).Nodup := by
  cases g with
  | none => simp
  | some g => exact (by decide : ([PType.geoPoint.name, PType.geoShape.name] : List PyStr).Nodup)

theorem assemble_update {g : Option (PyStr × PyStr)} {items : Dict} (hn : (akeys items).Nodup)
    (hf : ∀ k ∈ akeys items, FieldName k) :
    aupdate ((g.map geoDict).getD []) items = (g.map geoDict).getD [] ++ items := by
  apply aupdate_append_nodup
  have e : akeys ((g.map geoDict).getD [] ++ items) = akeys ((g.map geoDict).getD []) ++ akeys items := by
    simp [akeys]
  rw [e, List.nodup_append]
  refine ⟨geoBase_nodup g, hn, ?_⟩
  rintro a ha b hb rfl
  rcases geoBase_keys g a ha with h | h
  · exact (hf a hb).ne_type _ h
  · exact (hf a hb).ne_type _ h

theorem filter_base (g : Option (PyStr × PyStr)) :
    (rebuildItems ((g.map geoDict).getD [])).filter (fun kv => isDataField kv.1) = [] := by
  cases g with
  | none => rfl
  | some g =>
    simp [geoDict, rebuildItems, show isDataField PType.geoPoint.name = false by decide,
      show isDataField PType.geoShape.name = false by decide]

/-- A dict inside the data. -/
theorem rebuild_assembled {E : ParseEnv} {o : ParsingOptions} {d : Dict} {items x : PResult Dict}
    (h : assembleDict E o true d items = .ok x) (hn : (akeys items.parsed).Nodup)
    (hf : ∀ k ∈ akeys items.parsed, FieldName k) : rebuildValue (.dict x.parsed) = .dict (rebuildItems items.parsed) := by
  have h' := assembleDict_ok h
  rw [assemble_update hn hf] at h'
  obtain ⟨h1, h2⟩ := addHints_rebuild h'
  have hu : aget PType.unparsed.name x.parsed = none := by
    rw [aget_eq_none_iff, h2]
    intro hm
    simp only [akeys, List.map_append, List.mem_append] at hm
    rcases hm with hm | hm
    · rcases geoBase_keys _ _ hm with e | e <;> exact absurd e (by decide)
    · exact (hf _ hm).ne_type _ rfl
  rw [rebuildValue, hu]
  dsimp only
  rw [h1, rebuildItems_append, List.filter_append, filter_base, List.nil_append]
  congr 1
  rw [List.filter_eq_self]
  intro kv hkv
  rw [rebuildItems_eq] at hkv
  obtain ⟨kv', hkv', rfl⟩ := List.mem_map.1 hkv
  exact (hf _ (mem_akeys_of_mem (v := kv'.2) hkv')).isData

theorem rebuild_parseItems {E : ParseEnv} {o : ParsingOptions} : ∀ {d : Dict} {x},
    (∀ k v, (k, v) ∈ d → ∀ x, parseInner E o false v = .ok x → x.parsed.map rebuildValue = remainsField v) →
    parseItems E o d = .ok x → rebuildItems x.parsed = remainsDict d
  | [], x, _, h => by cases h; rfl
  | (k, v) :: r, x, hd, h => by
    rw [parseItems] at h
    split at h
    · cases h
    · rename_i x1 h1
      split at h
      · cases h
      · rename_i y hy
        cases h
        have ih := rebuild_parseItems (fun k v hm => hd k v (List.mem_cons_of_mem _ hm)) hy
        have hv := hd k v List.mem_cons_self _ h1
        unfold remainsField at hv
        rw [remainsDict]
        by_cases he : v.isEmptyContainer = true
        · rw [if_pos he] at hv ⊢
          rw [Option.map_eq_none_iff] at hv
          simp only [hv, ih]
        · rw [if_neg he] at hv ⊢
          rw [Option.map_eq_some_iff] at hv
          obtain ⟨p, hp, hr⟩ := hv
          simp only [hp, rebuildItems, hr, ih]

theorem rebuild_parseElems {E : ParseEnv} {o : ParsingOptions} : ∀ {l : List Value} {x},
    (∀ v ∈ l, ∀ x, parseInner E o true v = .ok x → rebuildValue (x.parsed.getD .none) = remainsElem v) →
    parseElems E o l = .ok x → rebuildList x.parsed = remainsList l
  | [], x, _, h => by cases h; rfl
  | v :: r, x, hd, h => by
    rw [parseElems] at h
    split at h
    · cases h
    · rename_i x1 h1
      split at h
      · cases h
      · rename_i y hy
        cases h
        have ih := rebuild_parseElems (fun v hm => hd v (List.mem_cons_of_mem _ hm)) hy
        have hv := hd v List.mem_cons_self _ h1
        rw [remainsList]
        simp only [rebuildList, hv, ih]
        rfl

/-- What is rebuilt from a parsed value. -/
theorem rebuild_parseInner {E : ParseEnv} {o : ParsingOptions} : ∀ v : Value, v.wf = true → FieldNames v →
    (∀ x, parseInner E o false v = .ok x → x.parsed.map rebuildValue = remainsField v) ∧
    (∀ x, parseInner E o true v = .ok x → rebuildValue (x.parsed.getD .none) = remainsElem v) := by
  apply Value.ind
  · intro _ _
    exact ⟨fun x h => by cases h; rfl, fun x h => by cases h; rfl⟩
  · intro b _ _
    refine ⟨fun x h => ?_, fun x h => ?_⟩ <;> cases h
    · exact congrArg some (rebuild_parseValue E o _)
    · exact rebuild_parseValue E o _
  · intro b _ _
    refine ⟨fun x h => ?_, fun x h => ?_⟩ <;> cases h
    · exact congrArg some (rebuild_parseValue E o _)
    · exact rebuild_parseValue E o _
  · intro b _ _
    refine ⟨fun x h => ?_, fun x h => ?_⟩ <;> cases h
    · exact congrArg some (rebuild_parseValue E o _)
    · exact rebuild_parseValue E o _
  · intro s _ _
    cases s with
    | nil => exact ⟨fun x h => by cases h; rfl, fun x h => by cases h; rfl⟩
    | cons c s =>
      refine ⟨fun x h => ?_, fun x h => ?_⟩ <;> cases h
      · exact congrArg some (rebuild_parseValue E o _)
      · exact rebuild_parseValue E o _
  · intro l ih hw hf
    have hw' := wf_list_iff.1 hw
    cases l with
    | nil => exact ⟨fun x h => by cases h; rfl, fun x h => by cases h; rfl⟩
    | cons v r =>
      have key : ∀ c x, parseInner E o c (.list (v :: r)) = .ok x → ∃ p, x.parsed = some p ∧
          rebuildValue p = remains (.list (v :: r)) := by
        intro c x h
        rw [parseInner] at h
        split at h
        · cases h
        · rename_i y hy
          cases h
          refine ⟨_, rfl, ?_⟩
          rw [rebuildValue, remains]
          congr 1
          exact rebuild_parseElems (fun w hm => (ih w hm (hw' w hm) (hf.elem hm)).2) hy
      constructor
      · intro x h
        obtain ⟨p, hp, hr⟩ := key _ x h
        rw [hp, Option.map_some, hr]
        rfl
      · intro x h
        obtain ⟨p, hp, hr⟩ := key _ x h
        rw [hp, Option.getD_some, hr]
        rfl
  · intro d ih hw hf
    have hw' := wf_dict_iff.1 hw
    cases d with
    | nil => exact ⟨fun x h => by cases h; rfl, fun x h => by cases h; rfl⟩
    | cons kv r =>
      have key : ∀ c x, parseInner E o c (.dict (kv :: r)) = .ok x → ∃ p, x.parsed = some p ∧
          rebuildValue p = remains (.dict (kv :: r)) := by
        intro c x h
        rw [parseInner] at h
        split at h
        · cases h
        · rename_i items hitems
          split at h
          · cases h
          · rename_i y hy
            cases h
            refine ⟨_, rfl, ?_⟩
            have hsub := parseItems_keys hitems
            rw [remains, rebuild_assembled hy (hw'.1.sublist hsub) (fun k hk => hf.dict k (hsub.subset hk))]
            congr 1
            exact rebuild_parseItems (fun k w hm => (ih k w hm (hw'.2 k w hm) (hf.item hw'.1 hm)).1) hitems
      constructor
      · intro x h
        obtain ⟨p, hp, hr⟩ := key _ x h
        rw [hp, Option.map_some, hr]
        rfl
      · intro x h
        obtain ⟨p, hp, hr⟩ := key _ x h
        rw [hp, Option.getD_some, hr]
        rfl

theorem parse_ok {E : ParseEnv} {o : ParsingOptions} {d : Dict} {p : ParsedData} (h : parse E o d = .ok p) :
    ∃ x, parseDict E o false d = .ok x ∧ x.parsed = p.parsed ∧ summarise x.dataTypes = .ok p.dataTypes ∧
      summarise x.parsedTypes = .ok p.parsedTypes := by
  unfold parse at h
  split at h
  · cases h
  · rename_i x hx
    split at h
    · rename_i h1 h2
      cases h
      exact ⟨x, hx, rfl, h2, h1⟩
    · cases h
    · cases h

theorem parseDict_ok {E : ParseEnv} {o : ParsingOptions} {c : Bool} {d : Dict} {x : PResult Dict}
    (h : parseDict E o c d = .ok x) : ∃ items, parseItems E o d = .ok items ∧ assembleDict E o c d items = .ok x := by
  unfold parseDict at h
  split at h
  · cases h
  · rename_i items hi
    exact ⟨items, hi, h⟩

/-- What is rebuilt from parsed data. -/
theorem rebuild_parse {E : ParseEnv} {o : ParsingOptions} {d : Dict} {p : ParsedData} (hw : (Value.dict d).wf = true)
    (hf : FieldNames (.dict d)) (h : parse E o d = .ok p) : rebuildData p.parsed = remainsDict d := by
  obtain ⟨x, hx, hp, _, _⟩ := parse_ok h
  obtain ⟨items, hi, ha⟩ := parseDict_ok hx
  have hw' := wf_dict_iff.1 hw
  have hsub := parseItems_keys hi
  have h' := assembleDict_ok ha
  rw [if_neg (by decide), assemble_update (hw'.1.sublist hsub) (fun k hk => hf.dict k (hsub.subset hk))] at h'
  rw [← hp]
  unfold rebuildData
  rw [(addHints_rebuild h').1]
  exact rebuild_parseItems (fun k v hm => (rebuild_parseInner v (hw'.2 k v hm) (hf.item hw'.1 hm)).1) hi

/-! ## Nothing is lost -/

theorem length_remainsDict : ∀ d : Dict, (remainsDict d).length ≤ d.length
  | [] => Nat.le_refl _
  | (k, v) :: r => by
    have := length_remainsDict r
    rw [remainsDict]
    split
    · simp only [List.length_cons]; omega
    · simp only [List.length_cons]; omega

theorem isEmptyString_iff (v : Value) : strictEq v (.str []) = true ↔ v = .str [] := by
  constructor
  · intro h
    cases v with
    | str s => simpa [strictEq, eqWith, strictScalarEq] using h
    | _ => simp [strictEq, eqWith, strictScalarEq] at h
  · rintro rfl; rfl

theorem remainsDict_iff : ∀ {d : Dict}, (∀ k v, (k, v) ∈ d → (remains v = v ↔ Rebuildable v)) →
    (remainsDict d = d ↔ RebuildableDict d)
  | [], _ => by simp [remainsDict, RebuildableDict]
  | (k, v) :: r, h => by
    have ih := remainsDict_iff (fun k v hm => h k v (List.mem_cons_of_mem _ hm))
    have hv := h k v List.mem_cons_self
    rw [remainsDict, RebuildableDict]
    by_cases he : v.isEmptyContainer = true
    · rw [if_pos he]
      constructor
      · intro e
        have h1 := congrArg List.length e
        have h2 := length_remainsDict r
        simp only [List.length_cons] at h1
        omega
      · rintro ⟨h1, _⟩
        rw [he] at h1
        cases h1
    · rw [if_neg he, List.cons.injEq, Prod.mk.injEq, hv, ih]
      simp only [Bool.not_eq_true] at he
      simp only [he, true_and]

theorem remainsList_iff : ∀ {l : List Value}, (∀ v ∈ l, (remains v = v ↔ Rebuildable v)) →
    (remainsList l = l ↔ RebuildableList l)
  | [], _ => by simp [remainsList, RebuildableList]
  | v :: r, h => by
    have ih := remainsList_iff (fun v hm => h v (List.mem_cons_of_mem _ hm))
    have hv := h v List.mem_cons_self
    rw [remainsList, RebuildableList, List.cons.injEq, ih]
    by_cases he : v.isEmptyContainer = true
    · rw [if_pos (by rw [he]; rfl)]
      constructor
      · rintro ⟨e, _⟩
        subst e
        cases he
      · rintro ⟨h1, _⟩
        rw [he] at h1
        cases h1
    · by_cases hs : v = .str []
      · subst hs
        rw [if_pos (by decide)]
        simp
      · rw [if_neg, hv]
        · simp only [Bool.not_eq_true] at he
          simp only [he, true_and, ne_eq, hs, not_false_eq_true]
        · rw [Bool.or_eq_true, isEmptyString_iff]
          rintro (h1 | h1)
          · exact he h1
          · exact hs h1

theorem remains_iff : ∀ v : Value, remains v = v ↔ Rebuildable v := by
  apply Value.ind
  · simp [remains, Rebuildable]
  · simp [remains, Rebuildable]
  · simp [remains, Rebuildable]
  · simp [remains, Rebuildable]
  · simp [remains, Rebuildable]
  · intro l ih
    rw [remains, Rebuildable, Value.list.injEq]
    exact remainsList_iff ih
  · intro d ih
    rw [remains, Rebuildable, Value.dict.injEq]
    exact remainsDict_iff ih

end Splitgill
