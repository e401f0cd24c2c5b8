import Verif.Proof.Parse3
/-!
# Lemmas about parsed values
-/

namespace Splitgill

variable {E : ParseEnv} {o : ParsingOptions}

theorem intStr_eq (i : Int) : intStr i = (toString i).toList := by
  cases i with
  | ofNat n =>
    show Nat.toDigits 10 n = (Nat.repr n).toList
    unfold Nat.repr
    generalize Nat.toDigits 10 n = ds
    simp
  | negSucc n =>
    show '-' :: Nat.toDigits 10 (n + 1) = ("-" ++ Nat.repr (n + 1)).toList
    unfold Nat.repr
    generalize Nat.toDigits 10 (n + 1) = ds
    simp

theorem strValue_eq (v : Value) : strValue E o v = textOf E o v := by
  cases v with
  | int i => exact intStr_eq i
  | bool b => cases b <;> rfl
  | _ => rfl

theorem aget_asetOpt (k k' : PyStr) (v : Option Value) (d : Dict) :
    aget k' (asetOpt k v d) = if k' = k then v.or (aget k' d) else aget k' d := by
  cases v with
  | some v =>
    show aget k' (aset k v d) = _
    rw [aget_aset]
    split <;> simp
  | none =>
    show aget k' d = _
    split <;> simp

theorem parseValue_eq' (v : Value) : parseValue E o v =
    asetOpt "_d".toList ((parsedDate E o v).map Value.int) (asetOpt "_n".toList (parsedNumber E o v)
      (asetOpt "_b".toList ((parsedBool E o v).map Value.bool) (valueBase E o v))) := rfl

theorem aget_valueBase {v : Value} {t : PyStr} (ht : t ∉ geoTypes) : aget t (valueBase E o v) =
    aget t [("_u".toList, v), ("_t".toList, .str (strValue E o v)),
      ("_k".toList, .str (pyTake o.keywordLength (strValue E o v)))] := by
  unfold valueBase
  dsimp only
  split
  · rename_i g hg
    rw [aget_aupdate t _ _ (by rw [akeys_geoDict]; exact geoTypes_nodup)]
    have : aget t (geoDict g) = none := aget_eq_none_iff.2 (by rw [akeys_geoDict]; exact ht)
    rw [this]
    rfl
  · rfl

theorem setMem_str {s : PyStr} {l : List PyStr} : setMem strEq s l = true ↔ s ∈ l := by
  rw [setMem_eq]
  constructor
  · rintro ⟨y, hy, e⟩
    have : s = y := by simpa [strEq] using e
    exact this ▸ hy
  · intro h
    exact ⟨s, h, by simp [strEq]⟩

theorem aget_bool (v : Value) : aget "_b".toList (parseValue E o v) = (parsedBool E o v).map Value.bool := by
  rw [parseValue_eq', aget_asetOpt, if_neg (by decide), aget_asetOpt, if_neg (by decide), aget_asetOpt, if_pos rfl,
    aget_valueBase (by decide)]
  cases (parsedBool E o v) <;> rfl

theorem aget_number (v : Value) : aget "_n".toList (parseValue E o v) = parsedNumber E o v := by
  rw [parseValue_eq', aget_asetOpt, if_neg (by decide), aget_asetOpt, if_pos rfl, aget_asetOpt, if_neg (by decide),
    aget_valueBase (by decide)]
  cases (parsedNumber E o v) <;> rfl

theorem aget_date (v : Value) : aget "_d".toList (parseValue E o v) = (parsedDate E o v).map Value.int := by
  rw [parseValue_eq', aget_asetOpt, if_pos rfl, aget_asetOpt, if_neg (by decide), aget_asetOpt, if_neg (by decide),
    aget_valueBase (by decide)]
  cases (parsedDate E o v) <;> rfl

theorem aget_base {v : Value} {t : PyStr} (ht : t ∉ geoTypes ++ ["_b".toList, "_n".toList, "_d".toList]) :
    aget t (parseValue E o v) = aget t [("_u".toList, v), ("_t".toList, .str (strValue E o v)),
      ("_k".toList, .str (pyTake o.keywordLength (strValue E o v)))] := by
  have h : t ∉ geoTypes ∧ t ≠ "_b".toList ∧ t ≠ "_n".toList ∧ t ≠ "_d".toList := by
    simpa using ht
  rw [parseValue_eq', aget_asetOpt, if_neg h.2.2.2, aget_asetOpt, if_neg h.2.2.1, aget_asetOpt, if_neg h.2.1,
    aget_valueBase h.1]

theorem parsedBool_other {v : Value} (hv : ∀ b, v ≠ .bool b) : parsedBool E o v =
    if E.lower (textOf E o v) ∈ o.trueValues then some true
    else if E.lower (textOf E o v) ∈ o.falseValues then some false else none := by
  rw [← strValue_eq]
  cases v with
  | bool b => exact absurd rfl (hv b)
  | _ =>
    unfold parsedBool
    simp only [setMem_str]

theorem parsedNumber_other {v : Value} (h1 : ∀ i, v ≠ .int i) (h2 : ∀ f, v ≠ .float f) : parsedNumber E o v =
    (E.toNumber (textOf E o v)).map Value.float := by
  rw [← strValue_eq]
  cases v with
  | int i => exact absurd rfl (h1 i)
  | float f => exact absurd rfl (h2 f)
  | _ => rfl

theorem parsedAs_parseValue {v : Value} {pv : Dict} (h : ∀ t, t ∉ geoTypes → aget t pv = aget t (parseValue E o v)) :
    ParsedAs E o v pv := by
  have hb : aget "_b".toList pv = (parsedBool E o v).map Value.bool := by rw [h _ (by decide), aget_bool]
  have hn : aget "_n".toList pv = parsedNumber E o v := by rw [h _ (by decide), aget_number]
  have hd : aget "_d".toList pv = (parsedDate E o v).map Value.int := by rw [h _ (by decide), aget_date]
  have hdate : parsedDate E o v = o.dateFormats.findSome? (fun f => E.parseDate (textOf E o v) f) := by
    rw [← strValue_eq]; rfl
  refine ⟨?_, ?_, ?_, ?_, ?_, ?_, ?_, ?_, ?_, ?_, ?_, ?_⟩
  · rw [h _ (by decide), aget_base (by decide)]; rfl
  · rw [h _ (by decide), aget_base (by decide), ← strValue_eq]; rfl
  · intro hk
    rw [h _ (by decide), aget_base (by decide), ← strValue_eq]
    show some (Value.str (pyTake _ _)) = _
    unfold pyTake
    rw [if_pos hk]
  · rintro b rfl
    rw [hb]; rfl
  · intro hv
    rw [hb, parsedBool_other hv]
    split
    · rename_i h; simp [h]
    · rename_i h
      simp only [h, iff_false]
      split <;> simp
  · intro hv
    rw [hb, parsedBool_other hv]
    split
    · rename_i h; simp [h]
    · rename_i h
      split
      · rename_i h'; simp [h, h']
      · rename_i h'; simp [h']
  · intro w hw
    rw [hb] at hw
    cases hp : parsedBool E o v with
    | none => rw [hp] at hw; cases hw
    | some b => rw [hp] at hw; cases hw; exact ⟨b, rfl⟩
  · rintro i rfl
    rw [hn]; rfl
  · rintro f rfl
    rw [hn]; rfl
  · intro h1 h2
    rw [hn, parsedNumber_other h1 h2]
  · intro w hw
    rw [hd, hdate] at hw
    cases hp : o.dateFormats.findSome? (fun f => E.parseDate (textOf E o v) f) with
    | none => rw [hp] at hw; cases hw
    | some t =>
      rw [hp] at hw
      cases hw
      obtain ⟨f, hf, e⟩ := List.exists_of_findSome?_eq_some hp
      exact ⟨f, hf, t, e, rfl⟩
  · rw [hd, hdate, Option.map_eq_none_iff, List.findSome?_eq_none_iff]

/-! ## Where values are -/

/-- The same but for the types of places. -/
def GeoSame (a b : Value) : Prop :=
  a = b ∨ ∃ d d', a = .dict d ∧ b = .dict d' ∧ (∀ t, t ∉ geoTypes → aget t d' = aget t d) ∧
    ∀ t z, t ∈ geoTypes → aget t d' = some z → z.isScalar = true ∨ aget t d = some z

theorem GeoSame.refl (a : Value) : GeoSame a a := .inl rfl

theorem GeoSame.trans {a b c : Value} (h1 : GeoSame a b) (h2 : GeoSame b c) : GeoSame a c := by
  rcases h1 with rfl | ⟨d, d', rfl, rfl, h1, g1⟩
  · exact h2
  · rcases h2 with rfl | ⟨e, e', he, rfl, h2, g2⟩
    · exact .inr ⟨d, d', rfl, rfl, h1, g1⟩
    · cases he
      refine .inr ⟨d, e', rfl, rfl, fun t ht => (h2 t ht).trans (h1 t ht), fun t z ht hz => ?_⟩
      rcases g2 t z ht hz with h | h
      · exact .inl h
      · exact g1 t z ht h

theorem geoSame_update (d : Dict) (g : PyStr × PyStr) : GeoSame (.dict d) (.dict (aupdate d (geoDict g))) := by
  have hn : (akeys (geoDict g)).Nodup := by rw [akeys_geoDict]; exact geoTypes_nodup
  refine .inr ⟨d, _, rfl, rfl, ?_, ?_⟩
  · intro t ht
    rw [aget_aupdate t _ _ hn]
    have : aget t (geoDict g) = none := aget_eq_none_iff.2 (by rw [akeys_geoDict]; exact ht)
    rw [this]
    rfl
  · intro t z ht hz
    left
    rw [aget_aupdate t _ _ hn] at hz
    have h4 : t = "_gp".toList ∨ t = "_gs".toList := by simpa [geoTypes] using ht
    rcases h4 with rfl | rfl
    · have : some (Value.str g.1) = some z := hz
      cases this; rfl
    · have : some (Value.str g.2) = some z := hz
      cases this; rfl

theorem addHints_get_iff : ∀ {hs : List (PyStr × (PyStr × PyStr))} {p p' : Dict}, addHints hs p = .ok p' →
    ∀ k, (aget k p = none ∧ aget k p' = none) ∨ ∃ w w', aget k p = some w ∧ aget k p' = some w' ∧ GeoSame w w'
  | [], p, _, h, k => by
    cases h
    cases hk : aget k p with
    | none => exact .inl ⟨rfl, rfl⟩
    | some w => exact .inr ⟨w, w, rfl, rfl, .refl w⟩
  | (k', g) :: r, p, p', h, k => by
    rw [addHints] at h
    split at h
    · cases h
    · rename_i d hd
      have ih := addHints_get_iff h k
      rw [aget_aset] at ih
      by_cases e : k = k'
      · subst e
        rw [if_pos rfl] at ih
        rcases ih with ⟨ih, _⟩ | ⟨w, w', h1, h2, h3⟩
        · cases ih
        · cases h1
          exact .inr ⟨_, w', hd, h2, (geoSame_update d g).trans h3⟩
      · rw [if_neg e] at ih
        exact ih
    · cases h

theorem addHints_get {hs : List (PyStr × (PyStr × PyStr))} {p p' : Dict} (h : addHints hs p = .ok p')
    {k w} (hw : aget k p = some w) : ∃ w', aget k p' = some w' ∧ GeoSame w w' := by
  rcases addHints_get_iff h k with ⟨h1, _⟩ | ⟨w1, w', h1, h2, h3⟩
  · rw [hw] at h1; cases h1
  · rw [hw] at h1; cases h1; exact ⟨w', h2, h3⟩

theorem parseItems_get : ∀ {d : Dict} {x}, parseItems E o d = .ok x → (akeys d).Nodup → ∀ {k v}, aget k d = some v →
    ∃ y, parseInner E o false v = .ok y ∧ aget k x.parsed = y.parsed
  | [], _, _, _, _, _, h => by cases h
  | (k', v') :: r, x, h, hn, k, v, hk => by
    have h0 := h
    rw [parseItems] at h
    split at h
    · cases h
    · rename_i x1 h1
      split at h
      · cases h
      · rename_i y hy
        cases h
        have hn' : k' ∉ akeys r ∧ (akeys r).Nodup := by simpa [akeys] using hn
        rw [aget_cons] at hk
        dsimp only
        by_cases e : k = k'
        · subst e
          rw [if_pos rfl] at hk
          cases hk
          refine ⟨x1, h1, ?_⟩
          split
          · rename_i p hp
            rw [aget_cons, if_pos rfl, hp]
          · rename_i hp
            rw [hp]
            exact aget_eq_none_iff.2 (fun hm => hn'.1 ((parseItems_keys hy).subset hm))
        · have e' : ¬ k' = k := fun h => e h.symm
          first
            | rw [if_neg e] at hk
            | rw [if_neg e'] at hk
          obtain ⟨z, h2, h3⟩ := parseItems_get hy hn'.2 hk
          refine ⟨z, h2, ?_⟩
          split
          · rw [aget_cons]
            first
              | rw [if_neg e, h3]
              | rw [if_neg e', h3]
          · exact h3

theorem parseElems_get : ∀ {l : List Value} {x}, parseElems E o l = .ok x → ∀ {i : Nat} {v}, l[i]? = some v →
    ∃ y, parseInner E o true v = .ok y ∧ x.parsed[i]? = some (y.parsed.getD .none)
  | [], _, _, _, _, h => by simp at h
  | v' :: r, x, h, i, v, hi => by
    rw [parseElems] at h
    split at h
    · cases h
    · rename_i x1 h1
      split at h
      · cases h
      · rename_i y hy
        cases h
        cases i with
        | zero =>
          simp only [List.getElem?_cons_zero, Option.some.injEq] at hi
          subst hi
          exact ⟨x1, h1, by simp⟩
        | succ i =>
          simp only [List.getElem?_cons_succ] at hi
          obtain ⟨z, h2, h3⟩ := parseElems_get hy hi
          exact ⟨z, h2, by simpa using h3⟩

theorem FieldName.not_geo {k : PyStr} (h : FieldName k) : k ∉ geoTypes := by
  intro hk
  have : k = "_gp".toList ∨ k = "_gs".toList := by simpa [geoTypes] using hk
  rcases this with e | e
  · exact h.ne_type .geoPoint e
  · exact h.ne_type .geoShape e

theorem assemble_get {c : Bool} {d : Dict} {items x : PResult Dict} (hi : parseItems E o d = .ok items)
    (h : assembleDict E o c d items = .ok x) (hn : (akeys d).Nodup) {k : PyStr} {v : Value} (hk : aget k d = some v) :
    ∃ y, parseInner E o false v = .ok y ∧ ∀ w, y.parsed = some w → ∃ w', aget k x.parsed = some w' ∧ GeoSame w w' := by
  obtain ⟨y, h1, h2⟩ := parseItems_get hi hn hk
  refine ⟨y, h1, fun w hw => ?_⟩
  unfold assembleDict at h
  simp only [] at h
  split at h
  · cases h
  · rename_i p' hp
    cases h
    refine addHints_get hp ?_
    rw [aget_aupdate k _ _ ((parseItems_keys hi).nodup hn), h2, hw]
    rfl

/-- What is at a key of a parsed dict: a place, or what a field is parsed to. -/
theorem assemble_inv {c : Bool} {d : Dict} {items x : PResult Dict} (hi : parseItems E o d = .ok items)
    (h : assembleDict E o c d items = .ok x) (hn : (akeys d).Nodup) (hf : ∀ k ∈ akeys d, FieldName k) (k : PyStr) :
    (k ∈ geoTypes → ∀ q, aget k x.parsed = some q → q.isScalar = true) ∧
    (k ∉ geoTypes → ∀ q, aget k x.parsed = some q → ∃ v y, (k, v) ∈ d ∧ parseInner E o false v = .ok y ∧
      ∃ w, y.parsed = some w ∧ GeoSame w q) := by
  unfold assembleDict at h
  simp only [] at h
  split at h
  · cases h
  · rename_i p' hp
    cases h
    have hni := (parseItems_keys hi).nodup hn
    have hbase : ∀ q, aget k (((if c then matchGeojson E d else none).map geoDict).getD []) = some q →
        k ∈ geoTypes ∧ q.isScalar = true := by
      intro q hq
      generalize (if c = true then matchGeojson E d else none) = g at hq
      cases g with
      | none => cases hq
      | some g =>
        have hm := aget_mem hq
        refine ⟨by have := mem_akeys_of_mem hm; exact this, ?_⟩
        simp only [Option.map_some, Option.getD_some, geoDict, List.mem_cons, List.not_mem_nil, or_false, Prod.mk.injEq] at hm
        rcases hm with ⟨_, rfl⟩ | ⟨_, rfl⟩ <;> rfl
    constructor
    · intro hk q hq
      rcases addHints_get_iff hp k with ⟨_, h1⟩ | ⟨w, w', h1, h2, h3⟩
      · rw [hq] at h1; cases h1
      · rw [hq] at h2
        cases h2
        rcases mem_of_aget_aupdate hni h1 with hm | hm
        · obtain ⟨v, _, hv, _⟩ := parseItems_item hi hm
          exact absurd hk (hf k (mem_akeys_of_mem hv)).not_geo
        · have hs := (hbase w hm).2
          rcases h3 with rfl | ⟨d1, d2, rfl, _⟩
          · exact hs
          · cases hs
    · intro hk q hq
      rcases addHints_get_iff hp k with ⟨_, h1⟩ | ⟨w, w', h1, h2, h3⟩
      · rw [hq] at h1; cases h1
      · rw [hq] at h2
        cases h2
        rcases mem_of_aget_aupdate hni h1 with hm | hm
        · obtain ⟨v, y, hv, h4, h5⟩ := parseItems_item hi hm
          exact ⟨v, y, hv, h4, w, h5, h3⟩
        · exact absurd (hbase w hm).1 hk

theorem parseElems_length : ∀ {l : List Value} {x}, parseElems E o l = .ok x → x.parsed.length = l.length
  | [], _, h => by cases h; rfl
  | v :: r, x, h => by
    rw [parseElems] at h
    split at h
    · cases h
    · split at h
      · cases h
      · rename_i y hy
        cases h
        simp [parseElems_length hy]

/-- A value at a path is parsed to a dict at this path. -/
theorem parseInner_at {w : Value} (hs : w.isIndexed = true) : ∀ v : Value, v.wf = true → FieldNames v → ∀ (p : Path) c x,
    getAt p v = some w → parseInner E o c v = .ok x →
    ∃ pw, x.parsed = some pw ∧ ∀ pw', GeoSame pw pw' → ∃ pv, getAt p pw' = some (.dict pv) ∧
      ∀ t, t ∉ geoTypes → aget t pv = aget t (parseValue E o w) := by
  have hscalar : ∀ (pw' : Value) (p : Path), GeoSame (.dict (parseValue E o w)) pw' → p = [] → ∃ pv, getAt p pw' = some (.dict pv) ∧
      ∀ t, t ∉ geoTypes → aget t pv = aget t (parseValue E o w) := by
    rintro pw' p (rfl | ⟨d, d', e, rfl, h, _⟩) rfl
    · exact ⟨_, rfl, fun _ _ => rfl⟩
    · cases e
      exact ⟨d', rfl, h⟩
  have hp0 : ∀ {p : Path} {v : Value}, v.isScalar = true → getAt p v = some w → p = [] := by
    intro p v hv h
    cases p with
    | nil => rfl
    | cons a p => cases a <;> cases v <;> simp_all [getAt, Value.isScalar]
  apply Value.ind
  · intro _ _ p c x hp h
    have := getAt_scalar rfl hp
    subst this
    cases hs
  · intro b _ _ p c x hp h
    have e := getAt_scalar rfl hp
    subst e
    cases h
    exact ⟨_, rfl, fun pw' hg => hscalar pw' p hg (hp0 rfl hp)⟩
  · intro b _ _ p c x hp h
    have e := getAt_scalar rfl hp
    subst e
    cases h
    exact ⟨_, rfl, fun pw' hg => hscalar pw' p hg (hp0 rfl hp)⟩
  · intro b _ _ p c x hp h
    have e := getAt_scalar rfl hp
    subst e
    cases h
    exact ⟨_, rfl, fun pw' hg => hscalar pw' p hg (hp0 rfl hp)⟩
  · intro b _ _ p c x hp h
    have e := getAt_scalar rfl hp
    subst e
    have hb : b.isEmpty = false := by simpa [Value.isIndexed] using hs
    rw [parseInner, if_neg (by simp [hb])] at h
    cases h
    exact ⟨_, rfl, fun pw' hg => hscalar pw' p hg (hp0 rfl hp)⟩
  · intro l ih hw hf p c x hp h
    cases p with
    | nil =>
      simp only [getAt, Option.some.injEq] at hp
      subst hp
      cases hs
    | cons a p =>
      cases a with
      | key k => simp [getAt] at hp
      | idx i =>
        rw [getAt, Option.bind_eq_some_iff] at hp
        obtain ⟨v, hv, hp⟩ := hp
        have hm := List.mem_of_getElem? hv
        cases l with
        | nil => cases hm
        | cons v0 r =>
          rw [parseInner] at h
          split at h
          · cases h
          · rename_i y hy
            cases h
            refine ⟨_, rfl, fun pw' hg => ?_⟩
            rcases hg with rfl | ⟨d, d', e, _⟩
            · obtain ⟨z, h1, h2⟩ := parseElems_get hy hv
              obtain ⟨pw, h3, h4⟩ := ih v hm (wf_list_iff.1 hw v hm) (hf.elem hm) p true z hp h1
              obtain ⟨pv, h5, h6⟩ := h4 pw (.refl pw)
              refine ⟨pv, ?_, h6⟩
              rw [getAt, h2, h3]
              exact h5
            · cases e
  · intro d ih hw hf p c x hp h
    have hw' := wf_dict_iff.1 hw
    cases p with
    | nil =>
      simp only [getAt, Option.some.injEq] at hp
      subst hp
      cases hs
    | cons a p =>
      cases a with
      | idx i => simp [getAt] at hp
      | key k =>
        rw [getAt, Option.bind_eq_some_iff] at hp
        obtain ⟨v, hv, hp⟩ := hp
        have hm := aget_mem hv
        cases d with
        | nil => cases hm
        | cons v0 r =>
          rw [parseInner] at h
          split at h
          · cases h
          · rename_i items hitems
            split at h
            · cases h
            · rename_i y hy
              cases h
              obtain ⟨z, h1, h2⟩ := assemble_get hitems hy hw'.1 hv
              obtain ⟨pw, h3, h4⟩ := ih k v hm (hw'.2 k v hm) (hf.item hw'.1 hm) p false z hp h1
              obtain ⟨w', h5, h6⟩ := h2 pw h3
              obtain ⟨pv, h7, h8⟩ := h4 w' h6
              refine ⟨_, rfl, fun pw' hg => ⟨pv, ?_, h8⟩⟩
              rcases hg with rfl | ⟨e, e', he, rfl, hg, _⟩
              · rw [getAt, h5]
                exact h7
              · cases he
                rw [getAt, hg k (hf.dict k (mem_akeys_of_mem hm)).not_geo, h5]
                exact h7

/-- A value at a path of the data is parsed to a dict at this path. -/
theorem parse_at {d : Dict} {pd : ParsedData} (hw : (Value.dict d).wf = true) (hf : FieldNames (.dict d))
    (h : parse E o d = .ok pd) {p : Path} {w : Value} (hp : getAt p (.dict d) = some w) (hs : w.isIndexed = true) :
    ∃ pv, getAt p (.dict pd.parsed) = some (.dict pv) ∧ ∀ t, t ∉ geoTypes → aget t pv = aget t (parseValue E o w) := by
  have hw' := wf_dict_iff.1 hw
  cases p with
  | nil =>
    simp only [getAt, Option.some.injEq] at hp
    subst hp
    cases hs
  | cons a p =>
    cases a with
    | idx i => simp [getAt] at hp
    | key k =>
      rw [getAt, Option.bind_eq_some_iff] at hp
      obtain ⟨v, hv, hp⟩ := hp
      have hm := aget_mem hv
      obtain ⟨x, hx, hpx, _⟩ := parse_ok h
      obtain ⟨items, hi, ha⟩ := parseDict_ok hx
      obtain ⟨z, h1, h2⟩ := assemble_get hi ha hw'.1 hv
      obtain ⟨pw, h3, h4⟩ := parseInner_at hs v (hw'.2 k v hm) (hf.item hw'.1 hm) p false z hp h1
      obtain ⟨w', h5, h6⟩ := h2 pw h3
      obtain ⟨pv, h7, h8⟩ := h4 w' h6
      refine ⟨pv, ?_, h8⟩
      rw [getAt, ← hpx, h5]
      exact h7

/-! ## Where indexed values come from -/

/-- A type other than places and the value itself. -/
def PlainType (t : PyStr) : Prop := t ∈ ["_t".toList, "_k".toList, "_b".toList, "_n".toList, "_d".toList]

theorem PlainType.not_geo {t : PyStr} (h : PlainType t) : t ∉ geoTypes := by
  have : t = "_t".toList ∨ t = "_k".toList ∨ t = "_b".toList ∨ t = "_n".toList ∨ t = "_d".toList := by
    simpa [PlainType] using h
  rcases this with rfl | rfl | rfl | rfl | rfl <;> decide

theorem PlainType.not_field {t : PyStr} (h : PlainType t) : ¬ FieldName t := by
  have : t = "_t".toList ∨ t = "_k".toList ∨ t = "_b".toList ∨ t = "_n".toList ∨ t = "_d".toList := by
    simpa [PlainType] using h
  intro hf
  rcases this with rfl | rfl | rfl | rfl | rfl
  · exact hf.ne_type .text rfl
  · exact hf.ne_type .keyword rfl
  · exact hf.ne_type .boolean rfl
  · exact hf.ne_type .number rfl
  · exact hf.ne_type .date rfl

theorem PlainType.ne_unparsed {t : PyStr} (h : PlainType t) : t ≠ "_u".toList := by
  have : t = "_t".toList ∨ t = "_k".toList ∨ t = "_b".toList ∨ t = "_n".toList ∨ t = "_d".toList := by
    simpa [PlainType] using h
  rcases this with rfl | rfl | rfl | rfl | rfl <;> decide

theorem getAt_scalar_cons {a : PathEl} {p : Path} {v : Value} (hv : v.isScalar = true) : getAt (a :: p) v = none := by
  cases a <;> cases v <;> simp_all [getAt, Value.isScalar]

theorem aget_asetOpt_scalar {k k' : PyStr} {v : Option Value} {d : Dict} (hv : ∀ x, v = some x → x.isScalar = true)
    (hd : ∀ k x, aget k d = some x → x.isScalar = true) {x : Value} (h : aget k' (asetOpt k v d) = some x) :
    x.isScalar = true := by
  rw [aget_asetOpt] at h
  split at h
  · cases v with
    | none => exact hd _ _ h
    | some y =>
      have : some y = some x := h
      cases this
      exact hv _ rfl
  · exact hd _ _ h

theorem parseValue_scalar {v : Value} (hv : v.isScalar = true) {t : PyStr} {x : Value}
    (h : aget t (parseValue E o v) = some x) : x.isScalar = true := by
  rw [parseValue_eq'] at h
  refine aget_asetOpt_scalar ?_ (fun k x h => aget_asetOpt_scalar ?_ (fun k x h => aget_asetOpt_scalar ?_
    (fun k x h => ?_) h) h) h
  · intro x hx
    cases hp : parsedDate E o v with
    | none => rw [hp] at hx; cases hx
    | some y => rw [hp] at hx; cases hx; rfl
  · intro x hx
    unfold parsedNumber at hx
    split at hx
    · cases hx; rfl
    · cases hx; rfl
    · obtain ⟨y, _, rfl⟩ := Option.map_eq_some_iff.1 hx
      rfl
  · intro x hx
    cases hp : parsedBool E o v with
    | none => rw [hp] at hx; cases hx
    | some y => rw [hp] at hx; cases hx; rfl
  · have hbase : ∀ k x, aget k [("_u".toList, v), ("_t".toList, Value.str (strValue E o v)),
        ("_k".toList, .str (pyTake o.keywordLength (strValue E o v)))] = some x → x.isScalar = true := by
      intro k x hx
      have := aget_mem hx
      simp only [List.mem_cons, List.not_mem_nil, or_false, Prod.mk.injEq] at this
      rcases this with ⟨_, rfl⟩ | ⟨_, rfl⟩ | ⟨_, rfl⟩
      · exact hv
      · rfl
      · rfl
    unfold valueBase at h
    dsimp only at h
    split at h
    · rename_i g hg
      rcases geoSame_update [("_u".toList, v), ("_t".toList, Value.str (strValue E o v)),
        ("_k".toList, .str (pyTake o.keywordLength (strValue E o v)))] g with e | ⟨d, d', e1, e2, h1, h2⟩
      · injection e with e
        rw [show (PType.unparsed.name, v) = ("_u".toList, v) from rfl] at h
        exact hbase k x (by rw [e]; exact h)
      · cases e1
        cases e2
        by_cases hk : k ∈ geoTypes
        · rcases h2 k x hk h with h | h
          · exact h
          · exact hbase k x h
        · exact hbase k x (by rw [← h1 k hk]; exact h)
    · exact hbase k x h

theorem parseInner_inv {t : PyStr} (ht : PlainType t) : ∀ v : Value, v.wf = true → FieldNames v → ∀ (p : Path) c x pw pw' y,
    parseInner E o c v = .ok x → x.parsed = some pw → GeoSame pw pw' → getAt (p ++ [.key t]) pw' = some y →
    ∃ w, getAt p v = some w ∧ w.isIndexed = true ∧ aget t (parseValue E o w) = some y := by
  have hnone : ∀ (p : Path) (pw' y : Value), GeoSame .none pw' → getAt (p ++ [.key t]) pw' = some y → False := by
    intro p pw' y hg h
    rcases hg with rfl | ⟨d, d', e, _⟩
    · cases p with
      | nil => cases h
      | cons a p => rw [List.cons_append, getAt_scalar_cons rfl] at h; cases h
    · cases e
  have hunp : ∀ (p : Path) (pw' y z : Value), z.isScalar = true → GeoSame (.dict [("_u".toList, z)]) pw' →
      getAt (p ++ [.key t]) pw' = some y → False := by
    intro p pw' y z hz hg h
    have hget : ∃ d', pw' = .dict d' ∧ ∀ k x, aget k d' = some x → k ≠ "_u".toList → k ∈ geoTypes ∧ x.isScalar = true := by
      rcases hg with rfl | ⟨d, d', e, rfl, h1, h2⟩
      · refine ⟨_, rfl, ?_⟩
        intro k x hx hk
        rw [aget_cons, if_neg hk] at hx
        cases hx
      · cases e
        refine ⟨d', rfl, ?_⟩
        intro k x hx hk
        by_cases hg : k ∈ geoTypes
        · refine ⟨hg, ?_⟩
          rcases h2 k x hg hx with h | h
          · exact h
          · rw [aget_cons, if_neg hk] at h
            cases h
        · rw [h1 k hg, aget_cons, if_neg hk] at hx
          cases hx
    have hu : ∀ d', GeoSame (.dict [("_u".toList, z)]) (.dict d') → aget "_u".toList d' = some z := by
      rintro d' (e | ⟨d, d'', e, e', h1, _⟩)
      · cases e; rfl
      · cases e; cases e'
        rw [h1 _ (by decide)]
        rfl
    obtain ⟨d', rfl, hd'⟩ := hget
    cases p with
    | nil =>
      rw [List.nil_append, getAt, Option.bind_eq_some_iff] at h
      obtain ⟨x, hx, _⟩ := h
      exact ht.not_geo (hd' t x hx ht.ne_unparsed).1
    | cons a p =>
      cases a with
      | idx i => cases h
      | key k =>
        rw [List.cons_append, getAt, Option.bind_eq_some_iff] at h
        obtain ⟨x, hx, h⟩ := h
        have hxs : x.isScalar = true := by
          by_cases hk : k = "_u".toList
          · subst hk
            rw [hu d' hg] at hx
            cases hx
            exact hz
          · exact (hd' k x hx hk).2
        have : ∃ a q, p ++ [PathEl.key t] = a :: q := by
          cases p with
          | nil => exact ⟨_, _, rfl⟩
          | cons a p => exact ⟨_, _, rfl⟩
        obtain ⟨a, q, e⟩ := this
        rw [e, getAt_scalar_cons hxs] at h
        cases h
  have hscal : ∀ (v : Value), v.isScalar = true → v.isIndexed = true → ∀ (p : Path) (pw' y : Value),
      GeoSame (.dict (parseValue E o v)) pw' → getAt (p ++ [.key t]) pw' = some y →
      ∃ w, getAt p v = some w ∧ w.isIndexed = true ∧ aget t (parseValue E o w) = some y := by
    intro v hv hi p pw' y hg h
    have hget : ∃ d', pw' = .dict d' ∧ (∀ k, k ∉ geoTypes → aget k d' = aget k (parseValue E o v)) ∧
        ∀ k x, aget k d' = some x → x.isScalar = true := by
      rcases hg with rfl | ⟨d, d', e, rfl, h1, h2⟩
      · exact ⟨_, rfl, fun _ _ => rfl, fun k x hx => parseValue_scalar hv hx⟩
      · cases e
        refine ⟨d', rfl, h1, ?_⟩
        intro k x hx
        by_cases hk : k ∈ geoTypes
        · rcases h2 k x hk hx with h | h
          · exact h
          · exact parseValue_scalar hv h
        · rw [h1 k hk] at hx
          exact parseValue_scalar hv hx
    obtain ⟨d', rfl, h1, h2⟩ := hget
    cases p with
    | nil =>
      rw [List.nil_append, getAt, Option.bind_eq_some_iff] at h
      obtain ⟨x, hx, h⟩ := h
      simp only [getAt, Option.some.injEq] at h
      subst h
      exact ⟨v, rfl, hi, by rw [← h1 t ht.not_geo]; exact hx⟩
    | cons a p =>
      cases a with
      | idx i => cases h
      | key k =>
        rw [List.cons_append, getAt, Option.bind_eq_some_iff] at h
        obtain ⟨x, hx, h⟩ := h
        have hxs := h2 k x hx
        have : ∃ a q, p ++ [PathEl.key t] = a :: q := by
          cases p with
          | nil => exact ⟨_, _, rfl⟩
          | cons a p => exact ⟨_, _, rfl⟩
        obtain ⟨a, q, e⟩ := this
        rw [e, getAt_scalar_cons hxs] at h
        cases h
  apply Value.ind
  · intro _ _ p c x pw pw' y h hp hg hy
    cases h
    cases c
    · cases hp
      exact (hunp p pw' y _ rfl hg hy).elim
    · cases hp
      exact (hnone p pw' y hg hy).elim
  · intro b _ _ p c x pw pw' y h hp hg hy
    cases h
    cases hp
    exact hscal _ rfl rfl p pw' y hg hy
  · intro b _ _ p c x pw pw' y h hp hg hy
    cases h
    cases hp
    exact hscal _ rfl rfl p pw' y hg hy
  · intro b _ _ p c x pw pw' y h hp hg hy
    cases h
    cases hp
    exact hscal _ rfl rfl p pw' y hg hy
  · intro b _ _ p c x pw pw' y h hp hg hy
    rw [parseInner] at h
    split at h
    · cases h
      cases c
      · cases hp
        exact (hunp p pw' y _ rfl hg hy).elim
      · cases hp
        exact (hnone p pw' y hg hy).elim
    · rename_i hb
      cases h
      cases hp
      exact hscal _ rfl (by simpa [Value.isIndexed] using hb) p pw' y hg hy
  · intro l ih hw hf p c x pw pw' y h hp hg hy
    cases l with
    | nil =>
      cases h
      cases c
      · cases hp
      · cases hp
        exact (hnone p pw' y hg hy).elim
    | cons v0 r =>
      rw [parseInner] at h
      split at h
      · cases h
      · rename_i z hz
        cases h
        cases hp
        rcases hg with rfl | ⟨d, d', e, _⟩
        · cases p with
          | nil => cases hy
          | cons a p =>
            cases a with
            | key k => cases hy
            | idx i =>
              rw [List.cons_append, getAt, Option.bind_eq_some_iff] at hy
              obtain ⟨q, hq, hy⟩ := hy
              have hlt : i < (v0 :: r).length := by
                rw [← parseElems_length hz]
                exact (List.getElem?_eq_some_iff.1 hq).1
              obtain ⟨u, h1, h2⟩ := parseElems_get hz (List.getElem?_eq_getElem hlt)
              rw [hq] at h2
              cases h2
              have hm := List.getElem_mem hlt
              cases hu : u.parsed with
              | none =>
                rw [hu] at hy
                exact (hnone p _ y (.refl _) hy).elim
              | some q' =>
                rw [hu] at hy
                obtain ⟨w, h3, h4⟩ := ih _ hm (wf_list_iff.1 hw _ hm) (hf.elem hm) p true u q' q' y h1 hu (.refl _) hy
                refine ⟨w, ?_, h4⟩
                rw [getAt, List.getElem?_eq_getElem hlt]
                exact h3
        · cases e
  · intro d ih hw hf p c x pw pw' y h hp hg hy
    have hw' := wf_dict_iff.1 hw
    cases d with
    | nil =>
      cases h
      cases c
      · cases hp
      · cases hp
        exact (hnone p pw' y hg hy).elim
    | cons kv r =>
      rw [parseInner] at h
      split at h
      · cases h
      · rename_i items hitems
        split at h
        · cases h
        · rename_i z hz
          cases h
          cases hp
          have hinv := fun k => assemble_inv hitems hz hw'.1 hf.dict k
          have hget : ∃ d', pw' = .dict d' ∧ ∀ k q, aget k d' = some q → q.isScalar = true ∧ k ∈ geoTypes ∨
              aget k z.parsed = some q ∧ k ∉ geoTypes := by
            rcases hg with rfl | ⟨d, d', e, rfl, h1, h2⟩
            · refine ⟨_, rfl, fun k q hq => ?_⟩
              by_cases hk : k ∈ geoTypes
              · exact .inl ⟨(hinv k).1 hk q hq, hk⟩
              · exact .inr ⟨hq, hk⟩
            · cases e
              refine ⟨d', rfl, fun k q hq => ?_⟩
              by_cases hk : k ∈ geoTypes
              · left
                refine ⟨?_, hk⟩
                rcases h2 k q hk hq with h | h
                · exact h
                · exact (hinv k).1 hk q h
              · exact .inr ⟨by rw [← h1 k hk]; exact hq, hk⟩
          obtain ⟨d', rfl, hget⟩ := hget
          cases p with
          | nil =>
            rw [List.nil_append, getAt, Option.bind_eq_some_iff] at hy
            obtain ⟨q, hq, _⟩ := hy
            rcases hget t q hq with ⟨_, h⟩ | ⟨h, _⟩
            · exact absurd h ht.not_geo
            · obtain ⟨v, _, hv, _⟩ := (hinv t).2 ht.not_geo q h
              exact absurd (hf.dict t (mem_akeys_of_mem hv)) ht.not_field
          | cons a p =>
            cases a with
            | idx i => cases hy
            | key k =>
              rw [List.cons_append, getAt, Option.bind_eq_some_iff] at hy
              obtain ⟨q, hq, hy⟩ := hy
              rcases hget k q hq with ⟨h, _⟩ | ⟨h, hk⟩
              · have : ∃ a q, p ++ [PathEl.key t] = a :: q := by
                  cases p with
                  | nil => exact ⟨_, _, rfl⟩
                  | cons a p => exact ⟨_, _, rfl⟩
                obtain ⟨a, q', e⟩ := this
                rw [e, getAt_scalar_cons h] at hy
                cases hy
              · obtain ⟨v, u, hv, h1, w, h2, h3⟩ := (hinv k).2 hk q h
                obtain ⟨w', h4, h5⟩ := ih k v hv (hw'.2 k v hv) (hf.item hw'.1 hv) p false u w q y h1 h2 h3 hy
                refine ⟨w', ?_, h5⟩
                rw [getAt, aget_of_mem hw'.1 hv]
                exact h4

/-- An indexed value comes from a value at the same path. -/
theorem parse_inv {d : Dict} {pd : ParsedData} (hw : (Value.dict d).wf = true) (hf : FieldNames (.dict d))
    (h : parse E o d = .ok pd) {t : PyStr} (ht : PlainType t) {p : Path} {y : Value}
    (hy : getAt (p ++ [.key t]) (.dict pd.parsed) = some y) :
    ∃ w, getAt p (.dict d) = some w ∧ w.isIndexed = true ∧ aget t (parseValue E o w) = some y := by
  have hw' := wf_dict_iff.1 hw
  obtain ⟨x, hx, hpx, _⟩ := parse_ok h
  obtain ⟨items, hi, ha⟩ := parseDict_ok hx
  rw [← hpx] at hy
  have hinv := fun k => assemble_inv hi ha hw'.1 hf.dict k
  cases p with
  | nil =>
    rw [List.nil_append, getAt, Option.bind_eq_some_iff] at hy
    obtain ⟨q, hq, _⟩ := hy
    obtain ⟨v, _, hv, _⟩ := (hinv t).2 ht.not_geo q hq
    exact absurd (hf.dict t (mem_akeys_of_mem hv)) ht.not_field
  | cons a p =>
    cases a with
    | idx i => cases hy
    | key k =>
      rw [List.cons_append, getAt, Option.bind_eq_some_iff] at hy
      obtain ⟨q, hq, hy⟩ := hy
      by_cases hk : k ∈ geoTypes
      · have hs := (hinv k).1 hk q hq
        have : ∃ a q, p ++ [PathEl.key t] = a :: q := by
          cases p with
          | nil => exact ⟨_, _, rfl⟩
          | cons a p => exact ⟨_, _, rfl⟩
        obtain ⟨a, q', e⟩ := this
        rw [e, getAt_scalar_cons hs] at hy
        cases hy
      · obtain ⟨v, u, hv, h1, w, h2, h3⟩ := (hinv k).2 hk q hq
        obtain ⟨w', h4, h5⟩ := parseInner_inv ht v (hw'.2 k v hv) (hf.item hw'.1 hv) p false u w q y h1 h2 h3 hy
        refine ⟨w', ?_, h5⟩
        rw [getAt, aget_of_mem hw'.1 hv]
        exact h4

/-! ## Checking names -/

mutual
/-- All names at all depths satisfy a test. -/
def allKeys (P : PyStr → Bool) : Value → Bool
  | .dict d => allKeysDict P d
  | .list l => allKeysList P l
  | _ => true
def allKeysDict (P : PyStr → Bool) : Dict → Bool
  | [] => true
  | (k, v) :: r => P k && allKeys P v && allKeysDict P r
def allKeysList (P : PyStr → Bool) : List Value → Bool
  | [] => true
  | v :: r => allKeys P v && allKeysList P r
end

theorem allKeysDict_iff {P : PyStr → Bool} : ∀ {d : Dict}, allKeysDict P d = true ↔
    ∀ k v, (k, v) ∈ d → P k = true ∧ allKeys P v = true
  | [] => by simp [allKeysDict]
  | (k, v) :: r => by
    rw [allKeysDict, Bool.and_eq_true, Bool.and_eq_true, allKeysDict_iff]
    constructor
    · rintro ⟨h1, h2⟩ k' v' hm
      rcases List.mem_cons.1 hm with e | hm
      · cases e; exact h1
      · exact h2 k' v' hm
    · intro h
      exact ⟨h k v List.mem_cons_self, fun k' v' hm => h k' v' (List.mem_cons_of_mem _ hm)⟩

theorem allKeysList_iff {P : PyStr → Bool} : ∀ {l : List Value}, allKeysList P l = true ↔ ∀ v ∈ l, allKeys P v = true
  | [] => by simp [allKeysList]
  | v :: r => by
    rw [allKeysList, Bool.and_eq_true, allKeysList_iff]
    simp

theorem allKeys_at {P : PyStr → Bool} : ∀ (p : Path) (v : Value) (w : Value), allKeys P v = true → getAt p v = some w →
    allKeys P w = true
  | [], v, w, h, hp => by cases hp; exact h
  | .key k :: p, .dict d, w, h, hp => by
    rw [getAt, Option.bind_eq_some_iff] at hp
    obtain ⟨x, hx, hp⟩ := hp
    exact allKeys_at p x w ((allKeysDict_iff.1 h) k x (aget_mem hx)).2 hp
  | .idx i :: p, .list l, w, h, hp => by
    rw [getAt, Option.bind_eq_some_iff] at hp
    obtain ⟨x, hx, hp⟩ := hp
    exact allKeys_at p x w (allKeysList_iff.1 h x (List.mem_of_getElem? hx)) hp
  | .key _ :: _, .none, _, _, hp => by cases hp
  | .key _ :: _, .bool _, _, _, hp => by cases hp
  | .key _ :: _, .int _, _, _, hp => by cases hp
  | .key _ :: _, .float _, _, _, hp => by cases hp
  | .key _ :: _, .str _, _, _, hp => by cases hp
  | .key _ :: _, .list _, _, _, hp => by cases hp
  | .idx _ :: _, .none, _, _, hp => by cases hp
  | .idx _ :: _, .bool _, _, _, hp => by cases hp
  | .idx _ :: _, .int _, _, _, hp => by cases hp
  | .idx _ :: _, .float _, _, _, hp => by cases hp
  | .idx _ :: _, .str _, _, _, hp => by cases hp
  | .idx _ :: _, .dict _, _, _, hp => by cases hp

theorem allKeys_names {P : PyStr → Bool} {v : Value} (h : allKeys P v = true) {p : Path} {d : Dict}
    (hp : getAt p v = some (.dict d)) : ∀ k ∈ akeys d, P k = true := by
  intro k hk
  obtain ⟨⟨k', w⟩, hm, rfl⟩ := List.mem_map.1 hk
  exact (allKeysDict_iff.1 (allKeys_at p v _ h hp) k' w hm).1

/-- A test for `FieldName`. -/
def isFieldName (k : PyStr) : Bool := !k.isEmpty && !k.contains '.' && (k.head? != some '_' || k == "_id".toList)

theorem fieldNames_of_check {v : Value} (h : allKeys isFieldName v = true) : FieldNames v := by
  intro p d hp k hk
  have := allKeys_names h hp k hk
  simp only [isFieldName, Bool.and_eq_true, Bool.not_eq_true', Bool.or_eq_true, bne_iff_ne, beq_iff_eq] at this
  obtain ⟨⟨h1, h2⟩, h3⟩ := this
  refine ⟨by rintro rfl; simp at h1, by simpa using h2, fun e => ?_⟩
  rcases h3 with h3 | h3
  · exact absurd e h3
  · exact h3

theorem nestedNames_of_check {c : Char} {d : Dict} (h : d.all (fun kv => allKeys (fun k => k.head? != some c) kv.2) = true) :
    NestedNames c (.dict d) := by
  intro p d' hp hg k hk
  cases p with
  | nil => exact absurd rfl hp
  | cons a p =>
    cases a with
    | idx i => simp [getAt] at hg
    | key k' =>
      rw [getAt, Option.bind_eq_some_iff] at hg
      obtain ⟨v, hv, hg⟩ := hg
      have := allKeys_names (List.all_eq_true.1 h _ (aget_mem hv)) hg k hk
      simpa using this

/-! ## Parsing succeeds -/

theorem addHints_total : ∀ (hs : List (PyStr × (PyStr × PyStr))) (p : Dict),
    (∀ k ∈ akeys hs, ∃ d, aget k p = some (.dict d)) → ∃ p', addHints hs p = .ok p'
  | [], p, _ => ⟨p, rfl⟩
  | (k, g) :: r, p, h => by
    obtain ⟨d, hd⟩ := h k List.mem_cons_self
    rw [addHints, hd]
    refine addHints_total r _ (fun k' hk' => ?_)
    rw [aget_aset]
    split
    · exact ⟨_, rfl⟩
    · exact h k' (List.mem_cons_of_mem _ hk')

theorem parseInner_scalar {v : Value} (hv : v.isScalar = true) {y} (h : parseInner E o false v = .ok y) :
    ∃ d, y.parsed = some (.dict d) := by
  cases v with
  | list l => cases hv
  | dict l => cases hv
  | str s =>
    rw [parseInner] at h
    split at h
    · cases h; exact ⟨_, rfl⟩
    · cases h; exact ⟨_, rfl⟩
  | none => cases h; exact ⟨_, rfl⟩
  | bool b => cases h; exact ⟨_, rfl⟩
  | int i => cases h; exact ⟨_, rfl⟩
  | float f => cases h; exact ⟨_, rfl⟩

theorem assemble_total (hE : E.ScalarHints) {c : Bool} {d : Dict} {items : PResult Dict} (hn : (akeys d).Nodup)
    (hi : parseItems E o d = .ok items) : ∃ x, assembleDict E o c d items = .ok x := by
  have : ∃ p', addHints (matchHints E d o.geoHints)
      (aupdate (((if c then matchGeojson E d else none).map geoDict).getD []) items.parsed) = .ok p' := by
    refine addHints_total _ _ (fun k hk => ?_)
    obtain ⟨h, hm, ⟨g, hg⟩, rfl⟩ := mem_matchHints.1 hk
    obtain ⟨h1, h2⟩ := hE _ _ _ _ _ hg
    unfold getOrEmpty at h1 h2
    cases hv : aget h.latField d with
    | none => rw [hv] at h2; exact absurd rfl h2
    | some v =>
      rw [hv] at h1
      obtain ⟨y, h3, h4⟩ := parseItems_get hi hn hv
      obtain ⟨e, he⟩ := parseInner_scalar h1 h3
      refine ⟨e, ?_⟩
      rw [aget_aupdate _ _ _ ((parseItems_keys hi).nodup hn), h4, he]
      rfl
  obtain ⟨p', hp⟩ := this
  unfold assembleDict
  simp only [hp]
  exact ⟨_, rfl⟩

theorem parseItems_total : ∀ {d : Dict}, (∀ k v, (k, v) ∈ d → ∃ x, parseInner E o false v = .ok x) →
    ∃ x, parseItems E o d = .ok x
  | [], _ => ⟨_, rfl⟩
  | (k, v) :: r, h => by
    obtain ⟨x, hx⟩ := h k v List.mem_cons_self
    obtain ⟨y, hy⟩ := parseItems_total (fun k v hm => h k v (List.mem_cons_of_mem _ hm))
    rw [parseItems, hx, hy]
    exact ⟨_, rfl⟩

theorem parseElems_total : ∀ {l : List Value}, (∀ v ∈ l, ∃ x, parseInner E o true v = .ok x) →
    ∃ x, parseElems E o l = .ok x
  | [], _ => ⟨_, rfl⟩
  | v :: r, h => by
    obtain ⟨x, hx⟩ := h v List.mem_cons_self
    obtain ⟨y, hy⟩ := parseElems_total (fun v hm => h v (List.mem_cons_of_mem _ hm))
    rw [parseElems, hx, hy]
    exact ⟨_, rfl⟩

theorem parseInner_total (hE : E.ScalarHints) : ∀ v : Value, v.wf = true → ∀ c, ∃ x, parseInner E o c v = .ok x := by
  apply Value.ind
  · intro _ c; exact ⟨_, rfl⟩
  · intro _ _ c; exact ⟨_, rfl⟩
  · intro _ _ c; exact ⟨_, rfl⟩
  · intro _ _ c; exact ⟨_, rfl⟩
  · intro s _ c
    rw [parseInner]
    split
    · exact ⟨_, rfl⟩
    · exact ⟨_, rfl⟩
  · intro l ih hw c
    cases l with
    | nil => exact ⟨_, rfl⟩
    | cons v r =>
      obtain ⟨x, hx⟩ := parseElems_total (E := E) (o := o) (l := v :: r) (fun w hm => ih w hm (wf_list_iff.1 hw w hm) true)
      rw [parseInner, hx]
      exact ⟨_, rfl⟩
  · intro d ih hw c
    cases d with
    | nil => exact ⟨_, rfl⟩
    | cons kv r =>
      have hw' := wf_dict_iff.1 hw
      obtain ⟨x, hx⟩ := parseItems_total (E := E) (o := o) (d := kv :: r) (fun k w hm => ih k w hm (hw'.2 k w hm) false)
      obtain ⟨y, hy⟩ := assemble_total hE (c := true) hw'.1 hx
      rw [parseInner, hx]
      simp only [hy]
      exact ⟨_, rfl⟩

theorem summarise_total {l : List PyStr} (h : ∀ s ∈ l, ∃ p t, '.' ∉ t ∧ s = dotted p t) : ∃ es, summarise l = .ok es := by
  obtain ⟨parts, h1, _⟩ := splitAll_ok (l := sortBy strLe l) (fun s hs => h s ((sortBy_perm strLe l).mem_iff.1 hs))
  unfold summarise
  rw [h1]
  exact ⟨_, rfl⟩

theorem parse_total (hE : E.ScalarHints) {d : Dict} (hw : (Value.dict d).wf = true) : ∃ p, parse E o d = .ok p := by
  have hw' := wf_dict_iff.1 hw
  obtain ⟨items, hi⟩ := parseItems_total (E := E) (o := o) (d := d) (fun k v hm => parseInner_total hE v (hw'.2 k v hm) false)
  obtain ⟨x, hx⟩ := assemble_total hE (c := false) hw'.1 hi
  obtain ⟨es, he⟩ := summarise_total (l := x.dataTypes) (by
    intro s hs
    obtain ⟨p, t, _, e⟩ := (dict_dataTypes hi hx (fun k v _ x hx => parseInner_dataTypes v false x hx) s).1 hs
    exact ⟨_, _, dtype_no_dot t, e⟩)
  obtain ⟨es', he'⟩ := summarise_total (l := x.parsedTypes) (by
    intro s hs
    obtain ⟨p, t, h, hp, e⟩ := (dict_parsedTypes hi hx hw'.1
      (fun k v hm x hx => parseInner_parsedTypes v (hw'.2 k v hm) false x hx) s).1 hs
    rcases hp with hp | hp
    · cases hp
    · refine ⟨pathText p, t, h.typeName.dot, ?_⟩
      rw [e, typeString, if_neg hp])
  unfold parse parseDict
  rw [hi]
  simp only [hx, he, he']
  exact ⟨_, rfl⟩

/-! ## The order of date formats -/

theorem findSome?_perm {α β : Type} {f : α → Option β} {l l' : List α} (h : l.Perm l')
    (hu : ∀ x y a b, x ∈ l → y ∈ l → f x = some a → f y = some b → a = b) : l.findSome? f = l'.findSome? f := by
  cases h1 : l.findSome? f with
  | none =>
    symm
    rw [List.findSome?_eq_none_iff] at h1 ⊢
    exact fun x hx => h1 x (h.mem_iff.2 hx)
  | some a =>
    obtain ⟨x, hx, e⟩ := List.exists_of_findSome?_eq_some h1
    cases h2 : l'.findSome? f with
    | none =>
      have := List.findSome?_eq_none_iff.1 h2 x (h.mem_iff.1 hx)
      rw [this] at e
      cases e
    | some b =>
      obtain ⟨y, hy, e'⟩ := List.exists_of_findSome?_eq_some h2
      rw [hu x y a b hx (h.mem_iff.2 hy) e e']

theorem parseValue_dates {o' : ParsingOptions} (h : SameButDates o o') (hp : o.dateFormats.Perm o'.dateFormats)
    (hu : E.Unambiguous o.dateFormats) (v : Value) : parseValue E o v = parseValue E o' v := by
  have hs : strValue E o v = strValue E o' v := by
    cases v <;> simp [strValue, h.floatFormat]
  have hb : parsedBool E o v = parsedBool E o' v := by
    cases v <;> simp [parsedBool, hs, h.trueValues, h.falseValues]
  have hn : parsedNumber E o v = parsedNumber E o' v := by
    cases v <;> simp [parsedNumber, hs]
  have hd : parsedDate E o v = parsedDate E o' v := by
    unfold parsedDate
    rw [← hs]
    exact findSome?_perm hp (fun x y a b hx hy h1 h2 => hu _ x y a b hx hy h1 h2)
  unfold parseValue
  rw [hb, hn, hd, hs, h.keywordLength]

theorem parseItems_congr {o' : ParsingOptions} : ∀ {d : Dict},
    (∀ k v, (k, v) ∈ d → parseInner E o false v = parseInner E o' false v) → parseItems E o d = parseItems E o' d
  | [], _ => rfl
  | (k, v) :: r, h => by
    rw [parseItems, parseItems, h k v List.mem_cons_self, parseItems_congr (fun k v hm => h k v (List.mem_cons_of_mem _ hm))]

theorem parseElems_congr {o' : ParsingOptions} : ∀ {l : List Value},
    (∀ v ∈ l, parseInner E o true v = parseInner E o' true v) → parseElems E o l = parseElems E o' l
  | [], _ => rfl
  | v :: r, h => by
    rw [parseElems, parseElems, h v List.mem_cons_self, parseElems_congr (fun v hm => h v (List.mem_cons_of_mem _ hm))]

theorem assemble_congr {o' : ParsingOptions} (h : o.geoHints = o'.geoHints) (c : Bool) (d : Dict) (items : PResult Dict) :
    assembleDict E o c d items = assembleDict E o' c d items := by
  unfold assembleDict
  rw [h]

theorem parseInner_congr {o' : ParsingOptions} (hg : o.geoHints = o'.geoHints)
    (hv : ∀ v, parseValue E o v = parseValue E o' v) : ∀ v : Value, ∀ c, parseInner E o c v = parseInner E o' c v := by
  apply Value.ind
  · intro c; rfl
  · intro b c; rw [parseInner, parseInner, hv]
  · intro b c; rw [parseInner, parseInner, hv]
  · intro b c; rw [parseInner, parseInner, hv]
  · intro b c; rw [parseInner, parseInner, hv]
  · intro l ih c
    cases l with
    | nil => rfl
    | cons v r => rw [parseInner, parseInner, parseElems_congr (fun w hm => ih w hm true)]
  · intro d ih c
    cases d with
    | nil => rfl
    | cons kv r =>
      rw [parseInner, parseInner, parseItems_congr (fun k w hm => ih k w hm false)]
      simp only [assemble_congr hg]

theorem parse_congr {o' : ParsingOptions} (hg : o.geoHints = o'.geoHints)
    (hv : ∀ v, parseValue E o v = parseValue E o' v) (d : Dict) : parse E o d = parse E o' d := by
  unfold parse parseDict
  rw [parseItems_congr (fun k v _ => parseInner_congr hg hv v false)]
  simp only [assemble_congr hg]

end Splitgill
