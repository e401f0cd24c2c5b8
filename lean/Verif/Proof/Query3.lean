import Verif.Proof.Query2
/-!
# Exists queries
-/

namespace Splitgill

variable {E : ParseEnv} {o : ParsingOptions}

theorem esHasItems_iff : ∀ {d : Dict}, esHasItems d = true ↔ ∃ k v, (k, v) ∈ d ∧ k ≠ "_u".toList ∧ esHas v = true
  | [] => by simp [esHasItems]
  | (k, v) :: r => by
    rw [esHasItems, Bool.or_eq_true, esHasItems_iff, Bool.and_eq_true, decide_eq_true_iff]
    constructor
    · rintro (⟨h1, h2⟩ | ⟨k', v', h1, h2, h3⟩)
      · exact ⟨k, v, List.mem_cons_self, h1, h2⟩
      · exact ⟨k', v', List.mem_cons_of_mem _ h1, h2, h3⟩
    · rintro ⟨k', v', h1, h2, h3⟩
      rcases List.mem_cons.1 h1 with e | h1
      · cases e; exact .inl ⟨h2, h3⟩
      · exact .inr ⟨k', v', h1, h2, h3⟩

theorem esHasElems_iff : ∀ {l : List Value}, esHasElems l = true ↔ ∃ v ∈ l, esHas v = true
  | [] => by simp [esHasElems]
  | v :: r => by
    rw [esHasElems, Bool.or_eq_true, esHasElems_iff]
    simp

theorem esExistsItems_eq : ∀ (d : Dict) (k : PyStr) (ks : List PyStr),
    esExistsItems d k ks = match aget k d with | some v => esExists v ks | none => false
  | [], _, _ => rfl
  | (k', v) :: r, k, ks => by
    rw [esExistsItems, aget_cons, esExistsItems_eq r k ks]
    by_cases h : k = k'
    · subst h
      rw [if_pos rfl, if_pos rfl]
    · rw [if_neg h, if_neg (fun e => h e.symm)]

theorem esExistsElems_iff : ∀ {l : List Value} {ks : List PyStr},
    esExistsElems l ks = true ↔ ∃ v ∈ l, esExists v ks = true
  | [], _ => by simp [esExistsElems]
  | v :: r, ks => by
    rw [esExistsElems, Bool.or_eq_true, esExistsElems_iff]
    simp

theorem esExists_nil (v : Value) : esExists v [] = esHas v := by cases v <;> rfl

theorem esExists_iff : ∀ (v : Value) (ks : List PyStr),
    esExists v ks = true ↔ ∃ p u, keysOf p = ks ∧ getAt p v = some u ∧ esHas u = true := by
  have scal : ∀ (v : Value), v.isScalar = true → ∀ ks, (esExists v ks = true ↔ ∃ p u, keysOf p = ks ∧ getAt p v = some u ∧ esHas u = true) := by
    intro v hv ks
    constructor
    · intro h
      cases ks with
      | nil => exact ⟨[], v, rfl, rfl, by rw [← esExists_nil]; exact h⟩
      | cons k ks => cases v <;> first | (cases hv; done) | cases h
    · rintro ⟨p, u, rfl, h1, h2⟩
      cases p with
      | nil => cases h1; rw [show keysOf [] = [] from rfl, esExists_nil]; exact h2
      | cons a p => rw [getAt_scalar_cons hv] at h1; cases h1
  refine Value.ind (scal _ rfl) (fun b => scal _ rfl) (fun b => scal _ rfl) (fun b => scal _ rfl) (fun b => scal _ rfl) ?_ ?_
  · intro l ih ks
    have key : (∃ v ∈ l, esExists v ks = true) ↔ ∃ i p u, keysOf p = ks ∧ getAt (.idx i :: p) (.list l) = some u ∧ esHas u = true := by
      constructor
      · rintro ⟨v, hv, h⟩
        obtain ⟨p, u, h1, h2, h3⟩ := (ih v hv ks).1 h
        obtain ⟨i, hi, rfl⟩ := List.mem_iff_getElem.1 hv
        refine ⟨i, p, u, h1, ?_, h3⟩
        rw [getAt, List.getElem?_eq_getElem hi]
        exact h2
      · rintro ⟨i, p, u, h1, h2, h3⟩
        rw [getAt, Option.bind_eq_some_iff] at h2
        obtain ⟨v, hv, h2⟩ := h2
        have hm := List.mem_of_getElem? hv
        exact ⟨v, hm, (ih v hm ks).2 ⟨p, u, h1, h2, h3⟩⟩
    cases ks with
    | nil =>
      constructor
      · intro h
        exact ⟨[], _, rfl, rfl, h⟩
      · rintro ⟨p, u, h1, h2, h3⟩
        cases p with
        | nil => cases h2; exact h3
        | cons a p =>
          cases a with
          | key k => cases h2
          | idx i =>
            obtain ⟨v, hv, h⟩ := key.2 ⟨i, p, u, h1, h2, h3⟩
            rw [esExists_nil] at h
            exact esHasElems_iff.2 ⟨v, hv, h⟩
    | cons k ks =>
      rw [show esExists (.list l) (k :: ks) = esExistsElems l (k :: ks) from rfl, esExistsElems_iff, key]
      constructor
      · rintro ⟨i, p, u, h1, h2, h3⟩
        exact ⟨.idx i :: p, u, h1, h2, h3⟩
      · rintro ⟨p, u, h1, h2, h3⟩
        cases p with
        | nil => cases h1
        | cons a p =>
          cases a with
          | key k => cases h2
          | idx i => exact ⟨i, p, u, h1, h2, h3⟩
  · intro d ih ks
    cases ks with
    | nil =>
      constructor
      · intro h
        exact ⟨[], _, rfl, rfl, h⟩
      · rintro ⟨p, u, h1, h2, h3⟩
        cases p with
        | nil => cases h2; exact h3
        | cons a p =>
          cases a with
          | key k => cases h1
          | idx i => cases h2
    | cons k ks =>
      rw [show esExists (.dict d) (k :: ks) = esExistsItems d k ks from rfl, esExistsItems_eq]
      constructor
      · intro h
        cases hk : aget k d with
        | none => rw [hk] at h; cases h
        | some v =>
          rw [hk] at h
          obtain ⟨p, u, h1, h2, h3⟩ := (ih k v (aget_mem hk) ks).1 h
          refine ⟨.key k :: p, u, congrArg (k :: ·) h1, ?_, h3⟩
          rw [getAt, hk]
          exact h2
      · rintro ⟨p, u, h1, h2, h3⟩
        cases p with
        | nil => cases h1
        | cons a p =>
          cases a with
          | idx i => cases h2
          | key k' =>
            rw [getAt, Option.bind_eq_some_iff] at h2
            obtain ⟨v, hv, h2⟩ := h2
            have h1' : k' :: keysOf p = k :: ks := h1
            injection h1' with e1 e2
            subst e1
            rw [hv]
            exact (ih k' v (aget_mem hv) ks).2 ⟨p, u, e2, h2, h3⟩

theorem esHas_of_getAt : ∀ (q : Path) (u w : Value), getAt q u = some w → esHas w = true → "_u".toList ∉ keysOf q →
    esHas u = true
  | [], _, _, h, hw, _ => by cases h; exact hw
  | .key k :: q, u, w, h, hw, hq => by
    cases u with
    | dict d =>
      rw [getAt, Option.bind_eq_some_iff] at h
      obtain ⟨x, hx, h⟩ := h
      have hq' : "_u".toList ∉ k :: keysOf q := hq
      rw [List.mem_cons, not_or] at hq'
      exact esHasItems_iff.2 ⟨k, x, aget_mem hx, fun e => hq'.1 e.symm, esHas_of_getAt q x w h hw hq'.2⟩
    | _ => cases h
  | .idx i :: q, u, w, h, hw, hq => by
    cases u with
    | list l =>
      rw [getAt, Option.bind_eq_some_iff] at h
      obtain ⟨x, hx, h⟩ := h
      exact esHasElems_iff.2 ⟨x, List.mem_of_getElem? hx, esHas_of_getAt q x w h hw hq⟩
    | _ => cases h

/-! ## Values come from values -/

theorem addHints_same : ∀ {hs : List (PyStr × (PyStr × PyStr))} {p p' : Dict}, addHints hs p = .ok p' →
    ∀ k, k ∉ akeys hs → aget k p' = aget k p
  | [], p, _, h, k, _ => by cases h; rfl
  | (k', g) :: r, p, p', h, k, hk => by
    rw [addHints] at h
    rw [akeys, List.map_cons, List.mem_cons, not_or] at hk
    split at h
    · cases h
    · rw [addHints_same h k hk.2, aget_aset, if_neg hk.1]
    · cases h

theorem addHints_nodup : ∀ {hs : List (PyStr × (PyStr × PyStr))} {p p' : Dict}, addHints hs p = .ok p' →
    (akeys p).Nodup → (akeys p').Nodup
  | [], p, _, h, hn => by cases h; exact hn
  | (k', g) :: r, p, p', h, hn => by
    rw [addHints] at h
    split at h
    · cases h
    · exact addHints_nodup h (nodup_aset hn)
    · cases h

theorem assemble_nodup {c : Bool} {d : Dict} {items x : PResult Dict} (h : assembleDict E o c d items = .ok x) :
    (akeys x.parsed).Nodup := by
  unfold assembleDict at h
  simp only [] at h
  split at h
  · cases h
  · rename_i p' hp
    cases h
    refine addHints_nodup hp (nodup_aupdate ?_)
    generalize (if c = true then matchGeojson E d else none) = g
    cases g with
    | none => exact List.nodup_nil
    | some g => exact (akeys_geoDict g).symm ▸ geoTypes_nodup

theorem assemble_has (hE : E.PlacesHaveValues) {c : Bool} {d : Dict} {items x : PResult Dict}
    (hi : parseItems E o d = .ok items) (h : assembleDict E o c d items = .ok x) (hn : (akeys d).Nodup)
    (hf : ∀ k ∈ akeys d, FieldName k) {k : PyStr} {q : Value} (hq : aget k x.parsed = some q) :
    (k ∈ geoTypes → HasValue (.dict d)) ∧
    (k ∉ geoTypes → ∃ v y w, (k, v) ∈ d ∧ parseInner E o false v = .ok y ∧ y.parsed = some w ∧
      (q = w ∨ HasValue v ∧ GeoSame w q)) := by
  have hinv := assemble_inv hi h hn hf k
  unfold assembleDict at h
  simp only [] at h
  split at h
  · cases h
  · rename_i p' hp
    cases h
    have hni := (parseItems_keys hi).nodup hn
    constructor
    · intro hk
      have hbase : aget k (((if c then matchGeojson E d else none).map geoDict).getD []) ≠ none := by
        rcases addHints_get_iff hp k with ⟨_, h1⟩ | ⟨w, w', h1, h2, h3⟩
        · rw [hq] at h1; cases h1
        · rcases mem_of_aget_aupdate hni h1 with hm | hm
          · obtain ⟨v, _, hv, _⟩ := parseItems_item hi hm
            exact absurd hk (hf k (mem_akeys_of_mem hv)).not_geo
          · rw [hm]; simp
      cases c with
      | false => exact absurd rfl hbase
      | true =>
        cases hg : matchGeojson E d with
        | none => rw [hg] at hbase; exact absurd rfl hbase
        | some g =>
          unfold matchGeojson at hg
          split at hg
          · exact hE.geojson _ _ hg
          · cases hg
    · intro hk
      obtain ⟨v, y, hv, h4, w, h5, h6⟩ := hinv.2 hk q hq
      refine ⟨v, y, w, hv, h4, h5, ?_⟩
      by_cases hh : k ∈ akeys (matchHints E d o.geoHints)
      · right
        refine ⟨?_, h6⟩
        obtain ⟨hint, _, ⟨g, hg⟩, rfl⟩ := mem_matchHints.1 hh
        unfold matchHint at hg
        have := hE.hint _ _ _ _ _ hg
        rw [getOrEmpty, aget_of_mem hn hv] at this
        exact this
      · left
        have e1 := addHints_same hp k hh
        rw [hq] at e1
        obtain ⟨y', h7, h8⟩ := parseItems_get hi hn (aget_of_mem hn hv)
        rw [h4] at h7
        cases h7
        rw [h5] at h8
        rw [aget_aupdate k _ _ hni, h8] at e1
        have e2 : some q = some w := e1
        exact Option.some.inj e2

theorem hasValue_of_esHas (hE : E.PlacesHaveValues) : ∀ v : Value, v.wf = true → FieldNames v → ∀ c x pw,
    parseInner E o c v = .ok x → x.parsed = some pw → esHas pw = true → HasValue v := by
  have hself : ∀ v : Value, v.isIndexed = true → HasValue v := fun v hv => ⟨[], v, rfl, hv⟩
  apply Value.ind
  · intro _ _ c x pw h hp hh
    cases h
    cases c
    · cases hp; cases hh
    · cases hp; cases hh
  · intro b _ _ c x pw h hp hh; exact hself _ rfl
  · intro b _ _ c x pw h hp hh; exact hself _ rfl
  · intro b _ _ c x pw h hp hh; exact hself _ rfl
  · intro s _ _ c x pw h hp hh
    rw [parseInner] at h
    split at h
    · cases h
      cases c
      · cases hp; cases hh
      · cases hp; cases hh
    · rename_i hs
      exact hself _ (by simpa [Value.isIndexed] using hs)
  · intro l ih hw hf c x pw h hp hh
    cases l with
    | nil =>
      cases h
      cases c
      · cases hp
      · cases hp; cases hh
    | cons v0 r =>
      rw [parseInner] at h
      split at h
      · cases h
      · rename_i z hz
        cases h
        cases hp
        obtain ⟨q, hq, hh⟩ := esHasElems_iff.1 hh
        obtain ⟨i, hi, rfl⟩ := List.mem_iff_getElem.1 hq
        have hlt : i < (v0 :: r).length := by rw [← parseElems_length hz]; exact hi
        obtain ⟨u, h1, h2⟩ := parseElems_get hz (List.getElem?_eq_getElem hlt)
        rw [List.getElem?_eq_getElem hi] at h2
        have h2' := Option.some.inj h2
        rw [h2'] at hh
        have hm := List.getElem_mem hlt
        cases hu : u.parsed with
        | none => rw [hu] at hh; cases hh
        | some q' =>
          rw [hu] at hh
          obtain ⟨p, w, h3, h4⟩ := ih _ hm (wf_list_iff.1 hw _ hm) (hf.elem hm) true u q' h1 hu hh
          refine ⟨.idx i :: p, w, ?_, h4⟩
          rw [getAt, List.getElem?_eq_getElem hlt]
          exact h3
  · intro d ih hw hf c x pw h hp hh
    have hw' := wf_dict_iff.1 hw
    cases d with
    | nil =>
      cases h
      cases c
      · cases hp
      · cases hp; cases hh
    | cons kv r =>
      rw [parseInner] at h
      split at h
      · cases h
      · rename_i items hitems
        split at h
        · cases h
        · rename_i z hz
          cases h
          cases hp
          obtain ⟨k, q, hm, _, hh⟩ := esHasItems_iff.1 hh
          have hq := aget_of_mem (assemble_nodup hz) hm
          obtain ⟨h1, h2⟩ := assemble_has hE hitems hz hw'.1 hf.dict hq
          by_cases hk : k ∈ geoTypes
          · exact h1 hk
          · obtain ⟨v, y, w, hv, h3, h4, h5⟩ := h2 hk
            have : HasValue v := by
              rcases h5 with rfl | ⟨h5, _⟩
              · exact ih k v hv (hw'.2 k v hv) (hf.item hw'.1 hv) false y q h3 h4 hh
              · exact h5
            obtain ⟨p, w', h6, h7⟩ := this
            refine ⟨.key k :: p, w', ?_, h7⟩
            rw [getAt, aget_of_mem hw'.1 hv]
            exact h6

theorem parseInner_hasAt (hE : E.PlacesHaveValues) : ∀ v : Value, v.wf = true → FieldNames v → ∀ (p : Path) c x pw pw' u,
    parseInner E o c v = .ok x → x.parsed = some pw → (pw' = pw ∨ HasValue v ∧ GeoSame pw pw') →
    getAt p pw' = some u → esHas u = true → (∀ k ∈ keysOf p, FieldName k) → ∃ v', getAt p v = some v' ∧ HasValue v' := by
  -- at the value itself
  have hnil : ∀ v : Value, v.wf = true → FieldNames v → ∀ c x pw pw' u, parseInner E o c v = .ok x →
      x.parsed = some pw → (pw' = pw ∨ HasValue v ∧ GeoSame pw pw') → getAt [] pw' = some u → esHas u = true → HasValue v := by
    intro v hw hf c x pw pw' u h hp hg hu hh
    cases hu
    rcases hg with rfl | ⟨h1, _⟩
    · exact hasValue_of_esHas hE v hw hf c x _ h hp hh
    · exact h1
  -- field names are not the keys of what a scalar is parsed to
  have hscal : ∀ (v : Value) c x pw pw', v.isScalar = true → parseInner E o c v = .ok x → x.parsed = some pw →
      (pw' = pw ∨ HasValue v ∧ GeoSame pw pw') → ∀ a p u, getAt (a :: p) pw' = some u →
      (∀ k ∈ keysOf (a :: p), FieldName k) → False := by
    intro v c x pw pw' hv h hp hg a p u hu hk
    have hpw : (pw = .none) ∨ ∃ e, pw = .dict e ∧ ∀ k, FieldName k → aget k e = none := by
      have hval : ∀ w : Value, ∀ k, FieldName k → aget k (parseValue E o w) = none := by
        intro w k hk
        have h1 : ∀ t : PType, k ≠ t.name := fun t => hk.ne_type t
        rw [parseValue_eq', aget_asetOpt, if_neg (show k ≠ "_d".toList from h1 .date), aget_asetOpt, if_neg (show k ≠ "_n".toList from h1 .number), aget_asetOpt,
          if_neg (show k ≠ "_b".toList from h1 .boolean), aget_valueBase hk.not_geo]
        rw [aget_cons, if_neg (show k ≠ "_u".toList from h1 .unparsed), aget_cons, if_neg (show k ≠ "_t".toList from h1 .text), aget_cons, if_neg (show k ≠ "_k".toList from h1 .keyword)]
        rfl
      have hun : ∀ z : Value, ∀ k, FieldName k → aget k [("_u".toList, z)] = none := by
        intro z k hk
        rw [aget_cons, if_neg (show k ≠ "_u".toList from hk.ne_type .unparsed)]
        rfl
      cases v with
      | none => cases h; cases c <;> cases hp; exacts [.inr ⟨_, rfl, hun _⟩, .inl rfl]
      | bool b => cases h; cases hp; exact .inr ⟨_, rfl, hval _⟩
      | int b => cases h; cases hp; exact .inr ⟨_, rfl, hval _⟩
      | float b => cases h; cases hp; exact .inr ⟨_, rfl, hval _⟩
      | str s =>
        rw [parseInner] at h
        split at h
        · cases h; cases c <;> cases hp; exacts [.inr ⟨_, rfl, hun _⟩, .inl rfl]
        · cases h; cases hp; exact .inr ⟨_, rfl, hval _⟩
      | list l => cases hv
      | dict d => cases hv
    have hpw' : (pw' = .none) ∨ ∃ e, pw' = .dict e ∧ ∀ k, FieldName k → aget k e = none := by
      rcases hg with rfl | ⟨_, hg⟩
      · exact hpw
      · rcases hg with rfl | ⟨e, e', rfl, rfl, h1, _⟩
        · exact hpw
        · right
          refine ⟨e', rfl, fun k hk => ?_⟩
          rcases hpw with h | ⟨e'', h2, h3⟩
          · cases h
          · cases h2
            rw [h1 k hk.not_geo, h3 k hk]
    rcases hpw' with rfl | ⟨e, rfl, he⟩
    · rw [getAt_scalar_cons rfl] at hu; cases hu
    · cases a with
      | idx i => cases hu
      | key k =>
        rw [getAt, he k (hk k (List.mem_cons_self))] at hu
        cases hu
  apply Value.ind
  · intro hw hf p c x pw pw' u h hp hg hu hh hk
    cases p with
    | nil => exact ⟨_, rfl, hnil _ hw hf c x pw pw' u h hp hg hu hh⟩
    | cons a p => exact (hscal _ c x pw pw' rfl h hp hg a p u hu hk).elim
  · intro b hw hf p c x pw pw' u h hp hg hu hh hk
    cases p with
    | nil => exact ⟨_, rfl, hnil _ hw hf c x pw pw' u h hp hg hu hh⟩
    | cons a p => exact (hscal _ c x pw pw' rfl h hp hg a p u hu hk).elim
  · intro b hw hf p c x pw pw' u h hp hg hu hh hk
    cases p with
    | nil => exact ⟨_, rfl, hnil _ hw hf c x pw pw' u h hp hg hu hh⟩
    | cons a p => exact (hscal _ c x pw pw' rfl h hp hg a p u hu hk).elim
  · intro b hw hf p c x pw pw' u h hp hg hu hh hk
    cases p with
    | nil => exact ⟨_, rfl, hnil _ hw hf c x pw pw' u h hp hg hu hh⟩
    | cons a p => exact (hscal _ c x pw pw' rfl h hp hg a p u hu hk).elim
  · intro b hw hf p c x pw pw' u h hp hg hu hh hk
    cases p with
    | nil => exact ⟨_, rfl, hnil _ hw hf c x pw pw' u h hp hg hu hh⟩
    | cons a p => exact (hscal _ c x pw pw' rfl h hp hg a p u hu hk).elim
  · intro l ih hw hf p c x pw pw' u h hp hg hu hh hk
    cases p with
    | nil => exact ⟨_, rfl, hnil _ hw hf c x pw pw' u h hp hg hu hh⟩
    | cons a p =>
      cases l with
      | nil =>
        cases h
        cases c
        · cases hp
        · cases hp
          rcases hg with rfl | ⟨_, hg⟩
          · rw [getAt_scalar_cons rfl] at hu; cases hu
          · rcases hg with rfl | ⟨_, _, e, _⟩
            · rw [getAt_scalar_cons rfl] at hu; cases hu
            · cases e
      | cons v0 r =>
        rw [parseInner] at h
        split at h
        · cases h
        · rename_i z hz
          cases h
          cases hp
          have hpw : pw' = .list z.parsed := by
            rcases hg with rfl | ⟨_, hg⟩
            · rfl
            · rcases hg with rfl | ⟨_, _, e, _⟩
              · rfl
              · cases e
          subst hpw
          cases a with
          | key k => cases hu
          | idx i =>
            rw [getAt, Option.bind_eq_some_iff] at hu
            obtain ⟨q, hq, hu⟩ := hu
            have hlt : i < (v0 :: r).length := by
              rw [← parseElems_length hz]
              exact (List.getElem?_eq_some_iff.1 hq).1
            obtain ⟨y, h1, h2⟩ := parseElems_get hz (List.getElem?_eq_getElem hlt)
            rw [hq] at h2
            cases h2
            have hm := List.getElem_mem hlt
            cases hy : y.parsed with
            | none =>
              rw [hy] at hu
              cases p with
              | nil => cases hu; cases hh
              | cons a p => rw [show (none : Option Value).getD .none = .none from rfl, getAt_scalar_cons rfl] at hu; cases hu
            | some q' =>
              rw [hy] at hu
              obtain ⟨v', h3, h4⟩ := ih _ hm (wf_list_iff.1 hw _ hm) (hf.elem hm) p true y q' q' u h1 hy (.inl rfl) hu hh hk
              refine ⟨v', ?_, h4⟩
              rw [getAt, List.getElem?_eq_getElem hlt]
              exact h3
  · intro d ih hw hf p c x pw pw' u h hp hg hu hh hk
    cases p with
    | nil => exact ⟨_, rfl, hnil _ hw hf c x pw pw' u h hp hg hu hh⟩
    | cons a p =>
      have hw' := wf_dict_iff.1 hw
      cases d with
      | nil =>
        cases h
        cases c
        · cases hp
        · cases hp
          rcases hg with rfl | ⟨_, hg⟩
          · rw [getAt_scalar_cons rfl] at hu; cases hu
          · rcases hg with rfl | ⟨_, _, e, _⟩
            · rw [getAt_scalar_cons rfl] at hu; cases hu
            · cases e
      | cons kv r =>
        rw [parseInner] at h
        split at h
        · cases h
        · rename_i items hitems
          split at h
          · cases h
          · rename_i z hz
            cases h
            cases hp
            have hpw : ∃ e, pw' = .dict e ∧ ∀ k, k ∉ geoTypes → aget k e = aget k z.parsed := by
              rcases hg with rfl | ⟨_, hg⟩
              · exact ⟨_, rfl, fun _ _ => rfl⟩
              · rcases hg with rfl | ⟨_, e', e, rfl, h1, _⟩
                · exact ⟨_, rfl, fun _ _ => rfl⟩
                · cases e; exact ⟨_, rfl, h1⟩
            obtain ⟨e, rfl, he⟩ := hpw
            cases a with
            | idx i => cases hu
            | key k =>
              have hkf := hk k List.mem_cons_self
              rw [getAt, he k hkf.not_geo, Option.bind_eq_some_iff] at hu
              obtain ⟨q, hq, hu⟩ := hu
              obtain ⟨v, y, w, hv, h3, h4, h5⟩ := (assemble_has hE hitems hz hw'.1 hf.dict hq).2 hkf.not_geo
              obtain ⟨v', h6, h7⟩ := ih k v hv (hw'.2 k v hv) (hf.item hw'.1 hv) p false y w q u h3 h4 h5 hu hh
                (fun k' hk' => hk k' (List.mem_cons_of_mem _ hk'))
              refine ⟨v', ?_, h7⟩
              rw [getAt, aget_of_mem hw'.1 hv]
              exact h6

theorem exists_iff (hE : E.PlacesHaveValues) {d : Dict} {pd : ParsedData} (hw : (Value.dict d).wf = true)
    (hf : FieldNames (.dict d)) (h : parse E o d = .ok pd) {field : PyStr} (hk : ∀ k ∈ splitDots field, FieldName k) :
    existsMatches (existsQuery field) pd.parsed = true ↔
      ∃ p v, fieldPath p = field ∧ getAt p (.dict d) = some v ∧ HasValue v := by
  have hw' := wf_dict_iff.1 hw
  have e1 : splitDots (existsQuery field) = "data".toList :: splitDots field := by
    rw [existsQuery, splitDots_append]
    rfl
  have e0 : copiedTo (existsQuery field) = none := by simp [copiedTo, existsQuery]
  unfold existsMatches
  rw [e0, e1]
  dsimp only
  rw [decide_eq_true rfl, Bool.true_and, esExists_iff]
  obtain ⟨x, hx, hpx, _⟩ := parse_ok h
  obtain ⟨items, hi, ha⟩ := parseDict_ok hx
  constructor
  · rintro ⟨p, u, hp, hu, hh⟩
    have hne := splitDots_ne field
    rw [← hp] at hk hne
    refine ⟨p, ?_⟩
    have hfp : fieldPath p = field := by
      rw [fieldPath]
      exact (congrArg _ hp).trans (intercalate_splitDots field)
    cases p with
    | nil => exact absurd rfl hne
    | cons a p =>
      cases a with
      | idx i => cases hu
      | key k =>
        have hkf := hk k List.mem_cons_self
        rw [← hpx, getAt, Option.bind_eq_some_iff] at hu
        obtain ⟨q, hq, hu⟩ := hu
        obtain ⟨v, y, w, hv, h3, h4, h5⟩ := (assemble_has hE hi ha hw'.1 hf.dict hq).2 hkf.not_geo
        obtain ⟨v', h6, h7⟩ := parseInner_hasAt hE v (hw'.2 k v hv) (hf.item hw'.1 hv) p false y w q u h3 h4 h5 hu hh
          (fun k' hk' => hk k' (List.mem_cons_of_mem _ hk'))
        refine ⟨v', hfp, ?_, h7⟩
        rw [getAt, aget_of_mem hw'.1 hv]
        exact h6
  · rintro ⟨p, v, h1, h2, q, w, h3, h4⟩
    have hne : keysOf p ≠ [] := by
      intro e
      have h1' : ['.'].intercalate (keysOf p) = field := h1
      rw [e] at h1'
      have : field = [] := by rw [← h1']; rfl
      subst this
      exact (hk [] (by simp [splitDots])).nonempty rfl
    have hkeys : keysOf p = splitDots field := by
      rw [← h1, fieldPath, splitDots_intercalate hne (keysOf_clean hf h2)]
    have hpq : getAt (p ++ q) (.dict d) = some w := by rw [getAt_append, h2]; exact h3
    obtain ⟨pv, h5, h6⟩ := parse_at hw hf h hpq h4
    rw [getAt_append, Option.bind_eq_some_iff] at h5
    obtain ⟨u, h7, h8⟩ := h5
    refine ⟨p, u, hkeys, h7, ?_⟩
    refine esHas_of_getAt q u _ h8 ?_ ?_
    · have ht : aget "_t".toList pv = some (.str (strValue E o w)) := by
        rw [h6 _ (by decide), aget_base (by decide)]
        rfl
      exact esHasItems_iff.2 ⟨_, _, aget_mem ht, by decide, rfl⟩
    · have hfv : FieldNames v := by
        intro q' e hq'
        refine hf (p ++ q') e ?_
        rw [getAt_append, h2]
        exact hq'
      have : ∀ (q : Path) (v w : Value), FieldNames v → getAt q v = some w → ∀ k ∈ keysOf q, FieldName k := by
        intro q
        induction q with
        | nil => intro v w _ _ k hk; cases hk
        | cons a q ih =>
          intro v w hfv hq k hk
          cases a with
          | key k' =>
            cases v with
            | dict e =>
              rw [getAt, Option.bind_eq_some_iff] at hq
              obtain ⟨y, hy, hq⟩ := hq
              rcases List.mem_cons.1 (show k ∈ k' :: keysOf q from hk) with rfl | hk
              · exact hfv.dict k (mem_akeys_of_mem (aget_mem hy))
              · refine ih y w ?_ hq k hk
                intro q' e' hq'
                refine hfv (.key k' :: q') e' ?_
                rw [getAt, hy]
                exact hq'
            | _ => cases hq
          | idx i =>
            cases v with
            | list l =>
              rw [getAt, Option.bind_eq_some_iff] at hq
              obtain ⟨y, hy, hq⟩ := hq
              refine ih y w ?_ hq k hk
              intro q' e' hq'
              refine hfv (.idx i :: q') e' ?_
              rw [getAt, hy]
              exact hq'
            | _ => cases hq
      intro hmem
      exact (this q v w hfv h3 _ hmem).ne_type .unparsed rfl

end Splitgill
