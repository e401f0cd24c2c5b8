import Verif.Proof.Geo
import Verif.Proof.Parse4
/-!
# Places in parsed data
-/

namespace Splitgill

variable {E : ParseEnv} {o : ParsingOptions} {P : PyStr × PyStr → Prop}

/-- What is at the key of a place comes from a place. -/
def GeoVal (P : PyStr × PyStr → Prop) (t : PyStr) (y : Value) : Prop :=
  (t = "_gp".toList → ∃ g, P g ∧ y = .str g.1) ∧ (t = "_gs".toList → ∃ g, P g ∧ y = .str g.2)

def GeoOk (P : PyStr × PyStr → Prop) (v : Value) : Prop := ∀ p t y, getAt (p ++ [.key t]) v = some y → GeoVal P t y

theorem geoOk_scalar {v : Value} (hv : v.isScalar = true) : GeoOk P v := by
  intro p t y h
  cases p with
  | nil => rw [List.nil_append, getAt_scalar_cons hv] at h; cases h
  | cons a p => rw [List.cons_append, getAt_scalar_cons hv] at h; cases h

theorem geoOk_dict {d : Dict} : GeoOk P (.dict d) ↔ ∀ k v, aget k d = some v → GeoVal P k v ∧ GeoOk P v := by
  constructor
  · intro h k v hk
    refine ⟨h [] k v ?_, fun p t y hp => h (.key k :: p) t y ?_⟩
    · rw [List.nil_append, getAt, hk]; rfl
    · rw [List.cons_append, getAt, hk]; exact hp
  · intro h p t y hp
    cases p with
    | nil =>
      rw [List.nil_append, getAt, Option.bind_eq_some_iff] at hp
      obtain ⟨v, hv, hp⟩ := hp
      cases hp
      exact (h t _ hv).1
    | cons a p =>
      cases a with
      | idx i => cases hp
      | key k =>
        rw [List.cons_append, getAt, Option.bind_eq_some_iff] at hp
        obtain ⟨v, hv, hp⟩ := hp
        exact (h k v hv).2 p t y hp

theorem geoOk_list {l : List Value} (h : ∀ v ∈ l, GeoOk P v) : GeoOk P (.list l) := by
  intro p t y hp
  cases p with
  | nil => cases hp
  | cons a p =>
    cases a with
    | key k => cases hp
    | idx i =>
      rw [List.cons_append, getAt, Option.bind_eq_some_iff] at hp
      obtain ⟨v, hv, hp⟩ := hp
      exact h v (List.mem_of_getElem? hv) p t y hp

theorem geoVal_of_not_geo {t : PyStr} {y : Value} (h : t ∉ geoTypes) : GeoVal P t y :=
  ⟨fun e => absurd (e ▸ (by decide : "_gp".toList ∈ geoTypes)) h, fun e => absurd (e ▸ (by decide : "_gs".toList ∈ geoTypes)) h⟩

theorem geoVal_geoDict {g : PyStr × PyStr} (hg : P g) {k : PyStr} {v : Value} (h : aget k (geoDict g) = some v) :
    GeoVal P k v ∧ GeoOk P v := by
  have hm := aget_mem h
  simp only [geoDict, List.mem_cons, List.not_mem_nil, or_false, Prod.mk.injEq] at hm
  rcases hm with ⟨rfl, rfl⟩ | ⟨rfl, rfl⟩
  · exact ⟨⟨fun _ => ⟨g, hg, rfl⟩, fun e => absurd e (by decide)⟩, geoOk_scalar rfl⟩
  · exact ⟨⟨fun e => absurd e (by decide), fun _ => ⟨g, hg, rfl⟩⟩, geoOk_scalar rfl⟩

theorem geoOk_update {d : Dict} (hd : GeoOk P (.dict d)) {g : PyStr × PyStr} (hg : P g) :
    GeoOk P (.dict (aupdate d (geoDict g))) := by
  rw [geoOk_dict] at hd ⊢
  intro k v hk
  rcases mem_of_aget_aupdate (by rw [akeys_geoDict]; exact geoTypes_nodup) hk with h | h
  · exact geoVal_geoDict hg (aget_of_mem (by rw [akeys_geoDict]; exact geoTypes_nodup) h)
  · exact hd k v h

theorem geoOk_asetOpt {d : Dict} {t : PyStr} {x : Option Value} (hd : GeoOk P (.dict d)) (ht : t ∉ geoTypes)
    (hx : ∀ y, x = some y → y.isScalar = true) : GeoOk P (.dict (asetOpt t x d)) := by
  rw [geoOk_dict] at hd ⊢
  intro k v hk
  rw [aget_asetOpt] at hk
  split at hk
  · rename_i e
    subst e
    cases x with
    | none => exact hd _ _ hk
    | some y =>
      have : some y = some v := hk
      cases this
      exact ⟨geoVal_of_not_geo ht, geoOk_scalar (hx _ rfl)⟩
  · exact hd _ _ hk

theorem geoOk_parseValue (hw : ∀ s g, E.wkt s = some g → P g) {v : Value} (hv : v.isScalar = true) :
    GeoOk P (.dict (parseValue E o v)) := by
  have hbase : GeoOk P (.dict [("_u".toList, v), ("_t".toList, .str (strValue E o v)),
      ("_k".toList, .str (pyTake o.keywordLength (strValue E o v)))]) := by
    rw [geoOk_dict]
    intro k x hk
    have hm := aget_mem hk
    simp only [List.mem_cons, List.not_mem_nil, or_false, Prod.mk.injEq] at hm
    rcases hm with ⟨rfl, rfl⟩ | ⟨rfl, rfl⟩ | ⟨rfl, rfl⟩
    · exact ⟨geoVal_of_not_geo (by decide), geoOk_scalar hv⟩
    · exact ⟨geoVal_of_not_geo (by decide), geoOk_scalar rfl⟩
    · exact ⟨geoVal_of_not_geo (by decide), geoOk_scalar rfl⟩
  rw [parseValue_eq']
  refine geoOk_asetOpt (geoOk_asetOpt (geoOk_asetOpt ?_ (by decide) ?_) (by decide) ?_) (by decide) ?_
  · unfold valueBase
    dsimp only
    split
    · rename_i g hg
      exact geoOk_update hbase (hw _ _ hg)
    · exact hbase
  · intro y hy
    obtain ⟨b, _, rfl⟩ := Option.map_eq_some_iff.1 hy
    rfl
  · intro y hy
    unfold parsedNumber at hy
    split at hy
    · cases hy; rfl
    · cases hy; rfl
    · obtain ⟨b, _, rfl⟩ := Option.map_eq_some_iff.1 hy
      rfl
  · intro y hy
    obtain ⟨b, _, rfl⟩ := Option.map_eq_some_iff.1 hy
    rfl

theorem geoOk_addHints : ∀ {hs : List (PyStr × (PyStr × PyStr))} {p p' : Dict}, addHints hs p = .ok p' →
    (∀ k g, (k, g) ∈ hs → P g) → GeoOk P (.dict p) → GeoOk P (.dict p')
  | [], p, _, h, _, hp => by cases h; exact hp
  | (k, g) :: r, p, p', h, hg, hp => by
    rw [addHints] at h
    split at h
    · cases h
    · rename_i d hd
      refine geoOk_addHints h (fun k g hm => hg k g (List.mem_cons_of_mem _ hm)) ?_
      rw [geoOk_dict] at hp ⊢
      intro k' v hk
      rw [aget_aset] at hk
      split at hk
      · rename_i e
        subst e
        cases hk
        refine ⟨?_, geoOk_update (hp _ _ hd).2 (hg k' g List.mem_cons_self)⟩
        have := (hp _ _ hd).1
        refine ⟨fun e => ?_, fun e => ?_⟩
        · obtain ⟨g', _, e'⟩ := this.1 e; cases e'
        · obtain ⟨g', _, e'⟩ := this.2 e; cases e'
      · exact hp _ _ hk
    · cases h

theorem mem_hints {d : Dict} (hh : ∀ lon lat r n g, E.hintGeo lon lat r n = some g → P g) :
    ∀ (hints : List GeoFieldHint) (acc : List (PyStr × (PyStr × PyStr))), (∀ k g, (k, g) ∈ acc → P g) →
    ∀ k g, (k, g) ∈ hints.foldl (hintStep E d) acc → P g
  | [], acc, ha => ha
  | h :: r, acc, ha => by
    refine mem_hints hh r (hintStep E d acc h) ?_
    unfold hintStep
    split
    · rename_i g hg
      intro k g' hm
      rcases mem_aset hm with ⟨_, rfl⟩ | hm
      · exact hh _ _ _ _ _ hg
      · exact ha k g' hm
    · exact ha

theorem geoOk_assemble (hj : ∀ d g, E.geojson d = some g → P g) (hh : ∀ lon lat r n g, E.hintGeo lon lat r n = some g → P g)
    {c : Bool} {d : Dict} {items x : PResult Dict} (hi : parseItems E o d = .ok items)
    (h : assembleDict E o c d items = .ok x) (hn : (akeys d).Nodup) (hf : ∀ k ∈ akeys d, FieldName k)
    (hitems : ∀ k w, (k, w) ∈ items.parsed → GeoOk P w) : GeoOk P (.dict x.parsed) := by
  unfold assembleDict at h
  simp only [] at h
  split at h
  · cases h
  · rename_i p' hp
    cases h
    refine geoOk_addHints hp (mem_hints hh o.geoHints [] (fun _ _ hm => by cases hm)) ?_
    have hni := (parseItems_keys hi).nodup hn
    rw [geoOk_dict]
    intro k v hk
    rcases mem_of_aget_aupdate hni hk with hm | hm
    · refine ⟨?_, hitems k v hm⟩
      obtain ⟨v', _, hv, _⟩ := parseItems_item hi hm
      exact geoVal_of_not_geo (hf k (mem_akeys_of_mem hv)).not_geo
    · cases hg : (if c = true then matchGeojson E d else none) with
      | none => rw [hg] at hm; cases hm
      | some g =>
        rw [hg] at hm
        refine geoVal_geoDict ?_ hm
        split at hg
        · unfold matchGeojson at hg
          split at hg
          · exact hj _ _ hg
          · cases hg
        · cases hg

theorem geoOk_parseInner (hw : ∀ s g, E.wkt s = some g → P g) (hj : ∀ d g, E.geojson d = some g → P g)
    (hh : ∀ lon lat r n g, E.hintGeo lon lat r n = some g → P g) : ∀ v : Value, v.wf = true → FieldNames v →
    ∀ c x pw, parseInner E o c v = .ok x → x.parsed = some pw → GeoOk P pw := by
  have hun : ∀ z : Value, z.isScalar = true → GeoOk P (.dict [("_u".toList, z)]) := by
    intro z hz
    rw [geoOk_dict]
    intro k v hk
    have hm := aget_mem hk
    simp only [List.mem_cons, List.not_mem_nil, or_false, Prod.mk.injEq] at hm
    obtain ⟨rfl, rfl⟩ := hm
    exact ⟨geoVal_of_not_geo (by decide), geoOk_scalar hz⟩
  apply Value.ind
  · intro _ _ c x pw h hp
    cases h
    cases c <;> cases hp
    exacts [hun _ rfl, geoOk_scalar rfl]
  · intro b _ _ c x pw h hp; cases h; cases hp; exact geoOk_parseValue hw rfl
  · intro b _ _ c x pw h hp; cases h; cases hp; exact geoOk_parseValue hw rfl
  · intro b _ _ c x pw h hp; cases h; cases hp; exact geoOk_parseValue hw rfl
  · intro s _ _ c x pw h hp
    rw [parseInner] at h
    split at h
    · cases h
      cases c <;> cases hp
      exacts [hun _ rfl, geoOk_scalar rfl]
    · cases h; cases hp; exact geoOk_parseValue hw rfl
  · intro l ih hwf hf c x pw h hp
    cases l with
    | nil =>
      cases h
      cases c <;> cases hp
      exact geoOk_scalar rfl
    | cons v0 r =>
      rw [parseInner] at h
      split at h
      · cases h
      · rename_i z hz
        cases h
        cases hp
        refine geoOk_list fun q hq => ?_
        obtain ⟨i, hi, rfl⟩ := List.mem_iff_getElem.1 hq
        have hlt : i < (v0 :: r).length := by rw [← parseElems_length hz]; exact hi
        obtain ⟨u, h1, h2⟩ := parseElems_get hz (List.getElem?_eq_getElem hlt)
        rw [List.getElem?_eq_getElem hi] at h2
        rw [Option.some.inj h2]
        have hm := List.getElem_mem hlt
        cases hu : u.parsed with
        | none => exact geoOk_scalar rfl
        | some q' => exact ih _ hm (wf_list_iff.1 hwf _ hm) (hf.elem hm) true u q' h1 hu
  · intro d ih hwf hf c x pw h hp
    have hw' := wf_dict_iff.1 hwf
    cases d with
    | nil =>
      cases h
      cases c <;> cases hp
      exact geoOk_scalar rfl
    | cons kv r =>
      rw [parseInner] at h
      split at h
      · cases h
      · rename_i items hitems
        split at h
        · cases h
        · rename_i z hz
          cases h
          cases hp
          refine geoOk_assemble hj hh hitems hz hw'.1 hf.dict fun k w hm => ?_
          obtain ⟨v, y, hv, h1, h2⟩ := parseItems_item hitems hm
          exact ih k v hv (hw'.2 k v hv) (hf.item hw'.1 hv) false y w h1 h2

theorem geoOk_parse (hw : ∀ s g, E.wkt s = some g → P g) (hj : ∀ d g, E.geojson d = some g → P g)
    (hh : ∀ lon lat r n g, E.hintGeo lon lat r n = some g → P g) {d : Dict} {pd : ParsedData}
    (hwf : (Value.dict d).wf = true) (hf : FieldNames (.dict d)) (h : parse E o d = .ok pd) :
    GeoOk P (.dict pd.parsed) := by
  have hw' := wf_dict_iff.1 hwf
  obtain ⟨x, hx, hpx, _⟩ := parse_ok h
  obtain ⟨items, hi, ha⟩ := parseDict_ok hx
  rw [← hpx]
  refine geoOk_assemble hj hh hi ha hw'.1 hf.dict fun k w hm => ?_
  obtain ⟨v, y, hv, h1, h2⟩ := parseItems_item hi hm
  exact geoOk_parseInner hw hj hh v (hw'.2 k v hv) (hf.item hw'.1 hv) false y w h1 h2

end Splitgill
