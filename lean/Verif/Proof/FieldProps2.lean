import Verif.Proof.FieldProps
import Verif.Proof.Json5
/-!
# What is indexed with a type, as an exists query finds it
-/

namespace Splitgill

variable {E : ParseEnv} {o : ParsingOptions}

/-- What is indexed with a type that is no place, by paths with positions in lists. -/
theorem IndexedAs.path {v : Value} {ks : List PyStr} {t : PyStr} (h : IndexedAs E o v ks t) : v.wf = true → t ∉ geoTypes →
    ∃ p w, keysOf p = ks ∧ getAt p v = some w ∧ w.isIndexed = true ∧ t ∈ akeys (parseValue E o w) := by
  induction h with
  | @scalar v t h1 h2 => exact fun _ _ => ⟨[], v, rfl, rfl, h1, h2⟩
  | geojson _ ht => exact fun _ hn => absurd ht hn
  | hint _ _ _ ht => exact fun _ hn => absurd ht hn
  | @elem l v p t hm _ ih =>
    intro hw ht
    obtain ⟨q, w, h1, h2, h3⟩ := ih (wf_list_iff.1 hw _ hm) ht
    obtain ⟨i, hi⟩ := List.getElem?_of_mem hm
    exact ⟨.idx i :: q, w, h1, by rw [getAt, hi]; exact h2, h3⟩
  | @field d k v p t hm _ ih =>
    intro hw ht
    have hw' := wf_dict_iff.1 hw
    obtain ⟨q, w, h1, h2, h3⟩ := ih (hw'.2 _ _ hm) ht
    exact ⟨.key k :: q, w, by rw [← h1]; rfl, by rw [getAt, aget_of_mem hw'.1 hm]; exact h2, h3⟩

/-- What is found at a path is indexed there. -/
theorem indexed_at {t : PyStr} : ∀ (p : Path) (v : Value) {w : Value}, getAt p v = some w → IndexedAs E o w [] t →
    IndexedAs E o v (keysOf p) t := by
  intro p
  induction p with
  | nil => intro v w h hi; cases h; exact hi
  | cons a p ih =>
    intro v w h hi
    cases a with
    | key k =>
      cases v with
      | dict d =>
        rw [getAt, Option.bind_eq_some_iff] at h
        obtain ⟨y, hy, h⟩ := h
        exact .field (aget_mem hy) (ih y h hi)
      | _ => cases h
    | idx i =>
      cases v with
      | list l =>
        rw [getAt, Option.bind_eq_some_iff] at h
        obtain ⟨y, hy, h⟩ := h
        exact .elem (List.mem_of_getElem? hy) (ih y h hi)
      | _ => cases h

/-- What is indexed as a place, by paths with positions in lists. -/
theorem IndexedAs.placePath {v : Value} {ks : List PyStr} {t : PyStr} (h : IndexedAs E o v ks t) : v.wf = true → t ∈ geoTypes →
    ∃ p, keysOf p = ks ∧ ((∃ g, HintedAt E o v p g) ∨ ∃ g, OwnPlaceAt E o v p g) := by
  induction h with
  | @scalar v t h1 h2 =>
    intro _ ht
    obtain ⟨y, hy⟩ := Option.isSome_iff_exists.1 (aget_isSome_iff.2 h2)
    rw [aget_geo_parseValue ht, Option.bind_eq_some_iff] at hy
    obtain ⟨g, hg, _⟩ := hy
    exact ⟨[], rfl, .inr ⟨g, v, rfl, .inl ⟨h1, hg⟩⟩⟩
  | @geojson d g t hg _ =>
    intro _ _
    refine ⟨[], rfl, .inr ⟨g, _, rfl, .inr ⟨d, rfl, ?_⟩⟩⟩
    unfold matchGeojson at hg
    split at hg
    · rename_i hc
      rw [Bool.and_eq_true, ahas_iff, ahas_iff] at hc
      exact ⟨hc.1, hc.2, hg⟩
    · cases hg
  | @hint d h g t _ h2 h3 _ =>
    intro _ _
    exact ⟨[.key h.latField], rfl, .inl ⟨g, hinted_key.2 (.inl ⟨rfl, h, h2, rfl, h3⟩)⟩⟩
  | @elem l v p t hm _ ih =>
    intro hw ht
    obtain ⟨q, h1, h2⟩ := ih (wf_list_iff.1 hw _ hm) ht
    obtain ⟨i, hi⟩ := List.getElem?_of_mem hm
    refine ⟨.idx i :: q, h1, h2.imp ?_ ?_⟩
    · rintro ⟨g, hg⟩; exact ⟨g, hinted_idx.2 ⟨v, hi, hg⟩⟩
    · rintro ⟨g, hg⟩; exact ⟨g, own_cons.2 ⟨v, by rw [getAt, hi]; rfl, hg⟩⟩
  | @field d k v p t hm _ ih =>
    intro hw ht
    have hw' := wf_dict_iff.1 hw
    have hk := aget_of_mem hw'.1 hm
    obtain ⟨q, h1, h2⟩ := ih (hw'.2 _ _ hm) ht
    refine ⟨.key k :: q, by rw [← h1]; rfl, h2.imp ?_ ?_⟩
    · rintro ⟨g, hg⟩; exact ⟨g, hinted_key.2 (.inr ⟨v, hk, hg⟩)⟩
    · rintro ⟨g, hg⟩; exact ⟨g, own_cons.2 ⟨v, by rw [getAt, hk]; rfl, hg⟩⟩

theorem own_indexed {t : PyStr} (ht : t ∈ geoTypes) {v : Value} {p : Path} {g : PyStr × PyStr} (h : OwnPlaceAt E o v p g) :
    IndexedAs E o v (keysOf p) t := by
  obtain ⟨w, h1, ⟨h2, h3⟩ | ⟨x, rfl, h2, h3, h4⟩⟩ := h
  · refine indexed_at p v h1 (.scalar h2 ?_)
    rw [← aget_isSome_iff, aget_geo_parseValue ht, h3]
    obtain ⟨s, hs⟩ := aget_geoDict ht g
    rw [Option.bind_some, hs]
    rfl
  · refine indexed_at p v h1 (.geojson (g := g) ?_ ht)
    unfold matchGeojson
    rw [if_pos (by rw [Bool.and_eq_true, ahas_iff, ahas_iff]; exact ⟨h2, h3⟩)]
    exact h4

theorem keysOf_append (p q : Path) : keysOf (p ++ q) = keysOf p ++ keysOf q := by
  rw [keysOf, List.filterMap_append, keysOf, keysOf]

theorem indexed_below {t : PyStr} {ks : List PyStr} : ∀ (p : Path) (v : Value) {w : Value}, getAt p v = some w → IndexedAs E o w ks t →
    IndexedAs E o v (keysOf p ++ ks) t := by
  intro p
  induction p with
  | nil => intro v w h hi; cases h; exact hi
  | cons a p ih =>
    intro v w h hi
    cases a with
    | key k =>
      cases v with
      | dict d =>
        rw [getAt, Option.bind_eq_some_iff] at h
        obtain ⟨y, hy, h⟩ := h
        exact .field (aget_mem hy) (ih y h hi)
      | _ => cases h
    | idx i =>
      cases v with
      | list l =>
        rw [getAt, Option.bind_eq_some_iff] at h
        obtain ⟨y, hy, h⟩ := h
        exact .elem (List.mem_of_getElem? hy) (ih y h hi)
      | _ => cases h

theorem hinted_indexed (hS : E.ScalarHints) {t : PyStr} (ht : t ∈ geoTypes) {v : Value} {p : Path} {g : PyStr × PyStr}
    (h : HintedAt E o v p g) : IndexedAs E o v (keysOf p) t := by
  obtain ⟨p0, x, h, rfl, h1, h2, h3⟩ := h
  have h3 := matchHint_iff.2 h3
  rw [keysOf_append]
  refine indexed_below p0 v h1 (.hint ?_ h2 h3 ht)
  obtain ⟨w, hw⟩ := hint_key hS h3
  exact mem_akeys_of_mem (aget_mem hw)

theorem esHas_scalar {y : Value} (hs : y.isScalar = true) (hn : y ≠ .none) : esHas y = true := by
  cases y <;> first | exact absurd rfl hn | cases hs; done | rfl

theorem splitDots_eq (s : PyStr) : splitDots s = pySplit '.' s := by
  induction s with
  | nil => rfl
  | cons c s ih =>
    rw [splitDots, pySplit, ih]
    split
    · rfl
    · cases pySplit '.' s <;> rfl

theorem joinWith_splitDots (s : PyStr) : pathText (splitDots s) = s := by
  have : ∀ l : List PyStr, pathText l = ['.'].intercalate l := by
    intro l
    induction l with
    | nil => rfl
    | cons a l ih =>
      cases l with
      | nil => simp [pathText, joinWith, List.intercalate]
      | cons b l =>
        rw [intercalate_cons (by simp), ← ih]
        simp [pathText, joinWith]
  rw [this, intercalate_splitDots]

theorem parsedPath_eq (field : PyStr) (t : PType) : parsedPath field t = existsQuery (field ++ '.' :: t.name) := rfl

/-- An exists query on a field with a type finds what is indexed there with this type. -/
theorem exists_typed (hS : E.ScalarHints) {d : Dict} {pd : ParsedData} (hw : (Value.dict d).wf = true) (hf : FieldNames (.dict d))
    (h : parse E o d = .ok pd) (field : PyStr) {t : PType} (ht : t ≠ .unparsed) :
    existsMatches (parsedPath field t) pd.parsed = true ↔ ∃ p, ParsedTypeAt E o d p t.name ∧ pathText p = field := by
  have hsplit : splitDots (field ++ '.' :: t.name) = splitDots field ++ [t.name] := by
    rw [splitDots_append, splitDots_clean (s := t.name) (by cases t <;> decide)]
  rw [parsedPath_eq, existsMatches_data, hsplit]
  have hback : ∀ {ks : List PyStr}, IndexedAs E o (.dict d) ks t.name → ks ≠ [] → (pathText ks = field ↔ ks = splitDots field) := by
    intro ks hi hne
    rcases hi.occurs hw hf with h0 | ⟨q, w, h1, h2⟩
    · exact absurd h0 hne
    · have hcl : ∀ k ∈ ks, '.' ∉ k := by
        intro k hk
        rw [← h2] at hk
        exact h1.clean hw hf k (List.mem_filter.1 hk).1
      constructor
      · rintro rfl
        rw [splitDots_eq, pySplit_pathText hne hcl]
      · rintro rfl
        exact joinWith_splitDots field
  by_cases hg : t.name ∈ geoTypes
  · constructor
    · rintro ⟨p, u, h1, h2, h3⟩
      obtain ⟨p0, q, rfl, h4, h5⟩ := keysOf_split p _ _ h1
      rw [getAt_append, Option.bind_eq_some_iff] at h2
      obtain ⟨y, hy, hyq⟩ := h2
      rw [parse_place hg hw hf h] at hy
      split at hy
      · cases hy
      · rename_i hne
        obtain ⟨g, hg1, hy⟩ := Option.bind_eq_some_iff.1 hy
        have hi : IndexedAs E o (.dict d) (keysOf p0) t.name := by
          rcases (placeIn_isSome hS p0 _).1 ⟨g, hg1⟩ with ⟨g, h⟩ | ⟨g, h⟩
          · exact hinted_indexed hS hg h
          · exact own_indexed hg h
        obtain ⟨w, hw1⟩ := placeIn_path p0 _ g hg1
        have hne' := keysOf_ne_nil rfl hw1 hne
        exact ⟨keysOf p0, ⟨hne', hi⟩, (hback hi hne').2 h4⟩
    · rintro ⟨ks, ⟨hne, hi⟩, e⟩
      obtain ⟨p, h1, h2⟩ := hi.placePath hw hg
      obtain ⟨g, hg1⟩ := (placeIn_isSome hS p _).2 h2
      obtain ⟨s, hs⟩ := aget_geoDict hg g
      refine ⟨p ++ [.key t.name], .str s, ?_, ?_, rfl⟩
      · rw [keysOf_append, h1, ← (hback hi hne).1 e]
        rfl
      · rw [parse_place hg hw hf h, if_neg (by rintro rfl; exact hne h1.symm), hg1]
        exact hs
  · have hpt : PlainType t.name := by cases t <;> first | (simp [PlainType, PType.name]; done) | exact absurd rfl ht | exact absurd (by decide) hg
    have hnn : ∀ {w y : Value}, w.isIndexed = true → aget t.name (parseValue E o w) = some y → esHas y = true := by
      intro w y hi hy
      refine esHas_scalar (parseValue_scalar (Value.isScalar_of_isIndexed hi) hy) ?_
      rintro rfl
      cases t with
      | unparsed => exact ht rfl
      | text => rw [aget_base (by decide)] at hy; cases hy
      | keyword => rw [aget_base (by decide)] at hy; cases hy
      | number =>
        rw [show PType.number.name = "_n".toList from rfl, aget_number] at hy
        unfold parsedNumber at hy
        split at hy
        · cases hy
        · cases hy
        · cases h : E.toNumber (strValue E o w) <;> rw [h] at hy <;> cases hy
      | date =>
        rw [show PType.date.name = "_d".toList from rfl, aget_date] at hy
        cases h : parsedDate E o w <;> rw [h] at hy <;> cases hy
      | boolean =>
        rw [show PType.boolean.name = "_b".toList from rfl, aget_bool] at hy
        cases h : parsedBool E o w <;> rw [h] at hy <;> cases hy
      | geoPoint => exact hg (by decide)
      | geoShape => exact hg (by decide)
    constructor
    · rintro ⟨p, u, h1, h2, h3⟩
      obtain ⟨p0, q, rfl, h4, h5⟩ := keysOf_split p _ _ h1
      rw [getAt_append, Option.bind_eq_some_iff] at h2
      obtain ⟨y, hy, hyq⟩ := h2
      obtain ⟨w, hw1, hw2, hw3⟩ := parse_inv hw hf h hpt hy
      have hi : IndexedAs E o (.dict d) (keysOf p0) t.name :=
        indexed_at p0 _ hw1 (.scalar hw2 (aget_isSome_iff.1 (by rw [hw3]; rfl)))
      have hne' := keysOf_ne hw1 (Value.isScalar_of_isIndexed hw2)
      exact ⟨keysOf p0, ⟨hne', hi⟩, (hback hi hne').2 h4⟩
    · rintro ⟨ks, ⟨hne, hi⟩, e⟩
      obtain ⟨p, w, h1, h2, h3, h4⟩ := hi.path hw hg
      obtain ⟨y, hy⟩ := Option.isSome_iff_exists.1 (aget_isSome_iff.2 h4)
      obtain ⟨pv, h6, h7⟩ := parse_at hw hf h h2 h3
      refine ⟨p ++ [.key t.name], y, ?_, ?_, hnn h3 hy⟩
      · rw [keysOf_append, h1, ← (hback hi hne).1 e]
        rfl
      · rw [getAt_append, h6]
        show (aget t.name pv).bind (getAt []) = _
        rw [h7 _ hg, hy]
        rfl

/-- What exists queries count. -/
theorem field_queries (hS : E.ScalarHints) {docs : List (Doc ParsedData)} {src : Doc ParsedData → Dict} {opts : Doc ParsedData → ParsingOptions}
    {gs : List (FieldCounts PType)} (hg : ListsFields PType.name docs (fun d => ParsedTypeAt E (opts d) (src d)) gs)
    (h : ∀ d ∈ docs, (Value.dict (src d)).wf = true ∧ FieldNames (.dict (src d)) ∧ parse E (opts d) (src d) = .ok d.parsed) :
    FieldQueries (docs.map (fun d => d.parsed.parsed)) gs := by
  classical
  intro field t ht
  have key : ∀ d ∈ docs, (existsMatches (parsedPath field t) d.parsed.parsed = true ↔
      ∃ p, ParsedTypeAt E (opts d) (src d) p t.name ∧ pathText p = field) := fun d hd =>
    exists_typed hS (h d hd).1 (h d hd).2.1 (h d hd).2.2 field ht
  constructor
  · rintro g hgm rfl
    rw [hg.types g hgm t, List.filter_map, List.length_map]
    unfold howMany
    congr 1
    refine List.filter_congr (fun d hd => ?_)
    show existsMatches _ d.parsed.parsed = _
    rw [Bool.eq_iff_iff, key d hd, decide_eq_true_iff]
  · intro hn
    rw [List.filter_eq_nil_iff]
    intro x hx hm
    obtain ⟨d, hd, rfl⟩ := List.mem_map.1 hx
    obtain ⟨p, h1, h2⟩ := (key d hd).1 hm
    exact hn ((hg.paths field).2 ⟨d, hd, p, _, h1, h2⟩)

end Splitgill
