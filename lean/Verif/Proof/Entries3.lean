import Verif.Proof.Entries2
import Verif.Proof.FieldProps2
/-!
# Lemmas: a query matches by entries if and only if it matches by names
-/

namespace Splitgill

variable {m : Mapping} {doc : Doc ParsedData}

theorem fieldType_parsedPath (f : PyStr) (t : PType) : fieldType (parsedPath f t) = some t.esType := by
  have h : parsedPath f t = dotted (existsQuery f) t.name := by simp [parsedPath, existsQuery, dotted]
  rw [h]
  refine (type_child (ks := splitDots f) ?_ (splitDots_ne f) t).1
  rw [existsQuery, splitDots_append]
  rfl

theorem any_entries (hm : RegularMapping m) (hd : DocIn m doc) (f : PyStr) {t : PType} (ht : t ≠ .unparsed) (g : EsType → Value → Bool) :
    (match aget (parsedPath f t) m with
      | none => false
      | some u => (indexEntries m (sentDict doc.toDict)).any (fun e => decide (e.1 = parsedPath f t) && g u e.2)) =
    (esValues (.dict (sentDict doc.parsed.parsed)) (splitDots f ++ [t.name])).any (g t.esType) := by
  cases ha : aget (parsedPath f t) m with
  | none =>
    symm
    rw [List.any_eq_false]
    intro x hx
    have he := (entryAt_iff hd.shaped).2 ⟨_, t, ht, splitDots_parsedPath f t, hx⟩
    rw [(entry_type hm hd he (splitDots_parsedPath f t)).1] at ha
    cases ha
  | some u =>
    have hu := hm.types _ _ ha
    rw [fieldType_parsedPath] at hu
    cases hu
    rw [Bool.eq_iff_iff, List.any_eq_true, List.any_eq_true]
    constructor
    · rintro ⟨⟨q, x⟩, h1, h2⟩
      rw [Bool.and_eq_true, decide_eq_true_eq] at h2
      obtain ⟨rfl, h2⟩ := h2
      exact ⟨x, (entries_at hm hd f ht).1 h1, h2⟩
    · rintro ⟨x, h1, h2⟩
      exact ⟨_, (entries_at hm hd f ht).2 h1, by simpa using h2⟩

theorem keysOf_append_split {p : Path} {a b : List PyStr} (h : keysOf p = a ++ b) : ∃ p0 p1, p = p0 ++ p1 ∧ keysOf p0 = a ∧ keysOf p1 = b := by
  obtain ⟨p0, p1, h1, h2, h3⟩ := List.filterMap_eq_append_iff.1 h
  exact ⟨p0, p1, h1, h2, h3⟩

theorem getAt_append' (p q : Path) (v : Value) : getAt (p ++ q) v = (getAt p v).bind (getAt q) := getAt_append p q v

/-- Inside of what has an indexed value there is a scalar, not in an unparsed value. -/
theorem esHas_getAt : ∀ (v : Value), v.wf = true → esHas v = true → ∃ p w, getAt p v = some w ∧ w.isScalar = true ∧ w ≠ .none ∧ "_u".toList ∉ keysOf p := by
  refine Value.ind' ?_ ?_ ?_
  · intro v hv _ h
    exact ⟨[], v, rfl, hv, (by rintro rfl; cases h), by simp [keysOf]⟩
  · intro l ih hw h
    rw [wf_list_iff] at hw
    obtain ⟨v, hv, h⟩ := esHasElems_iff.1 h
    obtain ⟨p, w, h1, h2⟩ := ih v hv (hw v hv) h
    obtain ⟨i, hi, rfl⟩ := List.mem_iff_getElem.1 hv
    refine ⟨.idx i :: p, w, ?_, h2⟩
    rw [getAt, List.getElem?_eq_getElem hi]
    exact h1
  · intro d ih hw h
    rw [wf_dict_iff] at hw
    obtain ⟨k, v, hv, hk, h⟩ := esHasItems_iff.1 h
    obtain ⟨p, w, h1, h2, h3, h4⟩ := ih k v hv (hw.2 k v hv) h
    refine ⟨.key k :: p, w, ?_, h2, h3, ?_⟩
    · rw [getAt, aget_of_mem hw.1 hv]; exact h1
    · intro hm
      rcases List.mem_cons.1 hm with e | hm
      · exact hk e.symm
      · exact h4 hm

theorem wf_getAt : ∀ (p : Path) (v w : Value), v.wf = true → getAt p v = some w → w.wf = true
  | [], v, w, hv, h => by cases h; exact hv
  | .key k :: p, v, w, hv, h => by
    cases v with
    | dict d =>
      rw [getAt, Option.bind_eq_some_iff] at h
      obtain ⟨u, h1, h2⟩ := h
      exact wf_getAt p u w ((wf_dict_iff.1 hv).2 k u (aget_mem h1)) h2
    | _ => cases h
  | .idx i :: p, v, w, hv, h => by
    cases v with
    | list l =>
      rw [getAt, Option.bind_eq_some_iff] at h
      obtain ⟨u, h1, h2⟩ := h
      exact wf_getAt p u w ((wf_list_iff.1 hv) u (List.mem_of_getElem? h1)) h2
    | _ => cases h

/-- A path is the same or below if and only if its names are. -/
theorem below_iff {path q : PyStr} : (q = path ∨ (path ++ ['.']).isPrefixOf q = true) ↔ ∃ l, splitDots q = splitDots path ++ l := by
  constructor
  · rintro (rfl | h)
    · exact ⟨[], by simp⟩
    · obtain ⟨r, rfl⟩ := List.isPrefixOf_iff_prefix.1 h
      exact ⟨splitDots r, by rw [List.append_assoc]; exact splitDots_append _ _⟩
  · rintro ⟨l, h⟩
    have key : ∀ a : List PyStr, a ≠ [] → l ≠ [] → ['.'].intercalate (a ++ l) = ['.'].intercalate a ++ '.' :: ['.'].intercalate l := by
      intro a
      induction a with
      | nil => exact fun h => absurd rfl h
      | cons x r ih =>
        intro _ hl
        cases r with
        | nil =>
          rw [List.singleton_append, intercalate_cons hl]
          simp
        | cons y r =>
          rw [List.cons_append, intercalate_cons (by simp), ih (by simp) hl, intercalate_cons (a := x) (by simp)]
          simp
    cases hl : l with
    | nil =>
      subst hl
      rw [List.append_nil] at h
      exact .inl (by rw [← intercalate_splitDots q, h, intercalate_splitDots])
    | cons x r =>
      right
      rw [List.isPrefixOf_iff_prefix]
      refine ⟨['.'].intercalate l, ?_⟩
      rw [← intercalate_splitDots q, h, key _ (splitDots_ne path) (by rw [hl]; simp), intercalate_splitDots]
      simp

/-- An exists query on a field of the data. -/
theorem exists_entries (hm : RegularMapping m) (hd : DocIn m doc) {field : PyStr} (hf : ∀ k ∈ splitDots field, FieldName k) :
    (indexEntries m (sentDict doc.toDict)).any (fun e => decide (e.1 = existsQuery field) || (existsQuery field ++ ['.']).isPrefixOf e.1) =
      existsMatches (existsQuery field) (sentDict doc.parsed.parsed) := by
  have hsp : splitDots (existsQuery field) = "data".toList :: splitDots field := by
    rw [existsQuery, splitDots_append]; rfl
  have hcopied : copiedTo (existsQuery field) = none := by simp [copiedTo, existsQuery]
  have hold : existsMatches (existsQuery field) (sentDict doc.parsed.parsed) = esExists (.dict (sentDict doc.parsed.parsed)) (splitDots field) := by
    unfold existsMatches
    rw [hcopied, hsp]
    simp
  rw [hold, Bool.eq_iff_iff, List.any_eq_true, esExists_iff]
  constructor
  · rintro ⟨⟨q, x⟩, h1, h2⟩
    rw [Bool.or_eq_true, decide_eq_true_eq] at h2
    obtain ⟨l, h2⟩ := below_iff.1 h2
    rw [hsp] at h2
    have he : EntryAt "data".toList (.dict (sentDict doc.parsed.parsed)) q x := by
      unfold indexEntries at h1
      rcases List.mem_append.1 h1 with h1 | h1
      · rcases (mem_ownEntries hm hd).2 h1 with h | h
        · exact h
        · cases hsf : splitDots field with
          | nil => exact absurd hsf (splitDots_ne field)
          | cons a r => rw [hsf] at h2; exact absurd h2 (outer_no_data h _ _)
      · obtain ⟨_, _, _, _, g3⟩ := mem_copies.1 h1
        dsimp only at h2
        rcases copyTo_name g3 with ⟨_, rfl⟩ | ⟨_, rfl⟩ | ⟨_, rfl⟩ <;> rw [splitDots_clean (by decide)] at h2 <;> simp at h2
    obtain ⟨p, ns, t, g1, g2, g3, g4, g5, g6, g7⟩ := he
    have hk : keysOf p = splitDots field ++ l := by
      rw [h2] at g7
      injection g7 with _ g7
      exact g7.symm
    obtain ⟨p0, p1, rfl, k1, k2⟩ := keysOf_append_split hk
    rw [getAt_append', Option.bind_eq_some_iff] at g1
    obtain ⟨u, u1, u2⟩ := g1
    refine ⟨p0, u, k1, u1, esHas_of_getAt p1 u x u2 (esHas_scalar g2 g3) ?_⟩
    intro hu
    have : "_u".toList ∈ keysOf (p0 ++ p1) := by
      rw [show keysOf (p0 ++ p1) = keysOf p0 ++ keysOf p1 from List.filterMap_append]
      exact List.mem_append_right _ hu
    rw [g4] at this
    rcases List.mem_append.1 this with h | h
    · exact fieldName_no_type (g5 _ h) .unparsed rfl
    · rw [List.mem_singleton] at h
      exact g6 (name_inj (t' := .unparsed) h.symm)
  · rintro ⟨p, u, h1, h2, h3⟩
    obtain ⟨p', w, g1, g2, g3, g4⟩ := esHas_getAt u (wf_getAt _ _ _ hd.wf h2) h3
    have hg : getAt (p ++ p') (.dict (sentDict doc.parsed.parsed)) = some w := by
      rw [getAt_append', h2]; exact g1
    obtain ⟨ns, t, k1, k2⟩ := (shaped_path g2 g3 (.dict (sentDict doc.parsed.parsed))).2 false _ rfl hd.shaped _ hg
    have hk : keysOf (p ++ p') = splitDots field ++ keysOf p' := by
      rw [show keysOf (p ++ p') = keysOf p ++ keysOf p' from List.filterMap_append, h1]
    have ht : t ≠ .unparsed := by
      rintro rfl
      have : PType.unparsed.name ∈ splitDots field ++ keysOf p' := by rw [← hk, k1]; simp
      rcases List.mem_append.1 this with h | h
      · exact fieldName_no_type (hf _ h) .unparsed rfl
      · exact g4 h
    have hnd : ∀ k ∈ keysOf (p ++ p'), '.' ∉ k := by
      rw [k1]
      intro k hk
      rcases List.mem_append.1 hk with hk | hk
      · exact (k2 k hk).no_dot
      · rw [List.mem_singleton] at hk; subst hk; exact typeName_no_dot t
    have key : ∀ l : List PyStr, l ≠ [] → (∀ k ∈ l, '.' ∉ k) → splitDots (['.'].intercalate l) = l := by
      intro l
      induction l with
      | nil => exact fun h => absurd rfl h
      | cons a r ih =>
        intro _ hk
        cases r with
        | nil => simpa using splitDots_clean (hk a List.mem_cons_self)
        | cons b r =>
          rw [intercalate_cons (by simp), splitDots_append, splitDots_clean (hk a List.mem_cons_self),
            ih (by simp) (fun k hm => hk k (List.mem_cons_of_mem _ hm))]
          rfl
    have hq := key ("data".toList :: keysOf (p ++ p')) (by simp) (fun k hk => by
      rcases List.mem_cons.1 hk with rfl | hk
      · decide
      · exact hnd k hk)
    have he : EntryAt "data".toList (.dict (sentDict doc.parsed.parsed)) (['.'].intercalate ("data".toList :: keysOf (p ++ p'))) w :=
      ⟨_, ns, t, hg, g2, g3, k1, k2, ht, by rw [hq]; rfl⟩
    refine ⟨_, List.mem_append_left _ ((mem_ownEntries hm hd).1 he), ?_⟩
    rw [Bool.or_eq_true, decide_eq_true_eq]
    refine below_iff.2 ⟨keysOf p', ?_⟩
    rw [hq, hsp, hk]
    rfl

/-- `has_geo` -/
theorem hasGeo_entries (hm : RegularMapping m) (hd : DocIn m doc) :
    (indexEntries m (sentDict doc.toDict)).any (fun e => decide (e.1 = hasGeo) || (hasGeo ++ ['.']).isPrefixOf e.1) =
      existsMatches hasGeo (sentDict doc.parsed.parsed) := by
  have hold : existsMatches hasGeo (sentDict doc.parsed.parsed) = !(esCopied .geoPoint (sentDict doc.parsed.parsed)).isEmpty := rfl
  have hc := fun x => entries_copied hm hd (t := .geoPoint) (by decide) (target := hasGeo) rfl (x := x)
  rw [hold, Bool.eq_iff_iff, List.any_eq_true, Bool.not_eq_true', List.isEmpty_eq_false_iff_exists_mem]
  constructor
  · rintro ⟨⟨q, x⟩, h1, h2⟩
    rw [Bool.or_eq_true, decide_eq_true_eq] at h2
    rcases h2 with rfl | h2
    · exact ⟨x, (hc x).1 h1⟩
    · exfalso
      have h2' : (hasGeo ++ ['.']).isPrefixOf q = true := h2
      obtain ⟨l, h2⟩ := below_iff.1 (.inr h2')
      have hsp : splitDots hasGeo = [hasGeo] := splitDots_clean (by decide)
      unfold indexEntries at h1
      rcases List.mem_append.1 h1 with h1 | h1
      · rcases (mem_ownEntries hm hd).2 h1 with h | h
        · obtain ⟨ks, t, _, g, _⟩ := (entryAt_iff hd.shaped).1 h
          rw [g, hsp] at h2
          injection h2 with h2 _
          exact absurd h2 (by decide)
        · simp only [outerFields, List.mem_cons, List.not_mem_nil, or_false] at h
          rcases h with rfl | rfl | rfl | rfl | rfl <;> rw [splitDots_clean (by decide), hsp] at h2 <;> injection h2 with h2 _ <;> exact absurd h2 (by decide)
      · obtain ⟨_, _, _, _, g3⟩ := mem_copies.1 h1
        have hq : ¬ (hasGeo ++ ['.']).isPrefixOf q = true := by
          rcases copyTo_name g3 with ⟨_, rfl⟩ | ⟨_, rfl⟩ | ⟨_, rfl⟩ <;> decide
        exact hq h2'
  · rintro ⟨x, h⟩
    exact ⟨_, (hc x).2 h, by simp⟩

/-- A match query. -/
theorem match_entries (hm : RegularMapping m) (hd : DocIn m doc) (Q : QueryEnv) (query : PyStr) (field : Option PyStr) (every : Bool) :
    (EsQuery.match_ (matchQuery query field every)).matchesIn Q m (sentDict doc.toDict) =
      (matchQuery query field every).matches Q (sentDict doc.parsed.parsed) := by
  have words : ∀ path, (∀ x, (path, x) ∈ indexEntries m (sentDict doc.toDict) ↔ x ∈ esTexts path (sentDict doc.parsed.parsed)) →
      ∀ w, w ∈ (indexEntries m (sentDict doc.toDict)).flatMap (fun e => if e.1 = path then esWords Q e.2 else []) ↔
        w ∈ (esTexts path (sentDict doc.parsed.parsed)).flatMap (esWords Q) := by
    intro path h w
    rw [List.mem_flatMap, List.mem_flatMap]
    constructor
    · rintro ⟨⟨q, x⟩, h1, h2⟩
      dsimp only at h2
      split at h2
      · rename_i e
        subst e
        exact ⟨x, (h x).1 h1, h2⟩
      · cases h2
    · rintro ⟨x, h1, h2⟩
      exact ⟨(path, x), (h x).2 h1, by simpa using h2⟩
  have texts : ∀ f x, (parsedPath f .text, x) ∈ indexEntries m (sentDict doc.toDict) ↔ x ∈ esTexts (parsedPath f .text) (sentDict doc.parsed.parsed) := by
    intro f x
    rw [entries_at hm hd f (by decide)]
    have h2 : copiedTo (parsedPath f .text) = none := by simp [copiedTo, parsedPath]
    have : esTexts (parsedPath f .text) (sentDict doc.parsed.parsed) = esValues (.dict (sentDict doc.parsed.parsed)) (splitDots f ++ [PType.text.name]) := by
      unfold esTexts
      rw [h2, splitDots_parsedPath]
      dsimp only
      rw [if_pos ⟨rfl, by rw [List.getLast?_append]; rfl⟩]
    rw [this]
  have go : ∀ q : EsMatch, aget q.path m = some .text →
      (∀ x, (q.path, x) ∈ indexEntries m (sentDict doc.toDict) ↔ x ∈ esTexts q.path (sentDict doc.parsed.parsed)) →
      (EsQuery.match_ q).matchesIn Q m (sentDict doc.toDict) = q.matches Q (sentDict doc.parsed.parsed) := by
    intro q ha h
    unfold EsQuery.matchesIn EsMatch.matches
    dsimp only
    rw [ha]
    dsimp only
    simp only [words q.path h]
  cases field with
  | none =>
    refine go _ (hm.initial _ _ (by rfl)) (fun x => ?_)
    rw [show (matchQuery query none every).path = "all_text".toList from rfl, entries_copied hm hd (t := .text) (by decide) rfl]
    rfl
  | some f =>
    cases ha : aget (parsedPath f .text) m with
    | some u =>
      have hu := hm.types _ _ ha
      rw [fieldType_parsedPath] at hu
      cases hu
      exact go ⟨parsedPath f .text, query, every⟩ ha (texts f)
    | none =>
      have he : esTexts (parsedPath f .text) (sentDict doc.parsed.parsed) = [] := by
        rw [List.eq_nil_iff_forall_not_mem]
        intro x hx
        rw [← texts, entries_at hm hd f (by decide)] at hx
        have he := (entryAt_iff hd.shaped).2 ⟨_, PType.text, by decide, splitDots_parsedPath f .text, hx⟩
        rw [(entry_type hm hd he (splitDots_parsedPath f .text)).1] at ha
        cases ha
      show (EsQuery.match_ ⟨parsedPath f .text, query, every⟩).matchesIn Q m _ = EsMatch.matches Q ⟨parsedPath f .text, query, every⟩ _
      unfold EsQuery.matchesIn EsMatch.matches
      dsimp only
      rw [ha, he]
      dsimp only
      cases hq : Q.analyse query <;> cases every <;> simp

/-- A query of the API matches a document in an index by its entries if and only if it matches by names. -/
theorem matchesIn_eq (hm : RegularMapping m) (hd : DocIn m doc) (Q : QueryEnv) {q : EsQuery} (hq : q.Made) :
    q.matchesIn Q m (sentDict doc.toDict) = q.matches Q (sentDict doc.parsed.parsed) := by
  cases hq with
  | term field t v ht =>
    have hu : t ≠ .unparsed := by rcases ht with rfl | rfl | rfl | rfl <;> decide
    refine (any_entries hm hd field hu (fun u x => u.termMatches Q x v)).trans ?_
    simp only [EsQuery.matches, EsTerm.matches, esField_eq ht]
    rcases ht with rfl | rfl | rfl | rfl <;> rfl
  | range field t b ht =>
    have hu : t ≠ .unparsed := by rcases ht with rfl | rfl | rfl | rfl <;> decide
    refine (any_entries hm hd field hu (fun u x => u.rangeMatches Q x b)).trans ?_
    simp only [EsQuery.matches, EsRange.matches, esField_eq ht]
    rcases ht with rfl | rfl | rfl | rfl <;> rfl
  | exists_ field hf => exact exists_entries hm hd hf
  | hasGeo => exact hasGeo_entries hm hd
  | match_ query field every => exact match_entries hm hd Q query field every

end Splitgill
