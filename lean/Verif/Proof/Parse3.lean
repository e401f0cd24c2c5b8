import Verif.Proof.Parse2
/-!
# Lemmas about the types of parsed data
-/

namespace Splitgill

variable {E : ParseEnv} {o : ParsingOptions}

/-- A value of this type occurs at this path; the elements of lists are at the path with an empty name. -/
inductive TypeAt : Value → List PyStr → DType → Prop
  | field {d k v} : (k, v) ∈ d → TypeAt (.dict d) [k] v.dtype
  | inField {d k v p t} : (k, v) ∈ d → TypeAt v p t → TypeAt (.dict d) (k :: p) t
  | elem {l v} : v ∈ l → TypeAt (.list l) [[]] v.dtype
  | inElem {l v p t} : v ∈ l → TypeAt v p t → TypeAt (.list l) ([] :: p) t

theorem typeSymbol_eq (v : Value) : typeSymbol v = v.dtype.name := by cases v <;> rfl

theorem OccursAt.typeAt {v w : Value} {p : List PyStr} (h : OccursAt v p w) : TypeAt v p w.dtype := by
  induction h with
  | field hm => exact .field hm
  | inField hm _ ih => exact .inField hm ih
  | elem hm => exact .elem hm
  | inElem hm _ ih => exact .inElem hm ih

theorem TypeAt.occurs {v : Value} {p : List PyStr} {t : DType} (h : TypeAt v p t) : ∃ w, OccursAt v p w ∧ t = w.dtype := by
  induction h with
  | field hm => exact ⟨_, .field hm, rfl⟩
  | inField hm _ ih => obtain ⟨w, h, e⟩ := ih; exact ⟨w, .inField hm h, e⟩
  | elem hm => exact ⟨_, .elem hm, rfl⟩
  | inElem hm _ ih => obtain ⟨w, h, e⟩ := ih; exact ⟨w, .inElem hm h, e⟩

theorem dataTypeAt_iff {d : Dict} {p : List PyStr} {t : PyStr} : DataTypeAt d p t ↔ ∃ dt, TypeAt (.dict d) p dt ∧ t = dt.name := by
  constructor
  · rintro ⟨v, h, rfl⟩; exact ⟨_, h.typeAt, typeSymbol_eq v⟩
  · rintro ⟨dt, h, rfl⟩
    obtain ⟨w, h', rfl⟩ := h.occurs
    exact ⟨w, h', (typeSymbol_eq w).symm⟩

theorem dataTypeAt_eq (d : Dict) : DataTypeAt d = fun p t => ∃ dt, TypeAt (.dict d) p dt ∧ t = dt.name := by
  funext p t; exact propext dataTypeAt_iff

theorem TypeAt.nonempty {v : Value} {p t} (h : TypeAt v p t) : p ≠ [] := by cases h <;> simp

theorem typeAt_dict {d : Dict} {p t} : TypeAt (.dict d) p t ↔
    ∃ k v, (k, v) ∈ d ∧ ((p = [k] ∧ t = v.dtype) ∨ ∃ q, p = k :: q ∧ TypeAt v q t) := by
  constructor
  · intro h
    cases h with
    | field hm => exact ⟨_, _, hm, .inl ⟨rfl, rfl⟩⟩
    | inField hm h => exact ⟨_, _, hm, .inr ⟨_, rfl, h⟩⟩
  · rintro ⟨k, v, hm, ⟨rfl, rfl⟩ | ⟨q, rfl, h⟩⟩
    · exact .field hm
    · exact .inField hm h

theorem typeAt_list {l : List Value} {p t} : TypeAt (.list l) p t ↔
    ∃ v, v ∈ l ∧ ((p = [[]] ∧ t = v.dtype) ∨ ∃ q, p = [] :: q ∧ TypeAt v q t) := by
  constructor
  · intro h
    cases h with
    | elem hm => exact ⟨_, hm, .inl ⟨rfl, rfl⟩⟩
    | inElem hm h => exact ⟨_, hm, .inr ⟨_, rfl, h⟩⟩
  · rintro ⟨v, hm, ⟨rfl, rfl⟩ | ⟨q, rfl, h⟩⟩
    · exact .elem hm
    · exact .inElem hm h

theorem typeAt_scalar {v : Value} {p t} (hv : v.isScalar = true) : ¬ TypeAt v p t := by
  intro h
  cases h <;> cases hv

/-- The strings of the types that occur. -/
def TypeString (v : Value) (s : PyStr) : Prop := ∃ p t, TypeAt v p t ∧ s = dotted (pathText p) t.name

theorem parseItems_dataTypes : ∀ {d : Dict} {x}, parseItems E o d = .ok x →
    (∀ k v, (k, v) ∈ d → ∀ x, parseInner E o false v = .ok x → ∀ s, s ∈ x.dataTypes ↔ TypeString v s) →
    ∀ s, s ∈ x.dataTypes ↔ ∃ k v s', (k, v) ∈ d ∧ TypeString v s' ∧ s = dotted k s'
  | [], x, h, _, s => by cases h; simp
  | (k, v) :: r, x, h, hd, s => by
    rw [parseItems] at h
    split at h
    · cases h
    · rename_i x1 h1
      split at h
      · cases h
      · rename_i y hy
        cases h
        have ih := parseItems_dataTypes hy (fun k v hm => hd k v (List.mem_cons_of_mem _ hm)) s
        have hv := hd k v List.mem_cons_self _ h1
        simp only [List.mem_append, List.mem_map, ih]
        constructor
        · rintro (⟨s', hs', rfl⟩ | ⟨k', v', s', hm, h1, h2⟩)
          · exact ⟨k, v, s', List.mem_cons_self, (hv s').1 hs', rfl⟩
          · exact ⟨k', v', s', List.mem_cons_of_mem _ hm, h1, h2⟩
        · rintro ⟨k', v', s', hm, h1, h2⟩
          rcases List.mem_cons.1 hm with hm | hm
          · cases hm
            exact .inl ⟨s', (hv s').2 h1, h2.symm⟩
          · exact .inr ⟨k', v', s', hm, h1, h2⟩

theorem parseElems_dataTypes : ∀ {l : List Value} {x}, parseElems E o l = .ok x →
    (∀ v ∈ l, ∀ x, parseInner E o true v = .ok x → ∀ s, s ∈ x.dataTypes ↔ TypeString v s) →
    ∀ s, s ∈ x.dataTypes ↔ ∃ v s', v ∈ l ∧ TypeString v s' ∧ s = dotted [] s'
  | [], x, h, _, s => by cases h; simp
  | v :: r, x, h, hd, s => by
    rw [parseElems] at h
    split at h
    · cases h
    · rename_i x1 h1
      split at h
      · cases h
      · rename_i y hy
        cases h
        have ih := parseElems_dataTypes hy (fun v hm => hd v (List.mem_cons_of_mem _ hm)) s
        have hv := hd v List.mem_cons_self _ h1
        simp only [List.mem_append, List.mem_map, ih]
        constructor
        · rintro (⟨s', hs', rfl⟩ | ⟨v', s', hm, h1, h2⟩)
          · exact ⟨v, s', List.mem_cons_self, (hv s').1 hs', rfl⟩
          · exact ⟨v', s', List.mem_cons_of_mem _ hm, h1, h2⟩
        · rintro ⟨v', s', hm, h1, h2⟩
          rcases List.mem_cons.1 hm with hm | hm
          · cases hm
            exact .inl ⟨s', (hv s').2 h1, h2.symm⟩
          · exact .inr ⟨v', s', hm, h1, h2⟩

theorem assembleDict_dataTypes {c : Bool} {d : Dict} {items x : PResult Dict} (h : assembleDict E o c d items = .ok x) :
    x.dataTypes = d.map (fun kv => dotted kv.1 kv.2.dtype.name) ++ items.dataTypes := by
  unfold assembleDict at h
  simp only [] at h
  split at h
  · cases h
  · cases h; rfl

theorem dict_dataTypes {c : Bool} {d : Dict} {items x : PResult Dict} (hi : parseItems E o d = .ok items)
    (h : assembleDict E o c d items = .ok x)
    (hd : ∀ k v, (k, v) ∈ d → ∀ x, parseInner E o false v = .ok x → ∀ s, s ∈ x.dataTypes ↔ TypeString v s) (s : PyStr) :
    s ∈ x.dataTypes ↔ TypeString (.dict d) s := by
  rw [assembleDict_dataTypes h, List.mem_append, List.mem_map, parseItems_dataTypes hi hd s]
  unfold TypeString
  simp only [typeAt_dict]
  constructor
  · rintro (⟨⟨k, v⟩, hm, rfl⟩ | ⟨k, v, s', hm, ⟨p, t, hpt, rfl⟩, rfl⟩)
    · exact ⟨[k], v.dtype, ⟨k, v, hm, .inl ⟨rfl, rfl⟩⟩, rfl⟩
    · refine ⟨k :: p, t, ⟨k, v, hm, .inr ⟨p, rfl, hpt⟩⟩, ?_⟩
      rw [pathText_cons k hpt.nonempty, dotted_assoc]
  · rintro ⟨p, t, ⟨k, v, hm, ⟨rfl, rfl⟩ | ⟨q, rfl, hq⟩⟩, rfl⟩
    · exact .inl ⟨(k, v), hm, rfl⟩
    · refine .inr ⟨k, v, _, hm, ⟨q, t, hq, rfl⟩, ?_⟩
      rw [pathText_cons k hq.nonempty, dotted_assoc]

theorem nodup_setAdd_str {x : PyStr} {l : List PyStr} (h : l.Nodup) : (setAdd strEq x l).Nodup := by
  unfold setAdd
  split
  · exact h
  · rename_i hx
    rw [List.nodup_append]
    refine ⟨h, by simp, ?_⟩
    rintro a ha b hb rfl
    simp only [List.mem_singleton] at hb
    subst hb
    exact hx (setMem_eq.2 ⟨a, ha, by simp [strEq]⟩)

theorem mem_foldl_setAdd_str {s : PyStr} : ∀ (l acc : List PyStr),
    s ∈ l.foldl (fun s x => setAdd strEq x s) acc ↔ s ∈ acc ∨ s ∈ l
  | [], acc => by simp
  | x :: l, acc => by
    rw [List.foldl_cons, mem_foldl_setAdd_str l, mem_setAdd_str, List.mem_cons]
    tauto

theorem nodup_foldl_setAdd_str : ∀ (l acc : List PyStr), acc.Nodup →
    (l.foldl (fun s x => setAdd strEq x s) acc).Nodup
  | [], _, h => h
  | _ :: l, _, h => nodup_foldl_setAdd_str l _ (nodup_setAdd_str h)

theorem mem_setOf_str {l : List PyStr} {s : PyStr} : s ∈ setOf strEq l ↔ s ∈ l := by
  unfold setOf
  rw [mem_foldl_setAdd_str]
  simp

theorem nodup_setOf_str (l : List PyStr) : (setOf strEq l).Nodup :=
  nodup_foldl_setAdd_str l [] List.nodup_nil

theorem parseInner_dataTypes : ∀ v : Value, ∀ c x, parseInner E o c v = .ok x →
    ∀ s, s ∈ x.dataTypes ↔ TypeString v s := by
  have hscalar : ∀ (v : Value) (s : PyStr), v.isScalar = true → (s ∈ ([] : List PyStr) ↔ TypeString v s) := by
    intro v s hv
    constructor
    · intro h; cases h
    · rintro ⟨p, t, h, _⟩; exact absurd h (typeAt_scalar hv)
  apply Value.ind
  · intro c x h s
    cases h
    exact hscalar _ s rfl
  · intro b c x h s
    cases h
    exact hscalar _ s rfl
  · intro b c x h s
    cases h
    exact hscalar _ s rfl
  · intro b c x h s
    cases h
    exact hscalar _ s rfl
  · intro t c x h s
    rw [parseInner] at h
    split at h
    · cases h
      exact hscalar _ s rfl
    · cases h
      exact hscalar _ s rfl
  · intro l ih c x h s
    cases l with
    | nil =>
      cases h
      unfold TypeString
      simp [typeAt_list]
    | cons v r =>
      rw [parseInner] at h
      split at h
      · cases h
      · rename_i y hy
        cases h
        dsimp only
        rw [mem_setOf_str, List.mem_append, List.mem_map, parseElems_dataTypes hy (fun w hm x hx => ih w hm true x hx) s]
        unfold TypeString
        simp only [typeAt_list]
        constructor
        · rintro (⟨v, hm, rfl⟩ | ⟨v, s', hm, ⟨p, t, hpt, rfl⟩, rfl⟩)
          · exact ⟨[[]], v.dtype, ⟨v, hm, .inl ⟨rfl, rfl⟩⟩, rfl⟩
          · refine ⟨[] :: p, t, ⟨v, hm, .inr ⟨p, rfl, hpt⟩⟩, ?_⟩
            rw [pathText_cons [] hpt.nonempty, dotted_assoc]
        · rintro ⟨p, t, ⟨v, hm, ⟨rfl, rfl⟩ | ⟨q, rfl, hq⟩⟩, rfl⟩
          · exact .inl ⟨v, hm, rfl⟩
          · refine .inr ⟨v, _, hm, ⟨q, t, hq, rfl⟩, ?_⟩
            rw [pathText_cons [] hq.nonempty, dotted_assoc]
  · intro d ih c x h s
    cases d with
    | nil =>
      cases h
      unfold TypeString
      simp [typeAt_dict]
    | cons kv r =>
      rw [parseInner] at h
      split at h
      · cases h
      · rename_i items hitems
        split at h
        · cases h
        · rename_i y hy
          cases h
          exact dict_dataTypes hitems hy (fun k v hm x hx => ih k v hm false x hx) s

/-! ## Each once -/

theorem dtype_no_dot (t : DType) : '.' ∉ t.name := by cases t <;> decide

theorem TypeString.has_dot {v : Value} {s : PyStr} (h : TypeString v s) : '.' ∈ s := by
  obtain ⟨p, t, _, rfl⟩ := h
  simp [dotted]

theorem nodup_dotted_map {k : PyStr} (hk : '.' ∉ k) {l : List PyStr} (h : l.Nodup) : (l.map (dotted k)).Nodup := by
  refine List.Nodup.map ?_ h
  intro a b e
  exact (dotted_inj hk hk e).2

theorem parseItems_nodup_dataTypes : ∀ {d : Dict} {x}, parseItems E o d = .ok x → (akeys d).Nodup →
    (∀ k ∈ akeys d, '.' ∉ k) →
    (∀ k v, (k, v) ∈ d → ∀ x, parseInner E o false v = .ok x → x.dataTypes.Nodup) → x.dataTypes.Nodup
  | [], x, h, _, _, _ => by cases h; simp
  | (k, v) :: r, x, h, hn, hk, hd => by
    have h0 := h
    rw [parseItems] at h
    split at h
    · cases h
    · rename_i x1 h1
      split at h
      · cases h
      · rename_i y hy
        cases h
        have hn' : k ∉ akeys r ∧ (akeys r).Nodup := by simpa [akeys] using hn
        have ih := parseItems_nodup_dataTypes hy hn'.2 (fun k hm => hk k (List.mem_cons_of_mem _ hm))
          (fun k v hm => hd k v (List.mem_cons_of_mem _ hm))
        rw [List.nodup_append]
        refine ⟨nodup_dotted_map (hk k List.mem_cons_self) (hd k v List.mem_cons_self _ h1), ih, ?_⟩
        rintro a ha b hb rfl
        obtain ⟨s, _, rfl⟩ := List.mem_map.1 ha
        obtain ⟨k', v', s', hm, _, e⟩ := (parseItems_dataTypes hy (fun k v _ x hx => parseInner_dataTypes v false x hx) _).1 hb
        have := (dotted_inj (hk k List.mem_cons_self) (hk k' (List.mem_cons_of_mem _ (mem_akeys_of_mem hm))) e).1
        subst this
        exact hn'.1 (mem_akeys_of_mem hm)

theorem dict_nodup_dataTypes {c : Bool} {d : Dict} {items x : PResult Dict} (hi : parseItems E o d = .ok items)
    (h : assembleDict E o c d items = .ok x) (hn : (akeys d).Nodup) (hk : ∀ k ∈ akeys d, '.' ∉ k)
    (hd : ∀ k v, (k, v) ∈ d → ∀ x, parseInner E o false v = .ok x → x.dataTypes.Nodup) : x.dataTypes.Nodup := by
  rw [assembleDict_dataTypes h, List.nodup_append]
  refine ⟨?_, parseItems_nodup_dataTypes hi hn hk hd, ?_⟩
  · have hd' : d.Nodup := nodup_of_map Prod.fst hn
    refine List.Nodup.map_on ?_ hd'
    rintro ⟨k, v⟩ hx ⟨k', v'⟩ hy e
    have := (dotted_inj (hk k (mem_akeys_of_mem hx)) (hk k' (mem_akeys_of_mem hy)) e).1
    subst this
    have h1 := aget_of_mem hn hx
    rw [aget_of_mem hn hy] at h1
    cases h1
    rfl
  · rintro a ha b hb rfl
    obtain ⟨⟨k, v⟩, hm, rfl⟩ := List.mem_map.1 ha
    obtain ⟨k', v', s', hm', hs', e⟩ := (parseItems_dataTypes hi (fun k v _ x hx => parseInner_dataTypes v false x hx) _).1 hb
    have := (dotted_inj (hk k (mem_akeys_of_mem hm)) (hk k' (mem_akeys_of_mem hm')) e).2
    have hdot := hs'.has_dot
    rw [← this] at hdot
    exact dtype_no_dot _ hdot

theorem parseInner_nodup_dataTypes : ∀ v : Value, v.wf = true → FieldNames v → ∀ c x, parseInner E o c v = .ok x →
    x.dataTypes.Nodup := by
  apply Value.ind
  · intro _ _ c x h; cases h; exact List.nodup_nil
  · intro b _ _ c x h; cases h; exact List.nodup_nil
  · intro b _ _ c x h; cases h; exact List.nodup_nil
  · intro b _ _ c x h; cases h; exact List.nodup_nil
  · intro t _ _ c x h
    rw [parseInner] at h
    split at h
    · cases h; exact List.nodup_nil
    · cases h; exact List.nodup_nil
  · intro l ih hw hf c x h
    cases l with
    | nil => cases h; exact List.nodup_nil
    | cons v r =>
      rw [parseInner] at h
      split at h
      · cases h
      · cases h
        exact nodup_setOf_str _
  · intro d ih hw hf c x h
    cases d with
    | nil => cases h; exact List.nodup_nil
    | cons kv r =>
      rw [parseInner] at h
      split at h
      · cases h
      · rename_i items hitems
        split at h
        · cases h
        · rename_i y hy
          cases h
          have hw' := wf_dict_iff.1 hw
          exact dict_nodup_dataTypes hitems hy hw'.1 (fun k hk => (hf.dict k hk).no_dot)
            (fun k v hm x hx => ih k v hm (hw'.2 k v hm) (hf.item hw'.1 hm) false x hx)

/-! ## Parsed types -/

/-- The two types of places. -/
def geoTypes : List PyStr := ["_gp".toList, "_gs".toList]

theorem akeys_geoDict (g : PyStr × PyStr) : akeys (geoDict g) = geoTypes := rfl

/-- A type at a path as `parse_dict` lists it. -/
def typeString (p : List PyStr) (t : PyStr) : PyStr := if p = [] then t else dotted (pathText p) t

theorem typeString_cons (k : PyStr) (p : List PyStr) (t : PyStr) : typeString (k :: p) t = dotted k (typeString p t) := by
  unfold typeString
  by_cases hp : p = []
  · subst hp; rfl
  · rw [if_neg (by simp), if_neg hp, pathText_cons k hp, dotted_assoc]

/-- The strings of the types that are indexed. -/
def IndexedString (E : ParseEnv) (o : ParsingOptions) (v : Value) (s : PyStr) : Prop :=
  ∃ p t, IndexedAs E o v p t ∧ s = typeString p t

theorem indexedAs_list {l : List Value} {p t} : IndexedAs E o (.list l) p t ↔ ∃ v, v ∈ l ∧ IndexedAs E o v p t := by
  constructor
  · intro h
    cases h with
    | scalar h => cases h
    | elem hm h => exact ⟨_, hm, h⟩
  · rintro ⟨v, hm, h⟩
    exact .elem hm h

theorem indexedAs_dict {d : Dict} {p t} : IndexedAs E o (.dict d) p t ↔
    (p = [] ∧ t ∈ geoTypes ∧ ∃ g, matchGeojson E d = some g) ∨
    (∃ k v q, (k, v) ∈ d ∧ p = k :: q ∧ IndexedAs E o v q t) ∨
    (∃ h ∈ o.geoHints, h.latField ∈ akeys d ∧ (∃ g, matchHint E d h = some g) ∧ p = [h.latField] ∧ t ∈ geoTypes) := by
  constructor
  · intro h
    cases h with
    | scalar h => cases h
    | field hm h => exact .inr (.inl ⟨_, _, _, hm, rfl, h⟩)
    | geojson hg ht => exact .inl ⟨rfl, ht, _, hg⟩
    | hint hd hh hg ht => exact .inr (.inr ⟨_, hh, hd, ⟨_, hg⟩, rfl, ht⟩)
  · rintro (⟨rfl, ht, g, hg⟩ | ⟨k, v, q, hm, rfl, h⟩ | ⟨h, hh, hd, ⟨g, hg⟩, rfl, ht⟩)
    · exact .geojson hg ht
    · exact .field hm h
    · exact .hint hd hh hg ht

theorem indexedAs_scalar {v : Value} (hv : v.isScalar = true) {p t} : IndexedAs E o v p t ↔
    p = [] ∧ v.isIndexed = true ∧ t ∈ akeys (parseValue E o v) := by
  constructor
  · intro h
    cases h with
    | scalar h1 h2 => exact ⟨rfl, h1, h2⟩
    | elem => cases hv
    | field => cases hv
    | geojson => cases hv
    | hint => cases hv
  · rintro ⟨rfl, h1, h2⟩
    exact .scalar h1 h2

theorem scalar_string {v : Value} (hv : v.isScalar = true) (hi : v.isIndexed = true) (s : PyStr) :
    s ∈ akeys (parseValue E o v) ↔ IndexedString E o v s := by
  unfold IndexedString
  simp only [indexedAs_scalar hv]
  constructor
  · intro h
    exact ⟨[], s, ⟨rfl, hi, h⟩, rfl⟩
  · rintro ⟨p, t, ⟨rfl, _, h⟩, rfl⟩
    exact h

theorem unindexed_string {v : Value} (hv : v.isScalar = true) (hi : v.isIndexed = false) (s : PyStr) :
    s ∈ ([] : List PyStr) ↔ IndexedString E o v s := by
  unfold IndexedString
  simp [indexedAs_scalar hv, hi]

theorem matchHints_fold (d : Dict) : ∀ (hints : List GeoFieldHint) (acc : List (PyStr × (PyStr × PyStr))),
    ((akeys acc).Nodup → (akeys (hints.foldl (hintStep E d) acc)).Nodup) ∧
    ∀ k, k ∈ akeys (hints.foldl (hintStep E d) acc) ↔ k ∈ akeys acc ∨ ∃ h ∈ hints, (∃ g, matchHint E d h = some g) ∧ h.latField = k
  | [], acc => by simp
  | h :: r, acc => by
    rw [List.foldl_cons]
    cases hm : matchHint E d h with
    | none =>
      have e : hintStep E d acc h = acc := by unfold hintStep; rw [hm]
      rw [e]
      obtain ⟨h1, h2⟩ := matchHints_fold d r acc
      refine ⟨h1, fun k => ?_⟩
      rw [h2 k]
      simp [hm]
    | some g =>
      have e : hintStep E d acc h = aset h.latField g acc := by unfold hintStep; rw [hm]
      rw [e]
      obtain ⟨h1, h2⟩ := matchHints_fold d r (aset h.latField g acc)
      refine ⟨fun hn => h1 (nodup_aset hn), fun k => ?_⟩
      rw [h2 k, mem_akeys_aset]
      simp only [List.mem_cons, exists_eq_or_imp, hm, Option.some.injEq, exists_eq', true_and]
      constructor
      · rintro ((rfl | h) | h)
        · exact .inr (.inl rfl)
        · exact .inl h
        · exact .inr (.inr h)
      · rintro (h | rfl | h)
        · exact .inl (.inr h)
        · exact .inl (.inl rfl)
        · exact .inr h

theorem nodup_matchHints (d : Dict) (hints : List GeoFieldHint) : (akeys (matchHints E d hints)).Nodup :=
  (matchHints_fold d hints []).1 List.nodup_nil

theorem mem_matchHints {d : Dict} {hints : List GeoFieldHint} {k : PyStr} : k ∈ akeys (matchHints E d hints) ↔
    ∃ h ∈ hints, (∃ g, matchHint E d h = some g) ∧ h.latField = k := by
  have := (matchHints_fold (E := E) d hints []).2 k
  simpa [matchHints] using this

/-- The fields that hints add to are there, and are dicts. -/
theorem addHints_some : ∀ {hs : List (PyStr × (PyStr × PyStr))} {p p' : Dict}, addHints hs p = .ok p' →
    ∀ k ∈ akeys hs, ∃ d, aget k p = some (.dict d)
  | [], _, _, _, k, hk => by cases hk
  | (k, g) :: r, p, p', h, k', hk' => by
    rw [addHints] at h
    split at h
    · cases h
    · rename_i d hd
      by_cases e : k' = k
      · subst e; exact ⟨d, hd⟩
      · have hk'' : k' ∈ akeys r := by
          rcases List.mem_cons.1 hk' with h | h
          · exact absurd h e
          · exact h
        obtain ⟨d', hd'⟩ := addHints_some h k' hk''
        rw [aget_aset, if_neg e] at hd'
        exact ⟨d', hd'⟩
    · cases h

theorem parseItems_parsedTypes : ∀ {d : Dict} {x}, parseItems E o d = .ok x →
    (∀ k v, (k, v) ∈ d → ∀ x, parseInner E o false v = .ok x → ∀ s, s ∈ x.parsedTypes ↔ IndexedString E o v s) →
    ∀ s, s ∈ x.parsedTypes ↔ ∃ k v s', (k, v) ∈ d ∧ IndexedString E o v s' ∧ s = dotted k s'
  | [], x, h, _, s => by cases h; simp
  | (k, v) :: r, x, h, hd, s => by
    rw [parseItems] at h
    split at h
    · cases h
    · rename_i x1 h1
      split at h
      · cases h
      · rename_i y hy
        cases h
        have ih := parseItems_parsedTypes hy (fun k v hm => hd k v (List.mem_cons_of_mem _ hm)) s
        have hv := hd k v List.mem_cons_self _ h1
        simp only [List.mem_append, List.mem_map, ih]
        constructor
        · rintro (⟨s', hs', rfl⟩ | ⟨k', v', s', hm, h1, h2⟩)
          · exact ⟨k, v, s', List.mem_cons_self, (hv s').1 hs', rfl⟩
          · exact ⟨k', v', s', List.mem_cons_of_mem _ hm, h1, h2⟩
        · rintro ⟨k', v', s', hm, h1, h2⟩
          rcases List.mem_cons.1 hm with hm | hm
          · cases hm
            exact .inl ⟨s', (hv s').2 h1, h2.symm⟩
          · exact .inr ⟨k', v', s', hm, h1, h2⟩

theorem parseElems_parsedTypes : ∀ {l : List Value} {x}, parseElems E o l = .ok x →
    (∀ v ∈ l, ∀ x, parseInner E o true v = .ok x → ∀ s, s ∈ x.parsedTypes ↔ IndexedString E o v s) →
    ∀ s, s ∈ x.parsedTypes ↔ ∃ v, v ∈ l ∧ IndexedString E o v s
  | [], x, h, _, s => by cases h; simp
  | v :: r, x, h, hd, s => by
    rw [parseElems] at h
    split at h
    · cases h
    · rename_i x1 h1
      split at h
      · cases h
      · rename_i y hy
        cases h
        have ih := parseElems_parsedTypes hy (fun v hm => hd v (List.mem_cons_of_mem _ hm)) s
        have hv := hd v List.mem_cons_self _ h1 s
        simp only [List.mem_append, ih, hv, List.mem_cons, exists_eq_or_imp]

theorem assembleDict_parsedTypes {c : Bool} {d : Dict} {items x : PResult Dict} (h : assembleDict E o c d items = .ok x) :
    x.parsedTypes = (if c && (matchGeojson E d).isSome then geoTypes else []) ++ items.parsedTypes ++
      (akeys (matchHints E d o.geoHints)).flatMap (fun k => geoTypes.map (dotted k)) ∧
    ∀ k ∈ akeys (matchHints E d o.geoHints), ∃ d', aget k (aupdate (((if c then matchGeojson E d else none).map geoDict).getD [])
      items.parsed) = some (.dict d') := by
  unfold assembleDict at h
  simp only [] at h
  split at h
  · cases h
  · rename_i p' hp
    cases h
    refine ⟨?_, addHints_some hp⟩
    dsimp only
    congr 1
    · congr 1
      cases c
      · rfl
      · cases matchGeojson E d <;> rfl
    · simp only [akeys, List.flatMap_map]
      rfl

/-- What a field is parsed to comes from the field. -/
theorem parseItems_item : ∀ {d : Dict} {x}, parseItems E o d = .ok x → ∀ {k w}, (k, w) ∈ x.parsed →
    ∃ v y, (k, v) ∈ d ∧ parseInner E o false v = .ok y ∧ y.parsed = some w
  | [], x, h, k, w, hm => by cases h; cases hm
  | (k', v') :: r, x, h, k, w, hm => by
    rw [parseItems] at h
    split at h
    · cases h
    · rename_i x1 h1
      split at h
      · cases h
      · rename_i y hy
        cases h
        dsimp only at hm
        split at hm
        · rename_i p hp
          rcases List.mem_cons.1 hm with e | hm
          · cases e
            exact ⟨v', x1, List.mem_cons_self, h1, hp⟩
          · obtain ⟨v, y', h2, h3⟩ := parseItems_item hy hm
            exact ⟨v, y', List.mem_cons_of_mem _ h2, h3⟩
        · obtain ⟨v, y', h2, h3⟩ := parseItems_item hy hm
          exact ⟨v, y', List.mem_cons_of_mem _ h2, h3⟩

theorem mem_of_aget_aupdate {α : Type} {a b : List (PyStr × α)} {k : PyStr} {v : α} (hb : (akeys b).Nodup)
    (h : aget k (aupdate a b) = some v) : (k, v) ∈ b ∨ aget k a = some v := by
  rw [aget_aupdate k b a hb] at h
  cases hk : aget k b with
  | some w =>
    rw [hk] at h
    cases h
    exact .inl (aget_mem hk)
  | none =>
    rw [hk] at h
    exact .inr h

theorem matchGeojson_some {d : Dict} {g} (h : matchGeojson E d = some g) : E.geojson d = some g := by
  unfold matchGeojson at h
  split at h
  · exact h
  · cases h

/-- The fields hints add to are fields of the data, and no lists. -/
theorem hint_field {c : Bool} {d : Dict} {items x : PResult Dict} (hi : parseItems E o d = .ok items)
    (hn : (akeys d).Nodup) (h : assembleDict E o c d items = .ok x) {k : PyStr}
    (hk : k ∈ akeys (matchHints E d o.geoHints)) :
    ∃ v, (k, v) ∈ d ∧ ∀ l, v ≠ .list l := by
  obtain ⟨d', hd'⟩ := (assembleDict_parsedTypes h).2 k hk
  have hni : (akeys items.parsed).Nodup := (parseItems_keys hi).nodup hn
  rcases mem_of_aget_aupdate hni hd' with hm | hm
  · obtain ⟨v, y, h1, h2, h3⟩ := parseItems_item hi hm
    refine ⟨v, h1, ?_⟩
    rintro l rfl
    cases l with
    | nil => cases h2; cases h3
    | cons w r =>
      rw [parseInner] at h2
      split at h2
      · cases h2
      · cases h2
        cases h3
  · have := aget_mem hm
    generalize (if c = true then matchGeojson E d else none) = g at this
    cases g with
    | none => cases this
    | some g => simp [geoDict] at this

theorem dict_parsedTypes {c : Bool} {d : Dict} {items x : PResult Dict} (hi : parseItems E o d = .ok items)
    (h : assembleDict E o c d items = .ok x) (hn : (akeys d).Nodup)
    (hd : ∀ k v, (k, v) ∈ d → ∀ x, parseInner E o false v = .ok x → ∀ s, s ∈ x.parsedTypes ↔ IndexedString E o v s) (s : PyStr) :
    s ∈ x.parsedTypes ↔ ∃ p t, IndexedAs E o (.dict d) p t ∧ (c = true ∨ p ≠ []) ∧ s = typeString p t := by
  rw [(assembleDict_parsedTypes h).1, List.mem_append, List.mem_append, parseItems_parsedTypes hi hd s, List.mem_flatMap]
  simp only [mem_matchHints, List.mem_map]
  simp only [indexedAs_dict]
  constructor
  · rintro ((hs | ⟨k, v, s', hm, ⟨p, t, hpt, rfl⟩, rfl⟩) | ⟨k, ⟨hh, hmem, hg, rfl⟩, t, ht, rfl⟩)
    · split at hs
      · rename_i hc
        simp only [Bool.and_eq_true, Option.isSome_iff_exists] at hc
        exact ⟨[], s, .inl ⟨rfl, hs, hc.2⟩, .inl hc.1, rfl⟩
      · cases hs
    · exact ⟨k :: p, t, .inr (.inl ⟨k, v, p, hm, rfl, hpt⟩), .inr (by simp), (typeString_cons k p t).symm⟩
    · refine ⟨[hh.latField], t, .inr (.inr ⟨hh, hmem, ?_, hg, rfl, ht⟩), .inr (by simp), rfl⟩
      obtain ⟨v, hv, _⟩ := hint_field hi hn h (mem_matchHints.2 ⟨hh, hmem, hg, rfl⟩)
      exact mem_akeys_of_mem hv
  · rintro ⟨p, t, ⟨rfl, ht, g, hg⟩ | ⟨k, v, q, hm, rfl, hq⟩ | ⟨hh, hmem, _, hg, rfl, ht⟩, hc, rfl⟩
    · left; left
      have : c = true := by
        rcases hc with h | h
        · exact h
        · exact absurd rfl h
      rw [this, hg]
      exact ht
    · left; right
      exact ⟨k, v, _, hm, ⟨q, t, hq, rfl⟩, typeString_cons k q t⟩
    · right
      exact ⟨hh.latField, ⟨hh, hmem, hg, rfl⟩, t, ht, rfl⟩

theorem parseInner_parsedTypes : ∀ v : Value, v.wf = true → ∀ c x, parseInner E o c v = .ok x →
    ∀ s, s ∈ x.parsedTypes ↔ IndexedString E o v s := by
  apply Value.ind
  · intro _ c x h s
    cases h
    exact unindexed_string rfl rfl s
  · intro b _ c x h s
    cases h
    exact scalar_string rfl rfl s
  · intro b _ c x h s
    cases h
    exact scalar_string rfl rfl s
  · intro b _ c x h s
    cases h
    exact scalar_string rfl rfl s
  · intro t _ c x h s
    rw [parseInner] at h
    split at h
    · rename_i ht
      cases h
      exact unindexed_string rfl (by simp [Value.isIndexed, ht]) s
    · rename_i ht
      cases h
      exact scalar_string rfl (by simpa [Value.isIndexed] using ht) s
  · intro l ih hw c x h s
    cases l with
    | nil =>
      cases h
      unfold IndexedString
      simp [indexedAs_list]
    | cons v r =>
      rw [parseInner] at h
      split at h
      · cases h
      · rename_i y hy
        cases h
        dsimp only
        rw [mem_setOf_str, parseElems_parsedTypes hy (fun w hm x hx => ih w hm (wf_list_iff.1 hw w hm) true x hx) s]
        unfold IndexedString
        simp only [indexedAs_list]
        constructor
        · rintro ⟨v, hm, p, t, h, e⟩
          exact ⟨p, t, ⟨v, hm, h⟩, e⟩
        · rintro ⟨p, t, ⟨v, hm, h⟩, e⟩
          exact ⟨v, hm, p, t, h, e⟩
  · intro d ih hw c x h s
    cases d with
    | nil =>
      cases h
      unfold IndexedString
      simp [indexedAs_dict, matchGeojson, ahas, aget]
    | cons kv r =>
      rw [parseInner] at h
      split at h
      · cases h
      · rename_i items hitems
        split at h
        · cases h
        · rename_i y hy
          cases h
          have := dict_parsedTypes hitems hy (wf_dict_iff.1 hw).1
            (fun k v hm x hx => ih k v hm ((wf_dict_iff.1 hw).2 k v hm) false x hx) s
          rw [this]
          unfold IndexedString
          simp

theorem nodup_asetOpt {k : PyStr} {v : Option Value} {d : Dict} (h : (akeys d).Nodup) :
    (akeys (asetOpt k v d)).Nodup := by
  unfold asetOpt
  split
  · exact nodup_aset h
  · exact h

theorem mem_asetOpt {k k' : PyStr} {v : Option Value} {d : Dict} : k' ∈ akeys (asetOpt k v d) ↔
    k' ∈ akeys d ∨ (k' = k ∧ v.isSome = true) := by
  unfold asetOpt
  split
  · rw [mem_akeys_aset]
    simp
    tauto
  · simp

/-- The dict of a scalar before booleans, numbers and dates. -/
def valueBase (E : ParseEnv) (o : ParsingOptions) (v : Value) : Dict :=
  let s := strValue E o v
  let parsed : Dict := [(PType.unparsed.name, v), (PType.text.name, .str s),
    (PType.keyword.name, .str (pyTake o.keywordLength s))]
  match E.wkt s with
    | some g => aupdate parsed (geoDict g)
    | none => parsed

theorem parseValue_eq (v : Value) : parseValue E o v =
    asetOpt PType.date.name ((parsedDate E o v).map Value.int) (asetOpt PType.number.name (parsedNumber E o v)
      (asetOpt PType.boolean.name ((parsedBool E o v).map Value.bool) (valueBase E o v))) := rfl

theorem akeys_valueBase (v : Value) : akeys (valueBase E o v) = ["_u".toList, "_t".toList, "_k".toList] ++
    (if (E.wkt (strValue E o v)).isSome then geoTypes else []) := by
  unfold valueBase
  dsimp only
  cases E.wkt (strValue E o v) <;> rfl

theorem nodup_valueBase (v : Value) : (akeys (valueBase E o v)).Nodup := by
  rw [akeys_valueBase]
  split <;> decide

theorem nodup_parseValue (v : Value) : (akeys (parseValue E o v)).Nodup := by
  rw [parseValue_eq]
  exact nodup_asetOpt (nodup_asetOpt (nodup_asetOpt (nodup_valueBase v)))

theorem mem_parseValue {v : Value} {t : PyStr} : t ∈ akeys (parseValue E o v) ↔
    t ∈ ["_u".toList, "_t".toList, "_k".toList] ∨ (t ∈ geoTypes ∧ (E.wkt (strValue E o v)).isSome = true) ∨
    (t = "_b".toList ∧ (parsedBool E o v).isSome = true) ∨ (t = "_n".toList ∧ (parsedNumber E o v).isSome = true) ∨
    (t = "_d".toList ∧ (parsedDate E o v).isSome = true) := by
  rw [parseValue_eq, mem_asetOpt, mem_asetOpt, mem_asetOpt, akeys_valueBase, List.mem_append]
  simp only [Option.isSome_map]
  have : t ∈ (if (E.wkt (strValue E o v)).isSome = true then geoTypes else []) ↔
      (t ∈ geoTypes ∧ (E.wkt (strValue E o v)).isSome = true) := by
    split
    · rename_i h; simp [h]
    · rename_i h; simp [h]
  rw [this, or_assoc, or_assoc, or_assoc]
  rfl

/-- All types start with `_` and have no dots or commas. -/
structure TypeName (t : PyStr) : Prop where
  head : t.head? = some '_'
  dot : '.' ∉ t
  comma : ',' ∉ t

theorem typeName_geo {t : PyStr} (h : t ∈ geoTypes) : TypeName t := by
  have : t = "_gp".toList ∨ t = "_gs".toList := by simpa [geoTypes] using h
  rcases this with rfl | rfl <;> exact ⟨by decide, by decide, by decide⟩

theorem typeName_parseValue {v : Value} {t : PyStr} (h : t ∈ akeys (parseValue E o v)) : TypeName t := by
  rcases mem_parseValue.1 h with h | h | h | h | h
  · have : t = "_u".toList ∨ t = "_t".toList ∨ t = "_k".toList := by simpa using h
    rcases this with rfl | rfl | rfl <;> exact ⟨by decide, by decide, by decide⟩
  · exact typeName_geo h.1
  · rw [h.1]; exact ⟨by decide, by decide, by decide⟩
  · rw [h.1]; exact ⟨by decide, by decide, by decide⟩
  · rw [h.1]; exact ⟨by decide, by decide, by decide⟩

theorem IndexedAs.typeName {v : Value} {p t} (h : IndexedAs E o v p t) : TypeName t := by
  induction h with
  | scalar _ h => exact typeName_parseValue h
  | elem _ _ ih => exact ih
  | field _ _ ih => exact ih
  | geojson _ h => exact typeName_geo h
  | hint _ _ _ h => exact typeName_geo h

theorem geoTypes_nodup : geoTypes.Nodup := by decide

theorem parseItems_nodup_parsedTypes : ∀ {d : Dict} {x}, parseItems E o d = .ok x → (akeys d).Nodup →
    (∀ k v, (k, v) ∈ d → v.wf = true) → (∀ k ∈ akeys d, '.' ∉ k) →
    (∀ k v, (k, v) ∈ d → ∀ x, parseInner E o false v = .ok x → x.parsedTypes.Nodup) → x.parsedTypes.Nodup
  | [], x, h, _, _, _, _ => by cases h; simp
  | (k, v) :: r, x, h, hn, hw, hk, hd => by
    rw [parseItems] at h
    split at h
    · cases h
    · rename_i x1 h1
      split at h
      · cases h
      · rename_i y hy
        cases h
        have hn' : k ∉ akeys r ∧ (akeys r).Nodup := by simpa [akeys] using hn
        have ih := parseItems_nodup_parsedTypes hy hn'.2 (fun k v hm => hw k v (List.mem_cons_of_mem _ hm)) (fun k hm => hk k (List.mem_cons_of_mem _ hm))
          (fun k v hm => hd k v (List.mem_cons_of_mem _ hm))
        rw [List.nodup_append]
        refine ⟨nodup_dotted_map (hk k List.mem_cons_self) (hd k v List.mem_cons_self _ h1), ih, ?_⟩
        rintro a ha b hb rfl
        obtain ⟨s, _, rfl⟩ := List.mem_map.1 ha
        obtain ⟨k', v', s', hm, _, e⟩ := (parseItems_parsedTypes hy
          (fun k v hm x hx => parseInner_parsedTypes v (hw k v (List.mem_cons_of_mem _ hm)) false x hx) _).1 hb
        have := (dotted_inj (hk k List.mem_cons_self) (hk k' (List.mem_cons_of_mem _ (mem_akeys_of_mem hm))) e).1
        subst this
        exact hn'.1 (mem_akeys_of_mem hm)


theorem nodup_flatMap_geo : ∀ {ks : List PyStr}, ks.Nodup → (∀ k ∈ ks, '.' ∉ k) →
    (ks.flatMap (fun k => geoTypes.map (dotted k))).Nodup
  | [], _, _ => by simp
  | k :: ks, hn, hd => by
    rw [List.flatMap_cons, List.nodup_append]
    have hn' := List.nodup_cons.1 hn
    refine ⟨nodup_dotted_map (hd k List.mem_cons_self) geoTypes_nodup,
      nodup_flatMap_geo hn'.2 (fun k hk => hd k (List.mem_cons_of_mem _ hk)), ?_⟩
    rintro a ha b hb rfl
    obtain ⟨t, _, rfl⟩ := List.mem_map.1 ha
    obtain ⟨k', hk', hb⟩ := List.mem_flatMap.1 hb
    obtain ⟨t', _, e⟩ := List.mem_map.1 hb
    have := (dotted_inj (hd k' (List.mem_cons_of_mem _ hk')) (hd k List.mem_cons_self) e).1
    subst this
    exact hn'.1 hk'

theorem typeString_geo {p : List PyStr} {t t' : PyStr} (ht : TypeName t) (ht' : t' ∈ geoTypes) (e : typeString p t = t') :
    p = [] ∧ t = t' := by
  unfold typeString at e
  split at e
  · rename_i hp; exact ⟨hp, e⟩
  · have := (typeName_geo ht').dot
    rw [← e] at this
    exact absurd (by simp [dotted]) this

theorem dict_nodup_parsedTypes {c : Bool} {d : Dict} {items x : PResult Dict} (hE : E.HintsOk o)
    (hi : parseItems E o d = .ok items)
    (h : assembleDict E o c d items = .ok x) (hn : (akeys d).Nodup) (hw : ∀ k v, (k, v) ∈ d → v.wf = true)
    (hk : ∀ k ∈ akeys d, '.' ∉ k)
    (hd : ∀ k v, (k, v) ∈ d → ∀ x, parseInner E o false v = .ok x → x.parsedTypes.Nodup) : x.parsedTypes.Nodup := by
  have hmem := parseItems_parsedTypes hi (fun k v hm x hx => parseInner_parsedTypes v (hw k v hm) false x hx)
  have hhint : ∀ k ∈ akeys (matchHints E d o.geoHints), '.' ∉ k := by
    intro k hm
    obtain ⟨v, hv, _⟩ := hint_field hi hn h hm
    exact hk k (mem_akeys_of_mem hv)
  rw [(assembleDict_parsedTypes h).1, List.nodup_append, List.nodup_append]
  refine ⟨⟨?_, parseItems_nodup_parsedTypes hi hn hw hk hd, ?_⟩, nodup_flatMap_geo (nodup_matchHints _ _) hhint, ?_⟩
  · split
    · exact geoTypes_nodup
    · exact List.nodup_nil
  · rintro a ha b hb rfl
    split at ha
    · obtain ⟨k, v, s, _, _, e⟩ := (hmem a).1 hb
      have := (typeName_geo ha).dot
      rw [e] at this
      exact this (by simp [dotted])
    · cases ha
  · rintro a ha b hb rfl
    obtain ⟨k, hkh, hb⟩ := List.mem_flatMap.1 hb
    obtain ⟨t, ht, rfl⟩ := List.mem_map.1 hb
    rcases List.mem_append.1 ha with ha | ha
    · split at ha
      · exact (typeName_geo ha).dot (by simp [dotted])
      · cases ha
    · obtain ⟨k', v, s, hkv, ⟨p, t', hpt, rfl⟩, e⟩ := (hmem _).1 ha
      obtain ⟨rfl, e'⟩ := dotted_inj (hhint k hkh) (hk k' (mem_akeys_of_mem hkv)) e
      obtain ⟨rfl, rfl⟩ := typeString_geo hpt.typeName ht e'.symm
      obtain ⟨v', hv', hl⟩ := hint_field hi hn h hkh
      have hvv : v' = v := by
        have h1 := aget_of_mem hn hkv
        rw [aget_of_mem hn hv'] at h1
        cases h1; rfl
      subst hvv
      obtain ⟨hh, hhm, ⟨g, hg⟩, rfl⟩ := mem_matchHints.1 hkh
      have hlat : getOrEmpty hh.latField d = v' := by
        unfold getOrEmpty
        rw [aget_of_mem hn hkv]; rfl
      unfold matchHint at hg
      rw [hlat] at hg
      obtain ⟨hwkt, hgeo⟩ := hE _ _ _ _ _ hg
      cases hpt with
      | scalar h1 h2 =>
        rcases mem_parseValue.1 h2 with h3 | h3 | h3 | h3 | h3
        · have h4 : t' = "_gp".toList ∨ t' = "_gs".toList := by simpa [geoTypes] using ht
          rcases h4 with rfl | rfl <;> simp at h3
        · rw [hwkt] at h3
          cases h3.2
        · rw [h3.1] at ht; exact absurd ht (by decide)
        · rw [h3.1] at ht; exact absurd ht (by decide)
        · rw [h3.1] at ht; exact absurd ht (by decide)
      | elem => exact hl _ rfl
      | geojson h1 h2 =>
        have := matchGeojson_some h1
        rw [hgeo _ rfl] at this
        cases this

theorem parseInner_nodup_parsedTypes (hE : E.HintsOk o) : ∀ v : Value, v.wf = true → FieldNames v →
    ∀ c x, parseInner E o c v = .ok x → x.parsedTypes.Nodup := by
  apply Value.ind
  · intro _ _ c x h; cases h; exact List.nodup_nil
  · intro b _ _ c x h; cases h; exact nodup_parseValue _
  · intro b _ _ c x h; cases h; exact nodup_parseValue _
  · intro b _ _ c x h; cases h; exact nodup_parseValue _
  · intro t _ _ c x h
    rw [parseInner] at h
    split at h
    · cases h; exact List.nodup_nil
    · cases h; exact nodup_parseValue _
  · intro l ih hw hf c x h
    cases l with
    | nil => cases h; exact List.nodup_nil
    | cons v r =>
      rw [parseInner] at h
      split at h
      · cases h
      · cases h
        exact nodup_setOf_str _
  · intro d ih hw hf c x h
    cases d with
    | nil => cases h; exact List.nodup_nil
    | cons kv r =>
      rw [parseInner] at h
      split at h
      · cases h
      · rename_i items hitems
        split at h
        · cases h
        · rename_i y hy
          cases h
          have hw' := wf_dict_iff.1 hw
          exact dict_nodup_parsedTypes hE hitems hy hw'.1 hw'.2 (fun k hk => (hf.dict k hk).no_dot)
            (fun k v hm x hx => ih k v hm (hw'.2 k v hm) (hf.item hw'.1 hm) false x hx)

/-! ## Names -/

/-- No field name starts with this character. -/
def AllNames (c : Char) (v : Value) : Prop :=
  ∀ p d, getAt p v = some (.dict d) → ∀ k ∈ akeys d, k.head? ≠ some c

theorem NestedNames.item {c : Char} {d : Dict} (h : NestedNames c (.dict d)) (hn : (akeys d).Nodup) {k v} (hm : (k, v) ∈ d) :
    AllNames c v := by
  intro p d' hp
  refine h (.key k :: p) d' (by simp) ?_
  rw [getAt, aget_of_mem hn hm]
  exact hp

theorem AllNames.item {c : Char} {d : Dict} (h : AllNames c (.dict d)) (hn : (akeys d).Nodup) {k v} (hm : (k, v) ∈ d) :
    AllNames c v := by
  intro p d' hp
  refine h (.key k :: p) d' ?_
  rw [getAt, aget_of_mem hn hm]
  exact hp

theorem AllNames.elem {c : Char} {l : List Value} (h : AllNames c (.list l)) {v} (hm : v ∈ l) : AllNames c v := by
  intro p d' hp
  obtain ⟨i, hi, e⟩ := List.getElem_of_mem hm
  refine h (.idx i :: p) d' ?_
  rw [getAt, List.getElem?_eq_getElem hi, e]
  exact hp

theorem TypeAt.names {c : Char} {v : Value} {p t} (h : TypeAt v p t) : v.wf = true → FieldNames v →
    (∀ x ∈ p, '.' ∉ x) ∧ (AllNames c v → ∀ x ∈ p, x.head? ≠ some c) := by
  induction h with
  | field hm =>
    intro _ hf
    have := mem_akeys_of_mem hm
    refine ⟨?_, fun hc => ?_⟩
    · intro x hx; rw [List.mem_singleton.1 hx]; exact (hf.dict _ this).no_dot
    · intro x hx; rw [List.mem_singleton.1 hx]; exact hc [] _ rfl _ this
  | inField hm _ ih =>
    intro hw hf
    have hw' := wf_dict_iff.1 hw
    have hk := mem_akeys_of_mem hm
    obtain ⟨h1, h2⟩ := ih (hw'.2 _ _ hm) (hf.item hw'.1 hm)
    refine ⟨?_, fun hc => ?_⟩
    · intro x hx
      rcases List.mem_cons.1 hx with rfl | hx
      · exact (hf.dict _ hk).no_dot
      · exact h1 x hx
    · intro x hx
      rcases List.mem_cons.1 hx with rfl | hx
      · exact hc [] _ rfl _ hk
      · exact h2 (hc.item hw'.1 hm) x hx
  | elem hm =>
    intro _ _
    refine ⟨?_, fun hc => ?_⟩
    · intro x hx; rw [List.mem_singleton.1 hx]; simp
    · intro x hx; rw [List.mem_singleton.1 hx]; simp
  | inElem hm _ ih =>
    intro hw hf
    obtain ⟨h1, h2⟩ := ih (wf_list_iff.1 hw _ hm) (hf.elem hm)
    refine ⟨?_, fun hc => ?_⟩
    · intro x hx
      rcases List.mem_cons.1 hx with rfl | hx
      · simp
      · exact h1 x hx
    · intro x hx
      rcases List.mem_cons.1 hx with rfl | hx
      · simp
      · exact h2 (hc.elem hm) x hx

theorem IndexedAs.names {c : Char} {v : Value} {p t} (h : IndexedAs E o v p t) : v.wf = true → FieldNames v →
    (∀ x ∈ p, '.' ∉ x) ∧ (AllNames c v → ∀ x ∈ p, x.head? ≠ some c) := by
  induction h with
  | scalar => intro _ _; simp
  | geojson => intro _ _; simp
  | hint hm =>
    intro _ hf
    refine ⟨?_, fun hc => ?_⟩
    · intro x hx; rw [List.mem_singleton.1 hx]; exact (hf.dict _ hm).no_dot
    · intro x hx; rw [List.mem_singleton.1 hx]; exact hc [] _ rfl _ hm
  | field hm _ ih =>
    intro hw hf
    have hw' := wf_dict_iff.1 hw
    have hk := mem_akeys_of_mem hm
    obtain ⟨h1, h2⟩ := ih (hw'.2 _ _ hm) (hf.item hw'.1 hm)
    refine ⟨?_, fun hc => ?_⟩
    · intro x hx
      rcases List.mem_cons.1 hx with rfl | hx
      · exact (hf.dict _ hk).no_dot
      · exact h1 x hx
    · intro x hx
      rcases List.mem_cons.1 hx with rfl | hx
      · exact hc [] _ rfl _ hk
      · exact h2 (hc.item hw'.1 hm) x hx
  | elem hm _ ih =>
    intro hw hf
    obtain ⟨h1, h2⟩ := ih (wf_list_iff.1 hw _ hm) (hf.elem hm)
    exact ⟨h1, fun hc => h2 (hc.elem hm)⟩

theorem summable_data {d : Dict} (hw : (Value.dict d).wf = true) (hf : FieldNames (.dict d)) (hc : NestedNames '#' (.dict d)) :
    Summable '#' (DataTypeAt d) := by
  have hw' := wf_dict_iff.1 hw
  rw [dataTypeAt_eq]
  refine ⟨?_, ?_, ?_, ?_, ?_, ?_⟩
  · rintro p t ⟨dt, h, _⟩; exact h.nonempty
  · rintro p t ⟨dt, h, _⟩; exact (h.names (c := '#') hw hf).1
  · rintro p t ⟨dt, h, _⟩
    obtain ⟨k, v, hm, ⟨rfl, _⟩ | ⟨q, rfl, hq⟩⟩ := typeAt_dict.1 h
    · simp
    · exact (hq.names (hw'.2 _ _ hm) (hf.item hw'.1 hm)).2 (hc.item hw'.1 hm)
  · rintro p t ⟨dt, _, rfl⟩; exact dtype_no_dot dt
  · rintro p t ⟨dt, _, rfl⟩; cases dt <;> decide
  · rintro p t ⟨dt, _, rfl⟩; cases dt <;> decide

theorem summable_parsed {d : Dict} (hw : (Value.dict d).wf = true) (hf : FieldNames (.dict d)) (hc : NestedNames '_' (.dict d)) :
    Summable '_' (ParsedTypeAt E o d) := by
  have hw' := wf_dict_iff.1 hw
  refine ⟨fun p t h => h.1, ?_, ?_, fun p t h => h.2.typeName.dot, fun p t h => h.2.typeName.comma,
    fun p t h => h.2.typeName.head⟩
  · rintro p t ⟨_, h⟩; exact (h.names (c := '_') hw hf).1
  · rintro p t ⟨hp, h⟩
    rcases indexedAs_dict.1 h with ⟨rfl, _⟩ | ⟨k, v, q, hm, rfl, hq⟩ | ⟨hh, _, _, _, rfl, _⟩
    · exact absurd rfl hp
    · exact (hq.names (hw'.2 _ _ hm) (hf.item hw'.1 hm)).2 (hc.item hw'.1 hm)
    · simp

theorem parse_summaries {d : Dict} {p : ParsedData} (h : parse E o d = .ok p) :
    ∃ x, parseDict E o false d = .ok x ∧ summarise x.parsedTypes = .ok p.parsedTypes ∧
      summarise x.dataTypes = .ok p.dataTypes := by
  unfold parse at h
  split at h
  · cases h
  · rename_i x hx
    split at h
    · rename_i h1 h2
      cases h
      exact ⟨x, hx, h1, h2⟩
    · cases h
    · cases h

theorem summarises_data {d : Dict} {p : ParsedData} (hw : (Value.dict d).wf = true) (hf : FieldNames (.dict d))
    (hc : NestedNames '#' (.dict d)) (h : parse E o d = .ok p) : Summarises p.dataTypes (DataTypeAt d) := by
  obtain ⟨x, hx, _, hs⟩ := parse_summaries h
  obtain ⟨items, hi, ha⟩ := parseDict_ok hx
  have hw' := wf_dict_iff.1 hw
  obtain ⟨es, h1, h2⟩ := summarise_spec (summable_data hw hf hc) (l := x.dataTypes) (by
      intro s
      rw [dict_dataTypes hi ha (fun k v _ x hx => parseInner_dataTypes v false x hx) s]
      constructor
      · rintro ⟨p, t, h, rfl⟩; exact ⟨p, t.name, dataTypeAt_iff.2 ⟨t, h, rfl⟩, rfl⟩
      · rintro ⟨p, _, h, rfl⟩
        obtain ⟨t, h2, rfl⟩ := dataTypeAt_iff.1 h
        exact ⟨p, t, h2, rfl⟩)
    (dict_nodup_dataTypes hi ha hw'.1 (fun k hk => (hf.dict k hk).no_dot)
      (fun k v hm x hx => parseInner_nodup_dataTypes v (hw'.2 k v hm) (hf.item hw'.1 hm) false x hx))
  rw [hs] at h1
  cases h1
  exact h2

theorem summarises_parsed {d : Dict} {p : ParsedData} (hE : E.HintsOk o) (hw : (Value.dict d).wf = true)
    (hf : FieldNames (.dict d))
    (hc : NestedNames '_' (.dict d)) (h : parse E o d = .ok p) : Summarises p.parsedTypes (ParsedTypeAt E o d) := by
  obtain ⟨x, hx, hs, _⟩ := parse_summaries h
  obtain ⟨items, hi, ha⟩ := parseDict_ok hx
  have hw' := wf_dict_iff.1 hw
  obtain ⟨es, h1, h2⟩ := summarise_spec (summable_parsed (E := E) (o := o) hw hf hc) (l := x.parsedTypes) (by
      intro s
      rw [dict_parsedTypes hi ha hw'.1 (fun k v hm x hx => parseInner_parsedTypes v (hw'.2 k v hm) false x hx) s]
      constructor
      · rintro ⟨p, t, h, hp, rfl⟩
        have hp : p ≠ [] := by
          rcases hp with h | h
          · cases h
          · exact h
        exact ⟨p, t, ⟨hp, h⟩, by unfold typeString; rw [if_neg hp]⟩
      · rintro ⟨p, t, ⟨hp, h⟩, rfl⟩
        exact ⟨p, t, h, .inr hp, by unfold typeString; rw [if_neg hp]⟩)
    (dict_nodup_parsedTypes hE hi ha hw'.1 hw'.2 (fun k hk => (hf.dict k hk).no_dot)
      (fun k v hm x hx => parseInner_nodup_parsedTypes hE v (hw'.2 k v hm) (hf.item hw'.1 hm) false x hx))
  rw [hs] at h1
  cases h1
  exact h2

end Splitgill
