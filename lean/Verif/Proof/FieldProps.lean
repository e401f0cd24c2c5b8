import Verif.Proof.Fields
import Verif.Proof.Places
import Verif.Spec.FieldProps
/-!
# Lemmas: data fields and parsed fields
-/

namespace Splitgill

variable {E : ParseEnv} {o : ParsingOptions}

/-- The names of a path, without the empty ones of list elements. -/
def namesOf (p : List PyStr) : List PyStr := p.filter (fun s => !s.isEmpty)

theorem namesOf_cons {k : PyStr} (hk : k ≠ []) (p : List PyStr) : namesOf (k :: p) = k :: namesOf p := by
  unfold namesOf
  rw [List.filter_cons, if_pos]
  cases k with
  | nil => exact absurd rfl hk
  | cons => rfl

theorem namesOf_elem (p : List PyStr) : namesOf ([] :: p) = namesOf p := rfl

/-- What is indexed occurs. -/
theorem IndexedAs.occurs {v : Value} {p : List PyStr} {t : PyStr} (h : IndexedAs E o v p t) : v.wf = true → FieldNames v →
    p = [] ∨ ∃ q w, OccursAt v q w ∧ namesOf q = p := by
  induction h with
  | scalar _ _ => exact fun _ _ => .inl rfl
  | geojson _ _ => exact fun _ _ => .inl rfl
  | elem hm _ ih =>
    intro hw hf
    rcases ih (wf_list_iff.1 hw _ hm) (hf.elem hm) with h | ⟨q, w, h1, h2⟩
    · exact .inl h
    · exact .inr ⟨[] :: q, w, .inElem hm h1, h2⟩
  | field hm _ ih =>
    intro hw hf
    have hw' := wf_dict_iff.1 hw
    have hk := (hf.dict _ (mem_akeys_of_mem hm)).nonempty
    right
    rcases ih (hw'.2 _ _ hm) (hf.item hw'.1 hm) with rfl | ⟨q, w, h1, h2⟩
    · exact ⟨_, _, .field hm, namesOf_cons hk []⟩
    · exact ⟨_, w, .inField hm h1, by rw [namesOf_cons hk, h2]⟩
  | hint hl _ _ _ =>
    intro hw hf
    have hk := (hf.dict _ hl).nonempty
    obtain ⟨⟨k, v⟩, hv, e⟩ := List.mem_map.1 hl
    refine .inr ⟨_, _, .field hv, ?_⟩
    dsimp only at e
    rw [e]
    exact namesOf_cons hk []

/-- What occurs is indexed. -/
theorem OccursAt.indexed {v w : Value} {q : List PyStr} (h : OccursAt v q w) : v.wf = true → FieldNames v → ∀ {t},
    IndexedAs E o w [] t → IndexedAs E o v (namesOf q) t := by
  induction h with
  | field hm =>
    intro hw hf t ht
    rw [namesOf_cons (hf.dict _ (mem_akeys_of_mem hm)).nonempty]
    exact .field hm ht
  | inField hm _ ih =>
    intro hw hf t ht
    have hw' := wf_dict_iff.1 hw
    rw [namesOf_cons (hf.dict _ (mem_akeys_of_mem hm)).nonempty]
    exact .field hm (ih (hw'.2 _ _ hm) (hf.item hw'.1 hm) ht)
  | elem hm =>
    intro hw hf t ht
    exact .elem hm ht
  | inElem hm _ ih =>
    intro hw hf t ht
    exact .elem hm (ih (wf_list_iff.1 hw _ hm) (hf.elem hm) ht)

/-- The names of a path have no dots, and not all are empty. -/
theorem OccursAt.clean {v w : Value} {q : List PyStr} (h : OccursAt v q w) : v.wf = true → FieldNames v → ∀ k ∈ q, '.' ∉ k := by
  induction h with
  | field hm =>
    intro hw hf k hk
    cases List.mem_singleton.1 hk
    exact (hf.dict _ (mem_akeys_of_mem hm)).no_dot
  | inField hm _ ih =>
    intro hw hf k hk
    have hw' := wf_dict_iff.1 hw
    rcases List.mem_cons.1 hk with rfl | hk
    · exact (hf.dict _ (mem_akeys_of_mem hm)).no_dot
    · exact ih (hw'.2 _ _ hm) (hf.item hw'.1 hm) k hk
  | elem hm =>
    intro hw hf k hk
    cases List.mem_singleton.1 hk
    exact List.not_mem_nil
  | inElem hm _ ih =>
    intro hw hf k hk
    rcases List.mem_cons.1 hk with rfl | hk
    · exact List.not_mem_nil
    · exact ih (wf_list_iff.1 hw _ hm) (hf.elem hm) k hk

theorem OccursAt.ne_nil {v w : Value} {q : List PyStr} (h : OccursAt v q w) : q ≠ [] := by cases h <;> simp

theorem OccursAt.names_ne {d : Dict} {w : Value} {q : List PyStr} (h : OccursAt (.dict d) q w) (hf : FieldNames (.dict d)) : namesOf q ≠ [] := by
  cases h with
  | field hm => rw [namesOf_cons (hf.dict _ (mem_akeys_of_mem hm)).nonempty]; simp
  | inField hm _ => rw [namesOf_cons (hf.dict _ (mem_akeys_of_mem hm)).nonempty]; simp

theorem pySplit_clean : ∀ {k : PyStr}, '.' ∉ k → pySplit '.' k = [k]
  | [], _ => rfl
  | a :: s, h => by
    rw [List.mem_cons, not_or] at h
    rw [pySplit, if_neg (fun e => h.1 e.symm), pySplit_clean h.2]

theorem pySplit_append : ∀ {k : PyStr} (s : PyStr), '.' ∉ k → pySplit '.' (k ++ '.' :: s) = k :: pySplit '.' s
  | [], s, _ => by rw [List.nil_append, pySplit, if_pos rfl]
  | a :: k, s, h => by
    rw [List.mem_cons, not_or] at h
    rw [List.cons_append, pySplit, if_neg (fun e => h.1 e.symm), pySplit_append s h.2]

theorem pySplit_pathText : ∀ {p : List PyStr}, p ≠ [] → (∀ k ∈ p, '.' ∉ k) → pySplit '.' (pathText p) = p
  | [], h, _ => absurd rfl h
  | [k], _, h => pySplit_clean (h k List.mem_cons_self)
  | k :: k' :: p, _, h => by
    rw [pathText_cons k (by simp), dotted, pySplit_append _ (h k List.mem_cons_self),
      pySplit_pathText (by simp) (fun x hx => h x (List.mem_cons_of_mem _ hx))]

theorem pathText_inj {p q : List PyStr} (hp : p ≠ []) (hq : q ≠ []) (hp' : ∀ k ∈ p, '.' ∉ k) (hq' : ∀ k ∈ q, '.' ∉ k)
    (h : pathText p = pathText q) : p = q := by
  rw [← pySplit_pathText hp hp', h, pySplit_pathText hq hq']

/-! ### Types that come together -/

theorem scalar_text {v : Value} {t : PyStr} (hv : v.isIndexed = true) (ht : t ∈ ["_t".toList, "_k".toList, "_u".toList]) : IndexedAs E o v [] t := by
  refine .scalar hv ?_
  have hg : t ∉ geoTypes := by
    simp only [List.mem_cons, List.not_mem_nil, or_false] at ht
    rcases ht with rfl | rfl | rfl <;> decide
  have : (aget t (parseValue E o v)).isSome := by
    simp only [List.mem_cons, List.not_mem_nil, or_false] at ht
    rcases ht with rfl | rfl | rfl <;> rw [aget_base (by decide)] <;> rfl
  obtain ⟨x, hx⟩ := Option.isSome_iff_exists.1 this
  exact mem_akeys_of_mem (aget_mem hx)

/-- With a type other than a place there are a text and a keyword. -/
theorem IndexedAs.text {v : Value} {p : List PyStr} {t : PyStr} (h : IndexedAs E o v p t) : t ∉ geoTypes → ∀ {t'},
    t' ∈ ["_t".toList, "_k".toList, "_u".toList] → IndexedAs E o v p t' := by
  induction h with
  | scalar hv _ => exact fun _ _ ht' => scalar_text hv ht'
  | elem hm _ ih => exact fun ht _ ht' => .elem hm (ih ht ht')
  | field hm _ ih => exact fun ht _ ht' => .field hm (ih ht ht')
  | geojson _ ht => exact fun hn => absurd ht hn
  | hint _ _ _ ht => exact fun hn => absurd ht hn

/-- With a point there is a shape, and the other way around. -/
theorem IndexedAs.places {v : Value} {p : List PyStr} {t : PyStr} (h : IndexedAs E o v p t) : t ∈ geoTypes → ∀ {t'}, t' ∈ geoTypes →
    IndexedAs E o v p t' := by
  induction h with
  | @scalar v t hv hk =>
    intro ht t' ht'
    refine .scalar hv ?_
    have h1 : (aget t (parseValue E o v)).isSome := aget_isSome_iff.2 hk
    rw [aget_geo_parseValue ht] at h1
    have h2 : (aget t' (parseValue E o v)).isSome := by
      rw [aget_geo_parseValue ht']
      cases hg : E.wkt (textOf E o v) with
      | none => rw [hg] at h1; cases h1
      | some g =>
        obtain ⟨s, hs⟩ := aget_geoDict ht' g
        show (aget t' (geoDict g)).isSome = true
        rw [hs]; rfl
    exact aget_isSome_iff.1 h2
  | elem hm _ ih => exact fun ht _ ht' => .elem hm (ih ht ht')
  | field hm _ ih => exact fun ht _ ht' => .field hm (ih ht ht')
  | geojson hg _ => exact fun _ _ ht' => .geojson hg ht'
  | hint hl hh hg _ => exact fun _ _ ht' => .hint hl hh hg ht'

/-! ### Parents -/

/-- The value around a value. -/
theorem OccursAt.parent {v w : Value} {q : List PyStr} (h : OccursAt v q w) : v.wf = true → FieldNames v → ∀ q0 k, q = q0 ++ [k] → q0 ≠ [] →
    ∃ u, OccursAt v q0 u ∧ ((k = [] ∧ ∃ l, u = .list l) ∨ (k ≠ [] ∧ ∃ d, u = .dict d)) := by
  have key : ∀ {v w : Value} {q : List PyStr}, OccursAt v q w → v.wf = true → FieldNames v → ∀ k, q = [k] →
      (k = [] ∧ ∃ l, v = .list l) ∨ (k ≠ [] ∧ ∃ d, v = .dict d) := by
    intro v w q h hw hf k e
    cases h with
    | field hm => cases e; exact .inr ⟨(hf.dict _ (mem_akeys_of_mem hm)).nonempty, _, rfl⟩
    | inField hm h => exact absurd (by injection e) h.ne_nil
    | elem hm => cases e; exact .inl ⟨rfl, _, rfl⟩
    | inElem hm h => exact absurd (by injection e) h.ne_nil
  induction h with
  | field hm =>
    intro _ _ q0 k e hne
    cases q0 with
    | nil => exact absurd rfl hne
    | cons a q0 => cases q0 <;> simp at e
  | elem hm =>
    intro _ _ q0 k e hne
    cases q0 with
    | nil => exact absurd rfl hne
    | cons a q0 => cases q0 <;> simp at e
  | @inField d k' v p w hm h ih =>
    intro hw hf q0 k e hne
    have hw' := wf_dict_iff.1 hw
    cases q0 with
    | nil => exact absurd rfl hne
    | cons a q0 =>
      injection e with e1 e2
      subst e1
      by_cases hq : q0 = []
      · subst hq
        exact ⟨v, .field hm, key h (hw'.2 _ _ hm) (hf.item hw'.1 hm) k e2⟩
      · obtain ⟨u, h1, h2⟩ := ih (hw'.2 _ _ hm) (hf.item hw'.1 hm) q0 k e2 hq
        exact ⟨u, .inField hm h1, h2⟩
  | @inElem l v p w hm h ih =>
    intro hw hf q0 k e hne
    have hw' := wf_list_iff.1 hw _ hm
    cases q0 with
    | nil => exact absurd rfl hne
    | cons a q0 =>
      injection e with e1 e2
      subst e1
      by_cases hq : q0 = []
      · subst hq
        exact ⟨v, .elem hm, key h hw' (hf.elem hm) k e2⟩
      · obtain ⟨u, h1, h2⟩ := ih hw' (hf.elem hm) q0 k e2 hq
        exact ⟨u, .inElem hm h1, h2⟩

/-! ### Counts -/

theorem howMany_mono {α : Type} (l : List α) {P Q : α → Prop} (h : ∀ a ∈ l, P a → Q a) : howMany l P ≤ howMany l Q := by
  classical
  unfold howMany
  induction l with
  | nil => exact Nat.le_refl _
  | cons a r ih =>
    have ih := ih (fun a ha => h a (List.mem_cons_of_mem _ ha))
    have h1 := h a List.mem_cons_self
    rw [List.filter_cons, List.filter_cons]
    by_cases hp : P a
    · rw [if_pos (decide_eq_true hp), if_pos (decide_eq_true (h1 hp)), List.length_cons, List.length_cons]
      exact Nat.succ_le_succ ih
    · rw [if_neg (by simpa using hp)]
      split
      · rw [List.length_cons]; exact Nat.le_succ_of_le ih
      · exact ih

theorem howMany_iff {α : Type} (l : List α) {P Q : α → Prop} (h : ∀ a ∈ l, P a ↔ Q a) : howMany l P = howMany l Q :=
  Nat.le_antisymm (howMany_mono l (fun a ha => (h a ha).1)) (howMany_mono l (fun a ha => (h a ha).2))

theorem howMany_exists {α : Type} {l : List α} {P : α → Prop} (h : 0 < howMany l P) : ∃ a ∈ l, P a := by
  classical
  unfold howMany at h
  obtain ⟨a, ha⟩ := List.exists_mem_of_length_pos h
  have := List.mem_filter.1 ha
  exact ⟨a, this.1, of_decide_eq_true this.2⟩

section
variable {δ : Type} {docs : List δ} {src : δ → Dict} {opts : δ → ParsingOptions} {fs : List DataField} {gs : List (FieldCounts PType)}

theorem parsedPath_of {f : DataField} {q : List PyStr} {w : Value} {d : Dict} (h : OccursAt (.dict d) q w) (hw : (Value.dict d).wf = true)
    (hf : FieldNames (.dict d)) (e : pathText q = f.path) : f.parsedPath = pathText (namesOf q) := by
  unfold DataField.parsedPath
  rw [← e, pySplit_pathText h.ne_nil (h.clean hw hf)]
  rfl

theorem fields_agree (hw : ∀ d ∈ docs, (Value.dict (src d)).wf = true) (hf : ∀ d ∈ docs, FieldNames (.dict (src d)))
    (hl : ListsFields DType.name docs (fun d => DataTypeAt (src d)) (fs.map DataField.toFieldCounts))
    (hg : ListsFields PType.name docs (fun d => ParsedTypeAt E (opts d) (src d)) gs) : FieldsAgree fs gs where
  source := by
    intro g hgm
    obtain ⟨d, hd, p, t, ⟨hne, ho⟩, e⟩ := (hg.paths g.path).1 (List.mem_map_of_mem hgm)
    rcases ho.occurs (hw d hd) (hf d hd) with h | ⟨q, w, h1, h2⟩
    · exact absurd h hne
    · have := (hl.paths (pathText q)).2 ⟨d, hd, q, _, ⟨w, h1, rfl⟩, rfl⟩
      rw [List.map_map] at this
      obtain ⟨f, hfm, hfe⟩ := List.mem_map.1 this
      exact ⟨f, hfm, by rw [parsedPath_of h1 (hw d hd) (hf d hd) hfe.symm, h2, e]⟩
  indexed := by
    intro f hfm t ht hpos
    have hfm' : f.toFieldCounts ∈ fs.map DataField.toFieldCounts := List.mem_map_of_mem hfm
    have htypes := hl.types _ hfm' t
    have key : ∀ d ∈ docs, (∃ p, DataTypeAt (src d) p t.name ∧ pathText p = f.path) →
        ∃ p, p ≠ [] ∧ IndexedAs E (opts d) (.dict (src d)) p "_t".toList ∧ pathText p = f.parsedPath := by
      rintro d hd ⟨q, ⟨w, h1, h2⟩, e⟩
      have hi : w.isIndexed = true := by
        simp only [List.mem_cons, List.not_mem_nil, or_false] at ht
        cases w <;> first | rfl | (rcases ht with rfl | rfl | rfl <;> simp [typeSymbol, DType.name] at h2)
      exact ⟨namesOf q, h1.names_ne (hf d hd), h1.indexed (hw d hd) (hf d hd) (scalar_text hi (by decide)),
        (parsedPath_of h1 (hw d hd) (hf d hd) e).symm⟩
    have hpos' : 0 < howMany docs (fun d => ∃ p, DataTypeAt (src d) p t.name ∧ pathText p = f.path) := by
      rw [← htypes]; exact hpos
    obtain ⟨d, hd, hx⟩ := howMany_exists hpos'
    obtain ⟨p, h1, h2, h3⟩ := key d hd hx
    obtain ⟨g, hgm, hge⟩ := List.mem_map.1 ((hg.paths f.parsedPath).2 ⟨d, hd, p, _, ⟨h1, h2⟩, h3⟩)
    refine ⟨g, hgm, hge, ?_⟩
    have e2 := hg.types g hgm .text
    rw [e2]
    refine Nat.le_trans (Nat.le_of_eq htypes) (howMany_mono docs (fun d hd hx => ?_))
    obtain ⟨p, h1, h2, h3⟩ := key d hd hx
    exact ⟨p, ⟨h1, h2⟩, h3.trans hge.symm⟩
  texts := by
    intro g hgm
    have hto : ∀ t : PType, t.name ∉ geoTypes → ∀ t' : PType, t'.name ∈ ["_t".toList, "_k".toList, "_u".toList] → g.countOf t ≤ g.countOf t' := by
      intro t ht t' ht'
      rw [hg.types g hgm t, hg.types g hgm t']
      refine howMany_mono docs (fun d _ hx => ?_)
      obtain ⟨p, ⟨h1, h2⟩, h3⟩ := hx
      exact ⟨p, ⟨h1, h2.text ht ht'⟩, h3⟩
    refine ⟨Nat.le_antisymm (hto _ (by decide) _ (by decide)) (hto _ (by decide) _ (by decide)), ?_⟩
    intro t ht
    refine hto t ?_ _ (by decide)
    simp only [List.mem_cons, List.not_mem_nil, or_false] at ht
    rcases ht with rfl | rfl | rfl <;> decide
  places := by
    intro g hgm
    have hto : ∀ t t' : PType, t.name ∈ geoTypes → t'.name ∈ geoTypes → g.countOf t ≤ g.countOf t' := by
      intro t t' ht ht'
      rw [hg.types g hgm t, hg.types g hgm t']
      refine howMany_mono docs (fun d _ hx => ?_)
      obtain ⟨p, ⟨h1, h2⟩, h3⟩ := hx
      exact ⟨p, ⟨h1, h2.places ht ht'⟩, h3⟩
    exact Nat.le_antisymm (hto .geoPoint .geoShape (by decide) (by decide)) (hto .geoShape .geoPoint (by decide) (by decide))
  total := by
    intro g hgm t
    rw [hg.types g hgm t, hg.count g hgm]
    refine howMany_mono docs (fun d _ hx => ?_)
    obtain ⟨p, h1, h3⟩ := hx
    exact ⟨p, _, h1, h3⟩

theorem field_kinds (hl : ListsFields DType.name docs (fun d => DataTypeAt (src d)) (fs.map DataField.toFieldCounts)) :
    FieldKinds (docs.map src) fs := by
  have hname : ∀ a b : DType, a.name = b.name → a = b := by intro a b; cases a <;> cases b <;> decide
  intro f hf
  have hpos : ∀ t, 0 < f.countOf t ↔ ∃ d ∈ docs.map src, ∃ p v, OccursAt (.dict d) p v ∧ pathText p = f.path ∧ v.dtype = t := by
    intro t
    rw [hl.types f.toFieldCounts (List.mem_map_of_mem hf) t]
    constructor
    · intro h
      obtain ⟨d, hd, p, ⟨v, hv, e⟩, hp⟩ := howMany_exists h
      exact ⟨_, List.mem_map_of_mem hd, p, v, hv, hp, (hname _ _ (e.trans (typeSymbol_eq v))).symm⟩
    · rintro ⟨_, hd, p, v, hv, hp, rfl⟩
      obtain ⟨d, hd', rfl⟩ := List.mem_map.1 hd
      exact howMany_pos hd' ⟨p, ⟨v, hv, (typeSymbol_eq v).symm⟩, hp⟩
  constructor
  · have : f.isBasic = true ↔ ∃ t ∈ [DType.bool, .int, .float, .str, .none], 0 < f.countOf t := by
      unfold DataField.isBasic FieldCounts.isType
      rw [List.any_eq_true]
      exact ⟨fun ⟨t, h, h'⟩ => ⟨t, h, of_decide_eq_true h'⟩, fun ⟨t, h, h'⟩ => ⟨t, h, decide_eq_true h'⟩⟩
    rw [this]
    constructor
    · rintro ⟨t, ht, h⟩
      obtain ⟨d, hd, p, v, hv, hp, rfl⟩ := (hpos t).1 h
      refine ⟨d, hd, p, v, hv, hp, ?_, ?_⟩ <;> · rintro x rfl; simp [Value.dtype] at ht
    · rintro ⟨d, hd, p, v, hv, hp, h1, h2⟩
      refine ⟨v.dtype, ?_, (hpos _).2 ⟨d, hd, p, v, hv, hp, rfl⟩⟩
      cases v <;> simp [Value.dtype] <;> simp_all
  · have : f.isContainer = true ↔ 0 < f.countOf .list ∨ 0 < f.countOf .dict := by
      unfold FieldCounts.isContainer
      rw [Bool.or_eq_true, decide_eq_true_iff, decide_eq_true_iff]
    rw [this, hpos, hpos]
    constructor
    · rintro (⟨d, hd, p, v, hv, hp, h⟩ | ⟨d, hd, p, v, hv, hp, h⟩) <;> refine ⟨d, hd, p, v, hv, hp, ?_⟩ <;>
        cases v <;> simp [Value.dtype] at h ⊢
    · rintro ⟨d, hd, p, v, hv, hp, ⟨l, rfl⟩ | ⟨e, rfl⟩⟩
      · exact .inl ⟨d, hd, p, _, hv, hp, rfl⟩
      · exact .inr ⟨d, hd, p, _, hv, hp, rfl⟩

theorem parents_contain (hw : ∀ d ∈ docs, (Value.dict (src d)).wf = true) (hf : ∀ d ∈ docs, FieldNames (.dict (src d)))
    (hl : ListsFields DType.name docs (fun d => DataTypeAt (src d)) (fs.map DataField.toFieldCounts)) (hk : LinksFields fs) : ParentsContain fs := by
  have hlast : ∀ {f : DataField} {q : PyStr} {name : PyStr}, '.' ∉ name → f.path = q ++ '.' :: name → f.name = name := by
    intro f q name hn e
    have : ∀ q : PyStr, (pySplit '.' (q ++ '.' :: name)).getLast? = some name ∧ pySplit '.' (q ++ '.' :: name) ≠ [] := by
      intro q
      induction q with
      | nil => rw [List.nil_append, pySplit, if_pos rfl, pySplit_clean hn]; exact ⟨rfl, by simp⟩
      | cons a q ih =>
        rw [List.cons_append, pySplit]
        split
        · obtain ⟨h1, h2⟩ := ih
          refine ⟨?_, by simp⟩
          rw [List.getLast?_cons, h1]
          rfl
        · obtain ⟨h1, h2⟩ := ih
          split
          · rename_i h; exact absurd h h2
          · rename_i w r h
            rw [h] at h1
            cases r with
            | nil =>
              exfalso
              have : ∀ q : PyStr, (pySplit '.' (q ++ '.' :: name)).length ≥ 2 := by
                intro q
                induction q with
                | nil => rw [List.nil_append, pySplit, if_pos rfl, pySplit_clean hn]; simp
                | cons a q ih =>
                  rw [List.cons_append, pySplit]
                  split
                  · rw [List.length_cons]; omega
                  · split
                    · rename_i h; rw [h] at ih; simp at ih
                    · rename_i h; rw [h] at ih; simpa using ih
              have := this q
              rw [h] at this
              simp at this
            | cons b r =>
              refine ⟨?_, by simp⟩
              rw [List.getLast?_cons_cons] at h1 ⊢
              exact h1
    unfold FieldCounts.name
    rw [e, (this q).1]
    rfl
  have hpar : ∀ f ∈ fs, ∀ g ∈ fs, f.parent = some g.path → ∀ (t : DType),
      (f.isListElement = true → t = .list) → (f.isListElement = false → t = .dict) → f.count ≤ g.countOf t := by
    intro f hfm g hgm hp t ht1 ht2
    obtain ⟨name, hn, e⟩ := (hk.parent f hfm _).1 hp
    have hname := hlast hn e
    have hfm' : f.toFieldCounts ∈ fs.map DataField.toFieldCounts := List.mem_map_of_mem hfm
    have hgm' : g.toFieldCounts ∈ fs.map DataField.toFieldCounts := List.mem_map_of_mem hgm
    rw [hl.count _ hfm', hl.types _ hgm' t]
    refine howMany_mono docs (fun d hd hx => ?_)
    obtain ⟨q, _, ⟨w, h1, _⟩, h3⟩ := hx
    have hcl := h1.clean (hw d hd) (hf d hd)
    -- the path has a last name
    obtain ⟨q0, k, rfl⟩ : ∃ q0 k, q = q0 ++ [k] := ⟨_, _, (List.dropLast_append_getLast h1.ne_nil).symm⟩
    have hq0 : q0 ≠ [] := by
      rintro rfl
      have h3 : k = f.path := h3
      have := hcl k (by simp)
      rw [h3, e] at this
      exact this (by simp)
    rw [pathText_snoc k hq0] at h3
    have h3 : dotted (pathText q0) k = f.path := h3
    have hkn : k = name ∧ pathText q0 = g.path := by
      have e' : pathText q0 ++ '.' :: k = g.path ++ '.' :: name := h3.trans e
      have a1 : isChildPath (pathText q0) (pathText q0 ++ '.' :: k) = true := isChildPath_iff.2 ⟨k, hcl k (by simp), rfl⟩
      have a2 : isChildPath g.path (pathText q0 ++ '.' :: k) = true := isChildPath_iff.2 ⟨name, hn, e'⟩
      have a3 := isChildPath_unique a1 a2
      rw [a3] at e'
      have := List.append_cancel_left e'
      exact ⟨by injection this, a3⟩
    obtain ⟨u, h4, h5⟩ := h1.parent (hw d hd) (hf d hd) q0 k rfl hq0
    refine ⟨q0, ⟨u, h4, ?_⟩, hkn.2⟩
    rcases h5 with ⟨hk0, l, rfl⟩ | ⟨hk0, x, rfl⟩
    · have : f.isListElement = true := by
        unfold DataField.isListElement
        rw [hname, ← hkn.1, hk0]; rfl
      rw [ht1 this]; rfl
    · have : f.isListElement = false := by
        unfold DataField.isListElement
        rw [hname, ← hkn.1]
        exact decide_eq_false hk0
      rw [ht2 this]; rfl
  refine ⟨?_, ?_, ?_, ?_⟩
  · intro f hfm g hgm hp he
    exact hpar f hfm g hgm hp .list (fun _ => rfl) (fun h => by rw [he] at h; cases h)
  · intro f hfm g hgm hp he
    exact hpar f hfm g hgm hp .dict (fun h => by rw [he] at h; cases h) (fun _ => rfl)
  · intro f hfm
    unfold DataField.isRootField
    rw [Option.isNone_iff_eq_none]
    constructor
    · intro h hdot
      obtain ⟨a, b, e⟩ := List.append_of_mem hdot
      -- split at the last dot
      have : ∀ (s : PyStr), '.' ∈ s → ∃ q name, '.' ∉ name ∧ s = q ++ '.' :: name := by
        intro s
        induction s with
        | nil => intro h; cases h
        | cons c s ih =>
          intro h
          by_cases hs : '.' ∈ s
          · obtain ⟨q, name, h1, h2⟩ := ih hs
            exact ⟨c :: q, name, h1, by rw [h2]; rfl⟩
          · rcases List.mem_cons.1 h with rfl | h
            · exact ⟨[], s, hs, rfl⟩
            · exact absurd h hs
      obtain ⟨q, name, h1, h2⟩ := this _ hdot
      have := (hk.parent f hfm q).2 ⟨name, h1, h2⟩
      rw [h] at this
      cases this
    · intro h
      cases hp : f.parent with
      | none => rfl
      | some q =>
        obtain ⟨name, _, e⟩ := (hk.parent f hfm q).1 hp
        exact absurd (by rw [e]; simp) h
  · intro f hfm h
    obtain ⟨c, hc⟩ : ∃ c, c ∈ f.children := by
      refine List.exists_mem_of_ne_nil _ (fun e => ?_)
      unfold DataField.hasChildren at h
      rw [e] at h
      cases h
    obtain ⟨g, hgm, rfl, hp⟩ := (hk.children f hfm c).1 hc
    have hpos : 0 < g.count := by
      have hgm' : g.toFieldCounts ∈ fs.map DataField.toFieldCounts := List.mem_map_of_mem hgm
      obtain ⟨d, hd, p, t, h1, h2⟩ := (hl.paths g.path).1 (List.mem_map_of_mem hgm')
      rw [hl.count _ hgm']
      exact howMany_pos hd ⟨p, t, h1, h2⟩
    unfold FieldCounts.isContainer
    rw [Bool.or_eq_true, decide_eq_true_iff, decide_eq_true_iff]
    cases he : g.isListElement with
    | true => exact .inl (Nat.lt_of_lt_of_le hpos (hpar g hgm f hfm hp .list (fun _ => rfl) (fun h => by rw [he] at h; cases h)))
    | false => exact .inr (Nat.lt_of_lt_of_le hpos (hpar g hgm f hfm hp .dict (fun h => by rw [he] at h; cases h) (fun _ => rfl)))

end

end Splitgill
