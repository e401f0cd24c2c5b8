import Verif.Model.Entries
import Verif.Proof.Mapping
import Verif.Proof.Text
import Verif.Proof.Json5
/-!
# Lemmas: the entries that are indexed for a document
-/

namespace Splitgill

/-! ## All fields of a document have types in the index -/

/-- Types once given stay. -/
def MapMono (m m' : Mapping) : Prop := ∀ p t, aget p m = some t → aget p m' = some t

theorem MapMono.refl (m : Mapping) : MapMono m m := fun _ _ h => h

theorem MapMono.trans {a b c : Mapping} (h : MapMono a b) (h' : MapMono b c) : MapMono a c := fun p t e => h' p t (h p t e)

theorem mapMono_aset {m : Mapping} {path : PyStr} {t : EsType} (h : aget path m = none) : MapMono m (aset path t m) := by
  intro p u hu
  rw [aget_aset]
  split
  · rename_i e; subst e; rw [h] at hu; cases hu
  · exact hu

mutual
/-- All fields of a value have types. -/
def Covered (m : Mapping) (path : PyStr) : Value → Prop
  | .none => True
  | .list l => CoveredElems m path l
  | .dict d => (∃ t, aget path m = some t) ∧ (aget path m = some .object → CoveredItems m path d)
  | .bool _ => ∃ t, aget path m = some t
  | .int _ => ∃ t, aget path m = some t
  | .float _ => ∃ t, aget path m = some t
  | .str _ => ∃ t, aget path m = some t
def CoveredElems (m : Mapping) (path : PyStr) : List Value → Prop
  | [] => True
  | v :: r => Covered m path v ∧ CoveredElems m path r
def CoveredItems (m : Mapping) (path : PyStr) : Dict → Prop
  | [] => True
  | (k, v) :: r => Covered m (dotted path k) v ∧ CoveredItems m path r
end

theorem coveredElems_iff {m : Mapping} {path : PyStr} : ∀ {l : List Value}, CoveredElems m path l ↔ ∀ v ∈ l, Covered m path v
  | [] => by simp [CoveredElems]
  | v :: r => by rw [CoveredElems, coveredElems_iff, List.forall_mem_cons]

theorem coveredItems_iff {m : Mapping} {path : PyStr} : ∀ {d : Dict}, CoveredItems m path d ↔ ∀ k v, (k, v) ∈ d → Covered m (dotted path k) v
  | [] => by simp [CoveredItems]
  | (k, v) :: r => by
    rw [CoveredItems, coveredItems_iff]
    constructor
    · rintro ⟨h1, h2⟩ k' v' hm
      rcases List.mem_cons.1 hm with e | hm
      · cases e; exact h1
      · exact h2 k' v' hm
    · exact fun h => ⟨h k v List.mem_cons_self, fun k' v' hm => h k' v' (List.mem_cons_of_mem _ hm)⟩

theorem Covered.mono {m m' : Mapping} (h : MapMono m m') : ∀ (v : Value) (path : PyStr), Covered m path v → Covered m' path v := by
  refine Value.ind' ?_ ?_ ?_
  · intro v hv path hc
    have key : (∃ t, aget path m = some t) → ∃ t, aget path m' = some t := fun ⟨t, ht⟩ => ⟨t, h _ _ ht⟩
    cases v <;> first | trivial | exact key hc | cases hv
  · intro l ih path hc
    rw [Covered, coveredElems_iff] at *
    exact fun v hv => ih v hv path (hc v hv)
  · intro d ih path hc
    rw [Covered, coveredItems_iff] at *
    obtain ⟨⟨t, ht⟩, h2⟩ := hc
    refine ⟨⟨t, h _ _ ht⟩, fun he k v hm => ih k v hm _ (h2 ?_ k v hm)⟩
    rw [h _ _ ht] at he
    rw [ht, he]

theorem mapLeaf_covered {S : EsEnv} {path : PyStr} {m m' : Mapping} {v : Value} (h : mapLeaf S path m v = some m') :
    MapMono m m' ∧ ∃ t, aget path m' = some t := by
  unfold mapLeaf at h
  cases ha : aget path m with
  | some t =>
    rw [ha] at h
    have : m' = m := by
      cases t <;> dsimp only at h <;> first | (cases h; rfl) | (split at h <;> first | (cases h; rfl) | cases h)
    subst this
    exact ⟨.refl _, t, ha⟩
  | none =>
    rw [ha] at h
    dsimp only at h
    cases hd : dynamicType path with
    | none => rw [hd] at h; cases h
    | some t =>
      rw [hd] at h
      have : m' = aset path t m := by
        cases t <;> dsimp only at h <;> first | (cases h; rfl) | (split at h <;> first | (cases h; rfl) | cases h)
      subst this
      exact ⟨mapMono_aset ha, t, by rw [aget_aset, if_pos rfl]⟩

mutual
theorem mapValue_covered {S : EsEnv} : ∀ (v : Value) {path : PyStr} {m m' : Mapping}, mapValue S path m v = some m' →
    MapMono m m' ∧ Covered m' path v
  | .none, path, m, m', h => by cases h; exact ⟨.refl _, trivial⟩
  | .list l, path, m, m', h => by rw [mapValue] at h; exact mapElems_covered l h
  | .bool b, path, m, m', h => mapLeaf_covered h
  | .int b, path, m, m', h => mapLeaf_covered h
  | .float b, path, m, m', h => mapLeaf_covered h
  | .str b, path, m, m', h => mapLeaf_covered h
  | .dict d, path, m, m', h => by
    rw [mapValue] at h
    cases ha : aget path m with
    | some t =>
      rw [ha] at h
      by_cases ht : t = .object
      · subst ht
        obtain ⟨h1, h2⟩ := mapItems_covered d h
        exact ⟨h1, ⟨_, h1 _ _ ha⟩, fun _ => h2⟩
      · have : m' = m := by
          cases t <;> dsimp only at h <;> first | exact absurd rfl ht | (cases h; rfl) | (split at h <;> first | (cases h; rfl) | cases h) | cases h
        subst this
        refine ⟨.refl _, ⟨_, ha⟩, fun e => ?_⟩
        rw [ha] at e
        cases e
        exact absurd rfl ht
    | none =>
      rw [ha] at h
      dsimp only at h
      cases hd : dynamicType path with
      | none =>
        rw [hd] at h
        obtain ⟨h1, h2⟩ := mapItems_covered d h
        exact ⟨(mapMono_aset ha).trans h1, ⟨_, h1 path .object (by rw [aget_aset, if_pos rfl])⟩, fun _ => h2⟩
      | some t =>
        rw [hd] at h
        have : t = .disabled ∧ m' = aset path t m := by
          cases t <;> dsimp only at h <;> first | (cases h; exact ⟨rfl, rfl⟩) | cases h
        obtain ⟨rfl, rfl⟩ := this
        refine ⟨mapMono_aset ha, ⟨.disabled, by rw [aget_aset, if_pos rfl]⟩, fun e => ?_⟩
        rw [aget_aset, if_pos rfl] at e
        cases e
theorem mapElems_covered {S : EsEnv} : ∀ (l : List Value) {path : PyStr} {m m' : Mapping}, mapElems S path m l = some m' →
    MapMono m m' ∧ CoveredElems m' path l
  | [], path, m, m', h => by cases h; exact ⟨.refl _, trivial⟩
  | v :: r, path, m, m', h => by
    rw [mapElems] at h
    cases hv : mapValue S path m v with
    | none => rw [hv] at h; cases h
    | some m1 =>
      rw [hv] at h
      obtain ⟨h1, h2⟩ := mapValue_covered v hv
      obtain ⟨h3, h4⟩ := mapElems_covered r h
      exact ⟨h1.trans h3, Covered.mono h3 v path h2, h4⟩
theorem mapItems_covered {S : EsEnv} : ∀ (d : Dict) {path : PyStr} {m m' : Mapping}, mapItems S path m d = some m' →
    MapMono m m' ∧ CoveredItems m' path d
  | [], path, m, m', h => by cases h; exact ⟨.refl _, trivial⟩
  | (k, v) :: r, path, m, m', h => by
    rw [mapItems] at h
    cases hv : mapValue S (dotted path k) m v with
    | none => rw [hv] at h; cases h
    | some m1 =>
      rw [hv] at h
      obtain ⟨h1, h2⟩ := mapValue_covered v hv
      obtain ⟨h3, h4⟩ := mapItems_covered r h
      exact ⟨h1.trans h3, Covered.mono h3 v _ h2, h4⟩
end

/-- All fields of a document have types. -/
def CoveredDoc (m : Mapping) (doc : Dict) : Prop := ∀ k v, (k, v) ∈ doc → Covered m k v

theorem CoveredDoc.mono {m m' : Mapping} (h : MapMono m m') {doc : Dict} (hc : CoveredDoc m doc) : CoveredDoc m' doc :=
  fun k v hm => Covered.mono h v k (hc k v hm)

theorem mapDoc_covered {S : EsEnv} : ∀ (doc : Dict) {m m' : Mapping}, mapDoc S m doc = some m' → MapMono m m' ∧ CoveredDoc m' doc
  | [], m, m', h => by cases h; exact ⟨.refl _, fun _ _ h => nomatch h⟩
  | (k, v) :: r, m, m', h => by
    rw [mapDoc] at h
    cases hv : mapValue S k m v with
    | none => rw [hv] at h; cases h
    | some m1 =>
      rw [hv] at h
      obtain ⟨h1, h2⟩ := mapValue_covered v hv
      obtain ⟨h3, h4⟩ := mapDoc_covered r h
      refine ⟨h1.trans h3, fun k' v' hm => ?_⟩
      rcases List.mem_cons.1 hm with e | hm
      · cases e; exact Covered.mono h3 v k h2
      · exact h4 k' v' hm

/-! ## The entries of parsed data -/

/-- Values of types are scalars. -/
abbrev OnlyScalars : PType → Value → Prop := fun _ v => v.isScalar = true

/-- The value is at a path of fields with the name of a type at the end, and it is indexed. -/
def EntryAt (path : PyStr) (v : Value) (q : PyStr) (x : Value) : Prop :=
  ∃ p ns t, getAt p v = some x ∧ x.isScalar = true ∧ x ≠ .none ∧ keysOf p = ns ++ [PType.name t] ∧ (∀ n ∈ ns, FieldName n) ∧ t ≠ .unparsed ∧
    splitDots q = splitDots path ++ keysOf p

theorem mem_entriesElems {m : Mapping} {path : PyStr} {e : PyStr × Value} : ∀ {l : List Value}, e ∈ entriesElems m path l ↔ ∃ v ∈ l, e ∈ entries m path v
  | [] => by simp [entriesElems]
  | v :: r => by rw [entriesElems, List.mem_append, mem_entriesElems]; simp

theorem mem_entriesItems {m : Mapping} {path : PyStr} {e : PyStr × Value} : ∀ {d : Dict}, e ∈ entriesItems m path d ↔
    ∃ k v, (k, v) ∈ d ∧ e ∈ entries m (dotted path k) v
  | [] => by simp [entriesItems]
  | (k, v) :: r => by
    rw [entriesItems, List.mem_append, mem_entriesItems]
    constructor
    · rintro (h | ⟨k', v', h1, h2⟩)
      · exact ⟨k, v, List.mem_cons_self, h⟩
      · exact ⟨k', v', List.mem_cons_of_mem _ h1, h2⟩
    · rintro ⟨k', v', h1, h2⟩
      rcases List.mem_cons.1 h1 with e | h1
      · cases e; exact .inl h2
      · exact .inr ⟨k', v', h1, h2⟩

/-- An entry below an object is below one of its items. -/
theorem entryAt_dict {path : PyStr} {types : Bool} {d : Dict} (hs : ShapedDict OnlyScalars types d) (hn : (akeys d).Nodup) {q : PyStr} {x : Value} :
    EntryAt path (.dict d) q x ↔ ∃ k v, (k, v) ∈ d ∧ ((types = true ∧ x = v ∧ v.isScalar = true ∧ v ≠ .none ∧ splitDots q = splitDots path ++ [k] ∧
      ∃ t, k = PType.name t ∧ t ≠ .unparsed) ∨ (FieldName k ∧ Shaped OnlyScalars v ∧ EntryAt (dotted path k) v q x)) := by
  constructor
  · rintro ⟨p, ns, t, h1, h2, h3, h4, h5, h6, h7⟩
    cases p with
    | nil => cases ns <;> cases h4
    | cons a p =>
      cases a with
      | idx i => cases h1
      | key k =>
        rw [getAt, Option.bind_eq_some_iff] at h1
        obtain ⟨v, hv, h1⟩ := h1
        have hm := aget_mem hv
        have h4' : k :: keysOf p = ns ++ [t.name] := h4
        refine ⟨k, v, hm, ?_⟩
        rcases shapedDict_iff.1 hs _ hm with ⟨ht, t', e, hl⟩ | ⟨hk, hsh⟩
        · have hl : v.isScalar = true := hl
          cases p with
          | cons a p => rw [getAt_scalar_cons hl] at h1; cases h1
          | nil =>
            cases h1
            refine .inl ⟨ht, rfl, hl, h3, by rw [h7]; rfl, t, ?_, h6⟩
            cases ns with
            | nil => injection h4'
            | cons a b => injection h4' with _ e2; cases b <;> cases e2
        · refine .inr ⟨hk, hsh, p, ?_⟩
          cases ns with
          | nil =>
            injection h4' with e1 _
            exact absurd e1 (fieldName_no_type hk t)
          | cons a b =>
            injection h4' with e1 e2
            refine ⟨b, t, h1, h2, h3, e2, fun n hn => h5 n (List.mem_cons_of_mem _ hn), h6, ?_⟩
            rw [h7, splitDots_dotted hk.no_dot, List.append_assoc]
            rfl
  · rintro ⟨k, v, hm, ⟨_, rfl, h1, h2, h3, t, rfl, h4⟩ | ⟨hk, hsh, p, ns, t, h1, h2, h3, h4, h5, h6, h7⟩⟩
    · refine ⟨[.key t.name], [], t, ?_, h1, h2, rfl, (fun _ h => nomatch h), h4, h3⟩
      rw [getAt, aget_of_mem hn hm]
      rfl
    · refine ⟨.key k :: p, k :: ns, t, ?_, h2, h3, ?_, ?_, h6, ?_⟩
      · rw [getAt, aget_of_mem hn hm]; exact h1
      · show k :: keysOf p = _
        rw [h4]; rfl
      · intro n hn
        rcases List.mem_cons.1 hn with rfl | hn
        · exact hk
        · exact h5 n hn
      · rw [h7, splitDots_dotted hk.no_dot, List.append_assoc]
        rfl

theorem esType_leaf {t : PType} (ht : t ≠ .unparsed) : t.esType ≠ .object ∧ t.esType ≠ .disabled := by
  cases t <;> first | exact absurd rfl ht | exact ⟨by decide, by decide⟩

theorem entries_type {m : Mapping} (hm : RegularMapping m) {path : PyStr} {ks : List PyStr} (hp : splitDots path = "data".toList :: ks) (hks : ks ≠ [])
    (t : PType) {v : Value} (hv : v.isScalar = true) (hc : Covered m (dotted path t.name) v) :
    entries m (dotted path t.name) v = if t = .unparsed ∨ v = .none then [] else [(dotted path t.name, v)] := by
  obtain ⟨h1, _⟩ := type_child hp hks t
  have key : ∀ w : Value, w = v → (∃ u, aget (dotted path t.name) m = some u) → w ≠ .none →
      leafEntries m (dotted path t.name) w = if t = .unparsed ∨ w = .none then [] else [(dotted path t.name, w)] := by
    rintro w rfl ⟨u, hu⟩ hne
    have := hm.types _ _ hu
    rw [h1] at this
    cases this
    unfold leafEntries
    rw [hu]
    by_cases ht : t = .unparsed
    · subst ht; simp [PType.esType]
    · obtain ⟨e1, e2⟩ := esType_leaf ht
      rw [if_neg (by simp [ht, hne])]
      cases h : t.esType <;> first | exact absurd h e1 | exact absurd h e2 | rfl
  cases v with
  | none => simp [entries]
  | list l => cases hv
  | dict d => cases hv
  | bool b => exact key _ rfl hc (by simp)
  | int b => exact key _ rfl hc (by simp)
  | float b => exact key _ rfl hc (by simp)
  | str b => exact key _ rfl hc (by simp)

theorem mem_entriesDict {m : Mapping} (hm : RegularMapping m) {path : PyStr} {ks : List PyStr} {types : Bool}
    (hp : splitDots path = "data".toList :: ks) (hk : types = false ∨ ks ≠ []) (hf : fieldType path = some .object) {d : Dict}
    (hs : ShapedDict OnlyScalars types d) (hn : (akeys d).Nodup) (hc : Covered m path (.dict d))
    (ih : ∀ k v, (k, v) ∈ d → FieldName k → Shaped OnlyScalars v → Covered m (dotted path k) v → ∀ q x,
      (q, x) ∈ entries m (dotted path k) v ↔ EntryAt (dotted path k) v q x) (q : PyStr) (x : Value) :
    (q, x) ∈ entries m path (.dict d) ↔ EntryAt path (.dict d) q x := by
  rw [Covered, coveredItems_iff] at hc
  obtain ⟨⟨u, hu⟩, hc⟩ := hc
  have := hm.types _ _ hu
  rw [hf] at this
  cases this
  have hc := hc hu
  rw [entries, hu]
  dsimp only
  rw [mem_entriesItems, entryAt_dict hs hn]
  refine exists_congr fun k => exists_congr fun v => and_congr_right fun hmem => ?_
  rcases shapedDict_iff.1 hs _ hmem with ⟨ht, t, e, hl⟩ | ⟨hk', hsh⟩
  · have hl : v.isScalar = true := hl
    dsimp only at e
    subst e
    have hks := hk.resolve_left (by rw [ht]; simp)
    rw [entries_type hm hp hks t hl (hc _ _ hmem)]
    constructor
    · intro h
      split at h
      · cases h
      · rename_i hne
        rw [List.mem_singleton] at h
        cases h
        push Not at hne
        exact .inl ⟨ht, rfl, hl, hne.2, splitDots_dotted (typeName_no_dot t), t, rfl, hne.1⟩
    · rintro (⟨_, rfl, _, h2, h3, t', h4, h5⟩ | ⟨h1, _⟩)
      · have : t = t' := by
          have := congrArg typeNamed h4
          rw [typeNamed_name, typeNamed_name] at this
          injection this
        subst this
        rw [if_neg (by simp [h5, h2]), List.mem_singleton]
        have : q = dotted path t.name := by
          rw [← intercalate_splitDots q, h3, ← splitDots_dotted (typeName_no_dot t), intercalate_splitDots]
        rw [this]
      · exact absurd rfl (fieldName_no_type h1 t)
  · rw [ih k v hmem hk' hsh (hc _ _ hmem)]
    constructor
    · exact fun h => .inr ⟨hk', hsh, h⟩
    · rintro (⟨_, _, _, _, _, t, h, _⟩ | h)
      · exact absurd h (fieldName_no_type hk' t)
      · exact h.2.2

/-- The entries for a value at a field of the data. -/
theorem mem_entries {m : Mapping} (hm : RegularMapping m) : ∀ (v : Value) (path : PyStr) (ks : List PyStr), splitDots path = "data".toList :: ks →
    ks ≠ [] → fieldType path = some .object → Shaped OnlyScalars v → v.wf = true → Covered m path v → ∀ q x,
    (q, x) ∈ entries m path v ↔ EntryAt path v q x := by
  refine Value.ind' ?_ ?_ ?_
  · intro v hv path ks hp hk hf hs hw hc q x
    cases v with
    | none =>
      constructor
      · intro h; cases h
      · rintro ⟨p, ns, t, h1, h2, h3, _⟩
        cases p with
        | nil => cases h1; exact absurd rfl h3
        | cons a p => rw [getAt_scalar_cons rfl] at h1; cases h1
    | list l => cases hv
    | dict d => cases hv
    | _ => exact hs.elim
  · intro l ih path ks hp hk hf hs hw hc q x
    rw [wf_list_iff] at hw
    rw [Covered, coveredElems_iff] at hc
    rw [Shaped] at hs
    have hs' : ∀ v ∈ l, Shaped OnlyScalars v := by
      clear ih hc hw
      induction l with
      | nil => exact fun _ h => nomatch h
      | cons v l ihl =>
        intro w hw
        rcases List.mem_cons.1 hw with rfl | hw
        · exact hs.1
        · exact ihl hs.2 w hw
    rw [entries, mem_entriesElems]
    constructor
    · rintro ⟨v, hv, h⟩
      obtain ⟨p, ns, t, h1, h2⟩ := (ih v hv path ks hp hk hf (hs' v hv) (hw v hv) (hc v hv) q x).1 h
      obtain ⟨i, hi, rfl⟩ := List.mem_iff_getElem.1 hv
      refine ⟨.idx i :: p, ns, t, ?_, h2⟩
      rw [getAt, List.getElem?_eq_getElem hi]
      exact h1
    · rintro ⟨p, ns, t, h1, h2, h3, h4, h5⟩
      cases p with
      | nil => cases ns <;> cases h4
      | cons a p =>
        cases a with
        | key k => cases h1
        | idx i =>
          rw [getAt, Option.bind_eq_some_iff] at h1
          obtain ⟨v, hv, h1⟩ := h1
          have hv := List.mem_of_getElem? hv
          exact ⟨v, hv, (ih v hv path ks hp hk hf (hs' v hv) (hw v hv) (hc v hv) q x).2 ⟨p, ns, t, h1, h2, h3, h4, h5⟩⟩
  · intro d ih path ks hp hk hf hs hw hc q x
    rw [wf_dict_iff] at hw
    rw [Shaped] at hs
    refine mem_entriesDict hm hp (.inr hk) hf hs hw.1 hc (fun k v hmem hfn hsh hcv q x => ?_) q x
    refine ih k v hmem _ (ks ++ [k]) ?_ (by simp) (fieldType_child ⟨ks, hp⟩ hfn) hsh (hw.2 k v hmem) hcv q x
    rw [splitDots_dotted hfn.no_dot, hp]; rfl

/-- The entries for the data of a document. -/
theorem mem_entries_data {m : Mapping} (hm : RegularMapping m) {d : Dict} (hs : ShapedDict OnlyScalars false d) (hw : (Value.dict d).wf = true)
    (hc : Covered m "data".toList (.dict d)) (q : PyStr) (x : Value) : (q, x) ∈ entries m "data".toList (.dict d) ↔ EntryAt "data".toList (.dict d) q x := by
  have hw' := wf_dict_iff.1 hw
  have hp : splitDots "data".toList = "data".toList :: [] := by decide
  refine mem_entriesDict hm hp (.inl rfl) (by decide) hs hw'.1 hc (fun k v hmem hfn hsh hcv q x => ?_) q x
  refine mem_entries hm v _ [k] ?_ (by simp) (fieldType_child ⟨[], hp⟩ hfn) hsh (hw'.2 k v hmem) hcv q x
  rw [splitDots_dotted hfn.no_dot, hp]; rfl

end Splitgill
