import Verif.Spec.Mapping
import Verif.Proof.Json3
import Verif.Proof.Query
import Verif.Proof.Names
/-!
# Documents and the types of fields
-/

namespace Splitgill

/-! ## Types by paths -/

theorem fieldName_no_type {k : PyStr} (h : FieldName k) (t : PType) : k ≠ t.name := by
  rintro rfl
  have := h.no_underscore (by cases t <;> rfl)
  cases t <;> revert this <;> decide

theorem typeName_no_dot (t : PType) : '.' ∉ t.name := by cases t <;> decide

theorem typeNamed_name (t : PType) : typeNamed t.name = some t := by cases t <;> decide

theorem typeNamed_field {k : PyStr} (h : FieldName k) : typeNamed k = none := by
  unfold typeNamed
  rw [List.find?_eq_none]
  intro t _ e
  rw [decide_eq_true_eq] at e
  exact fieldName_no_type h t e.symm

theorem glob_type (t : PType) (q : PyStr) : glob (parsedPath ['*'] t) q = true ↔ ∃ a, q = "data".toList ++ '.' :: (a ++ '.' :: t.name) := by
  have e : parsedPath ['*'] t = "data.".toList ++ ('*' :: (('.' :: t.name) ++ [])) := by cases t <;> rfl
  rw [e, glob_lit (by decide)]
  constructor
  · rintro ⟨s, rfl, h⟩
    obtain ⟨a, b, rfl, h'⟩ := (glob_star _ _).1 h
    clear h
    obtain ⟨c, rfl, h⟩ := (glob_lit (p := '.' :: t.name) (by cases t <;> decide) _ _).1 h'
    rw [(glob_nil c).1 h]
    exact ⟨a, by simp⟩
  · rintro ⟨a, rfl⟩
    refine ⟨a ++ '.' :: t.name, by simp, (glob_star _ _).2 ⟨a, '.' :: t.name, rfl, ?_⟩⟩
    exact (glob_lit (p := '.' :: t.name) (by cases t <;> decide) _ _).2 ⟨[], by simp, rfl⟩

theorem dynamicType_none {q : PyStr} (h : ∀ t a, q ≠ "data".toList ++ '.' :: (a ++ '.' :: PType.name t)) : dynamicType q = none := by
  have hg : ∀ t, glob (parsedPath ['*'] t) q = false := fun t => by
    cases hb : glob (parsedPath ['*'] t) q with
    | false => rfl
    | true =>
      obtain ⟨a, ha⟩ := (glob_type t q).1 hb
      exact absurd ha (h t a)
  unfold dynamicType dynamicTemplates
  simp [hg]

theorem dynamicType_some {a : PyStr} (t : PType) : dynamicType ("data".toList ++ '.' :: (a ++ '.' :: t.name)) = some t.esType := by
  have hg : ∀ t', glob (parsedPath ['*'] t') ("data".toList ++ '.' :: (a ++ '.' :: t.name)) = decide (t' = t) := fun t' => by
    rw [Bool.eq_iff_iff, glob_type, decide_eq_true_eq]
    constructor
    · rintro ⟨b, hb⟩
      have hb : a ++ '.' :: t.name = b ++ '.' :: t'.name := by
        have := List.append_cancel_left hb
        injection this
      have := congrArg splitDots hb
      rw [splitDots_append, splitDots_append, splitDots_clean (typeName_no_dot t), splitDots_clean (typeName_no_dot t')] at this
      have := List.append_inj_right' this rfl
      injection this with this
      have := congrArg typeNamed this
      rw [typeNamed_name, typeNamed_name] at this
      injection this with this
      exact this.symm
    · rintro rfl
      exact ⟨a, rfl⟩
  generalize "data".toList ++ '.' :: (a ++ '.' :: t.name) = q at hg
  unfold dynamicType dynamicTemplates
  cases t <;> simp [hg, PType.esType]

theorem splitDots_dotted {path k : PyStr} (hk : '.' ∉ k) : splitDots (dotted path k) = splitDots path ++ [k] := by
  rw [dotted, splitDots_append, splitDots_clean hk]

/-- A path into data. -/
def InData (path : PyStr) : Prop := ∃ ks, splitDots path = "data".toList :: ks

theorem InData.child {path k : PyStr} (h : InData path) (hk : '.' ∉ k) : InData (dotted path k) := by
  obtain ⟨ks, h⟩ := h
  exact ⟨ks ++ [k], by rw [splitDots_dotted hk, h]; rfl⟩

theorem fieldType_child {path k : PyStr} (h : InData path) (hk : FieldName k) : fieldType (dotted path k) = some .object := by
  obtain ⟨ks, h⟩ := h
  unfold fieldType
  rw [splitDots_dotted hk.no_dot, h]
  cases ks with
  | nil => rfl
  | cons a ks =>
    have : (a :: ks ++ [k]).getLast? = some k := List.getLast?_concat
    cases ks with
    | nil =>
      show (if _ then _ else _) = _
      rw [if_pos rfl]
      simp [typeNamed_field hk]
    | cons b ks =>
      show (if _ then _ else _) = _
      rw [if_pos rfl]
      show some (((List.getLast? (a :: b :: ks ++ [k])).bind typeNamed).map PType.esType |>.getD .object) = _
      rw [this, Option.bind_some, typeNamed_field hk]
      rfl

theorem dynamicType_child {path k : PyStr} (hk : FieldName k) : dynamicType (dotted path k) = none := by
  refine dynamicType_none (fun t a e => ?_)
  have := congrArg splitDots e
  rw [splitDots_dotted hk.no_dot, splitDots_append, splitDots_append, splitDots_clean (typeName_no_dot t), ← List.append_assoc] at this
  have := List.append_inj_right' this rfl
  injection this with this
  exact fieldName_no_type hk t this

theorem type_child {path : PyStr} {ks : List PyStr} (h : splitDots path = "data".toList :: ks) (hks : ks ≠ []) (t : PType) :
    fieldType (dotted path t.name) = some t.esType ∧ dynamicType (dotted path t.name) = some t.esType := by
  constructor
  · unfold fieldType
    rw [splitDots_dotted (typeName_no_dot t), h]
    cases ks with
    | nil => exact absurd rfl hks
    | cons a ks =>
      have : (a :: ks ++ [t.name]).getLast? = some t.name := List.getLast?_concat
      cases ks with
      | nil =>
        show (if _ then _ else _) = _
        rw [if_pos rfl]
        simp [typeNamed_name]
      | cons b ks =>
        show (if _ then _ else _) = _
        rw [if_pos rfl]
        show some (((List.getLast? (a :: b :: ks ++ [t.name])).bind typeNamed).map PType.esType |>.getD .object) = _
        rw [this, Option.bind_some, typeNamed_name]
        rfl
  · have := intercalate_splitDots path
    rw [h, intercalate_cons hks] at this
    rw [← this, dotted]
    have := dynamicType_some (a := ['.'].intercalate ks) t
    rw [← this]
    simp

theorem RegularMapping.aset {m : Mapping} (h : RegularMapping m) {path : PyStr} {t : EsType} (ht : fieldType path = some t) : RegularMapping (aset path t m) := by
  constructor
  · intro q u hu
    rw [aget_aset] at hu
    split at hu
    · rename_i e
      subst e
      cases hu
      exact ht
    · exact h.types q u hu
  · intro q u hu
    rw [aget_aset]
    split
    · rename_i e
      subst e
      have := h.types _ _ (h.initial _ _ hu)
      rw [ht] at this
      exact this
    · exact h.initial q u hu

theorem regular_initial : RegularMapping initialMapping := by
  refine ⟨fun path t h => ?_, fun _ _ h => h⟩
  have := aget_mem h
  unfold initialMapping at this
  simp only [List.mem_cons, List.not_mem_nil, or_false] at this
  rcases this with e | e | e | e | e | e | e | e | e <;> cases e <;> decide

/-! ## The shape of parsed data -/

mutual
/-- Dicts with values of the types at their names, and fields. -/
def Shaped (L : PType → Value → Prop) : Value → Prop
  | .dict d => ShapedDict L true d
  | .list l => ShapedList L l
  | .none => True
  | _ => False
/-- `types` tells whether there are types in it. -/
def ShapedDict (L : PType → Value → Prop) : Bool → Dict → Prop
  | _, [] => True
  | types, (k, v) :: r => ((types = true ∧ ∃ t, k = PType.name t ∧ L t v) ∨ (FieldName k ∧ Shaped L v)) ∧ ShapedDict L types r
def ShapedList (L : PType → Value → Prop) : List Value → Prop
  | [] => True
  | v :: r => Shaped L v ∧ ShapedList L r
end

variable {L : PType → Value → Prop} {types : Bool}

/-- An item of a shaped dict. -/
def ShapedItem (L : PType → Value → Prop) (types : Bool) (kv : PyStr × Value) : Prop :=
  (types = true ∧ ∃ t, kv.1 = PType.name t ∧ L t kv.2) ∨ (FieldName kv.1 ∧ Shaped L kv.2)

theorem shapedDict_iff : ∀ {d : Dict}, ShapedDict L types d ↔ ∀ kv ∈ d, ShapedItem L types kv
  | [] => by simp [ShapedDict]
  | (k, v) :: r => by rw [ShapedDict, shapedDict_iff, List.forall_mem_cons]; rfl

theorem ShapedDict.aset {k : PyStr} {v : Value} {d : Dict} (hv : ShapedItem L types (k, v)) (h : ShapedDict L types d) :
    ShapedDict L types (aset k v d) := by
  rw [shapedDict_iff] at *
  intro kv hkv
  rcases mem_aset hkv with rfl | hkv
  · exact hv
  · exact h kv hkv

theorem ShapedDict.aupdate {a b : Dict} (ha : ShapedDict L types a) (hb : ShapedDict L types b) : ShapedDict L types (aupdate a b) := by
  rw [shapedDict_iff] at *
  intro kv h
  rcases mem_aupdate h with h | h
  · exact hb kv h
  · exact ha kv h

theorem ShapedDict.asetOpt {t : PType} {v : Option Value} {d : Dict} (h : ShapedDict L true d) (hv : ∀ x, v = some x → L t x) :
    ShapedDict L true (asetOpt t.name v d) := by
  unfold Splitgill.asetOpt
  split
  · exact h.aset (.inl ⟨rfl, t, rfl, hv _ rfl⟩)
  · exact h

/-- The values that the parser puts at the types. -/
structure ParserLeaves (E : ParseEnv) (o : ParsingOptions) (L : PType → Value → Prop) : Prop where
  unparsed : ∀ v, v.isScalar = true → L .unparsed v
  text : ∀ s, L .text (.str s)
  keyword : ∀ s, L .keyword (.str (pyTake o.keywordLength s))
  int : ∀ i, L .number (.int i)
  float : ∀ f, L .number (.float f)
  date : ∀ i, L .date (.int i)
  boolean : ∀ b, L .boolean (.bool b)
  wkt : ∀ s g, E.wkt s = some g → L .geoPoint (.str g.1) ∧ L .geoShape (.str g.2)
  geojson : ∀ d g, E.geojson d = some g → L .geoPoint (.str g.1) ∧ L .geoShape (.str g.2)
  hint : ∀ lon lat r n g, E.hintGeo lon lat r n = some g → L .geoPoint (.str g.1) ∧ L .geoShape (.str g.2)
  dict : ∀ t d d', L t (.dict d) → L t (.dict d')

variable {E : ParseEnv} {o : ParsingOptions}

theorem geoDict_shaped {g : PyStr × PyStr} (h : L .geoPoint (.str g.1) ∧ L .geoShape (.str g.2)) : ShapedDict L true (geoDict g) :=
  ⟨.inl ⟨rfl, .geoPoint, rfl, h.1⟩, .inl ⟨rfl, .geoShape, rfl, h.2⟩, trivial⟩

theorem parseValue_shaped (h : ParserLeaves E o L) {v : Value} (hv : v.isScalar = true) : ShapedDict L true (parseValue E o v) := by
  have hb : ShapedDict L true [(PType.unparsed.name, v), (PType.text.name, .str (strValue E o v)),
      (PType.keyword.name, .str (pyTake o.keywordLength (strValue E o v)))] :=
    ⟨.inl ⟨rfl, .unparsed, rfl, h.unparsed v hv⟩, .inl ⟨rfl, .text, rfl, h.text _⟩, .inl ⟨rfl, .keyword, rfl, h.keyword _⟩, trivial⟩
  unfold parseValue
  refine ShapedDict.asetOpt (ShapedDict.asetOpt (ShapedDict.asetOpt ?_ ?_) ?_) ?_
  · split
    · rename_i g hg
      exact hb.aupdate (geoDict_shaped (h.wkt _ _ hg))
    · exact hb
  · intro x hx
    obtain ⟨b, _, rfl⟩ := Option.map_eq_some_iff.1 hx
    exact h.boolean b
  · intro x hx
    unfold parsedNumber at hx
    split at hx
    · cases hx; exact h.int _
    · cases hx; exact h.float _
    · obtain ⟨f, hf, rfl⟩ := Option.map_eq_some_iff.1 hx
      exact h.float _
  · intro x hx
    obtain ⟨i, hi, rfl⟩ := Option.map_eq_some_iff.1 hx
    exact h.date i

theorem addHints_shaped (h : ParserLeaves E o L) : ∀ {hints : List (PyStr × (PyStr × PyStr))} {d d' : Dict},
    (∀ kg ∈ hints, L .geoPoint (.str kg.2.1) ∧ L .geoShape (.str kg.2.2)) → ShapedDict L types d →
    addHints hints d = .ok d' → ShapedDict L types d'
  | [], d, d', _, hd, e => by cases e; exact hd
  | (k, g) :: r, d, d', hh, hd, e => by
    rw [addHints] at e
    split at e
    · cases e
    · rename_i x hx
      refine addHints_shaped h (fun kg hkg => hh kg (List.mem_cons_of_mem _ hkg)) (hd.aset ?_) e
      rcases shapedDict_iff.1 hd _ (aget_mem hx) with ⟨ht, t, e1, e2⟩ | ⟨hk, hs⟩
      · exact .inl ⟨ht, t, e1, h.dict t x _ e2⟩
      · refine .inr ⟨hk, ?_⟩
        show Shaped L (.dict _)
        rw [Shaped]
        have hs : Shaped L (.dict x) := hs
        rw [Shaped] at hs
        exact hs.aupdate (geoDict_shaped (hh (k, g) List.mem_cons_self))
    · cases e

theorem matchHints_shaped (h : ParserLeaves E o L) (d : Dict) (hints : List GeoFieldHint) :
    ∀ kg ∈ matchHints E d hints, L .geoPoint (.str kg.2.1) ∧ L .geoShape (.str kg.2.2) := by
  unfold matchHints
  suffices hs : ∀ (hints : List GeoFieldHint) (acc : List (PyStr × (PyStr × PyStr))),
      (∀ kg ∈ acc, L .geoPoint (.str kg.2.1) ∧ L .geoShape (.str kg.2.2)) →
      ∀ kg ∈ hints.foldl (hintStep E d) acc, L .geoPoint (.str kg.2.1) ∧ L .geoShape (.str kg.2.2) from hs hints [] (fun _ hm => nomatch hm)
  intro hints
  induction hints with
  | nil => exact fun acc h => h
  | cons x hints ih =>
    intro acc ha
    refine ih _ ?_
    unfold hintStep
    split
    · rename_i g hg
      intro kg hkg
      rcases mem_aset hkg with rfl | hkg
      · exact h.hint _ _ _ _ _ hg
      · exact ha kg hkg
    · exact ha

theorem assembleDict_shaped (h : ParserLeaves E o L) {b : Bool} {data : Dict} {items x : PResult Dict}
    (hi : ShapedDict L b items.parsed) (e : assembleDict E o b data items = .ok x) : ShapedDict L b x.parsed := by
  unfold assembleDict at e
  dsimp only at e
  split at e
  · cases e
  · rename_i d hd
    cases e
    refine addHints_shaped h (matchHints_shaped h data o.geoHints) (ShapedDict.aupdate ?_ hi) hd
    cases b with
    | false => trivial
    | true =>
      rw [if_pos rfl]
      cases hg : matchGeojson E data with
      | none => trivial
      | some g =>
        refine geoDict_shaped ?_
        unfold matchGeojson at hg
        split at hg
        · exact h.geojson _ _ hg
        · cases hg

mutual
theorem parseInner_shaped (h : ParserLeaves E o L) (inList : Bool) : ∀ (v : Value) (x : PResult (Option Value)), v.wf = true →
    FieldNames v → parseInner E o inList v = .ok x → ∀ y, x.parsed = some y → Shaped L y
  | .dict [], x, _, _, e, y, hy => by
    cases e
    cases inList
    · cases hy
    · cases hy; trivial
  | .dict (kv :: r), x, hw, hf, e, y, hy => by
    rw [parseInner] at e
    cases h1 : parseItems E o (kv :: r) with
    | error _ => rw [h1] at e; cases e
    | ok items =>
      rw [h1] at e
      dsimp only at e
      cases h2 : assembleDict E o true (kv :: r) items with
      | error _ => rw [h2] at e; cases e
      | ok z =>
        rw [h2] at e
        cases e
        cases hy
        rw [Shaped]
        rw [wf_dict_iff] at hw
        exact assembleDict_shaped h (parseItems_shaped h true (kv :: r) items (fun k v hm => ⟨hf.dict k (List.mem_map_of_mem (f := Prod.fst) hm),
          hw.2 k v hm, hf.item hw.1 hm⟩) h1) h2
  | .list [], x, _, _, e, y, hy => by
    cases e
    cases inList
    · cases hy
    · cases hy; trivial
  | .list (v :: r), x, hw, hf, e, y, hy => by
    rw [parseInner] at e
    cases h1 : parseElems E o (v :: r) with
    | error _ => rw [h1] at e; cases e
    | ok z =>
      rw [h1] at e
      cases e
      cases hy
      rw [Shaped]
      rw [wf_list_iff] at hw
      exact parseElems_shaped h (v :: r) z (fun v hm => ⟨hw v hm, hf.elem hm⟩) h1
  | .none, x, _, _, e, y, hy => by
    cases e
    cases inList
    · cases hy; exact ⟨.inl ⟨rfl, .unparsed, rfl, h.unparsed _ rfl⟩, trivial⟩
    · cases hy; trivial
  | .str s, x, _, _, e, y, hy => by
    rw [parseInner] at e
    split at e
    · cases e
      cases inList
      · cases hy; exact ⟨.inl ⟨rfl, .unparsed, rfl, h.unparsed _ rfl⟩, trivial⟩
      · cases hy; trivial
    · cases e
      cases hy
      exact parseValue_shaped h rfl
  | .bool b, x, _, _, e, y, hy => by
    cases e; cases hy
    exact parseValue_shaped h rfl
  | .int b, x, _, _, e, y, hy => by
    cases e; cases hy
    exact parseValue_shaped h rfl
  | .float b, x, _, _, e, y, hy => by
    cases e; cases hy
    exact parseValue_shaped h rfl
theorem parseItems_shaped (h : ParserLeaves E o L) (b : Bool) : ∀ (d : Dict) (x : PResult Dict),
    (∀ k v, (k, v) ∈ d → FieldName k ∧ v.wf = true ∧ FieldNames v) → parseItems E o d = .ok x → ShapedDict L b x.parsed
  | [], x, _, e => by cases e; trivial
  | (k, v) :: r, x, hd, e => by
    rw [parseItems] at e
    cases h1 : parseInner E o false v with
    | error _ => rw [h1] at e; cases e
    | ok z =>
      rw [h1] at e
      dsimp only at e
      cases h2 : parseItems E o r with
      | error _ => rw [h2] at e; cases e
      | ok w =>
        rw [h2] at e
        cases e
        have hr := parseItems_shaped h b r w (fun k v hm => hd k v (List.mem_cons_of_mem _ hm)) h2
        obtain ⟨hk, hw, hf⟩ := hd k v List.mem_cons_self
        dsimp only
        cases hz : z.parsed with
        | none => exact hr
        | some y => exact ⟨.inr ⟨hk, parseInner_shaped h false v z hw hf h1 y hz⟩, hr⟩
theorem parseElems_shaped (h : ParserLeaves E o L) : ∀ (l : List Value) (x : PResult (List Value)),
    (∀ v ∈ l, v.wf = true ∧ FieldNames v) → parseElems E o l = .ok x → ShapedList L x.parsed
  | [], x, _, e => by cases e; trivial
  | v :: r, x, hd, e => by
    rw [parseElems] at e
    cases h1 : parseInner E o true v with
    | error _ => rw [h1] at e; cases e
    | ok z =>
      rw [h1] at e
      dsimp only at e
      cases h2 : parseElems E o r with
      | error _ => rw [h2] at e; cases e
      | ok w =>
        rw [h2] at e
        cases e
        refine ⟨?_, parseElems_shaped h r w (fun v hm => hd v (List.mem_cons_of_mem _ hm)) h2⟩
        obtain ⟨hw, hf⟩ := hd v List.mem_cons_self
        cases hz : z.parsed with
        | none => trivial
        | some y => exact parseInner_shaped h true v z hw hf h1 y hz
end

theorem parse_shaped (h : ParserLeaves E o L) {d : Dict} {x : ParsedData} (hw : (Value.dict d).wf = true) (hf : FieldNames (.dict d))
    (e : parse E o d = .ok x) : ShapedDict L false x.parsed := by
  unfold parse parseDict at e
  cases h1 : parseItems E o d with
  | error _ => rw [h1] at e; cases e
  | ok items =>
    rw [h1] at e
    dsimp only at e
    cases h2 : assembleDict E o false d items with
    | error _ => rw [h2] at e; cases e
    | ok z =>
      rw [h2] at e
      dsimp only at e
      rw [wf_dict_iff] at hw
      split at e
      · cases e
        exact assembleDict_shaped h (parseItems_shaped h false d items (fun k v hm => ⟨hf.dict k (List.mem_map_of_mem (f := Prod.fst) hm),
          hw.2 k v hm, hf.item hw.1 hm⟩) h1) h2
      · cases e
      · cases e

mutual
theorem canon_shaped (hL : ∀ t v, L t v → L t (canon v)) : ∀ v : Value, Shaped L v → Shaped L (canon v)
  | .dict d, h => by rw [canon, Shaped]; rw [Shaped] at h; exact canonDict_shaped hL true d h
  | .list l, h => by rw [canon, Shaped]; rw [Shaped] at h; exact canonList_shaped hL l h
  | .none, h => h
  | .bool _, h => h
  | .int _, h => h
  | .float _, h => h
  | .str _, h => h
theorem canonDict_shaped (hL : ∀ t v, L t v → L t (canon v)) (b : Bool) : ∀ d : Dict, ShapedDict L b d → ShapedDict L b (canonDict d)
  | [], h => h
  | (k, v) :: r, h => by
    rw [canonDict]
    have hr := canonDict_shaped hL b r h.2
    rw [shapedDict_iff] at hr ⊢
    intro kv hkv
    have := (insertBy_perm (le := fun a b : PyStr × Value => strLe a.1 b.1) (k, canon v) (canonDict r)).mem_iff.1 hkv
    rcases List.mem_cons.1 this with rfl | hm
    · rcases h.1 with ⟨ht, t, e, hl⟩ | ⟨hk, hs⟩
      · exact .inl ⟨ht, t, e, hL t v hl⟩
      · exact .inr ⟨hk, canon_shaped hL v hs⟩
    · exact hr kv hm
theorem canonList_shaped (hL : ∀ t v, L t v → L t (canon v)) : ∀ l : List Value, ShapedList L l → ShapedList L (canonList l)
  | [], h => h
  | v :: r, h => ⟨canon_shaped hL v h.1, canonList_shaped hL r h.2⟩
end

mutual
theorem sent_shaped {L' : PType → Value → Prop} (hL : ∀ t v, L t v → L' t v.sent) : ∀ v : Value, Shaped L v → Shaped L' v.sent
  | .dict d, h => by rw [Value.sent, Shaped]; rw [Shaped] at h; exact sentDict_shaped hL true d h
  | .list l, h => by rw [Value.sent, Shaped]; rw [Shaped] at h; exact sentList_shaped hL l h
  | .none, h => trivial
  | .bool _, h => h.elim
  | .int _, h => h.elim
  | .float _, h => h.elim
  | .str _, h => h.elim
theorem sentDict_shaped {L' : PType → Value → Prop} (hL : ∀ t v, L t v → L' t v.sent) (b : Bool) : ∀ d : Dict, ShapedDict L b d →
    ShapedDict L' b (sentDict d)
  | [], h => trivial
  | (k, v) :: r, h => by
    rw [sentDict]
    refine ⟨?_, sentDict_shaped hL b r h.2⟩
    rcases h.1 with ⟨ht, t, e, hl⟩ | ⟨hk, hs⟩
    · exact .inl ⟨ht, t, e, hL t v hl⟩
    · exact .inr ⟨hk, sent_shaped hL v hs⟩
theorem sentList_shaped {L' : PType → Value → Prop} (hL : ∀ t v, L t v → L' t v.sent) : ∀ l : List Value, ShapedList L l → ShapedList L' (sentList l)
  | [], h => trivial
  | v :: r, h => ⟨sent_shaped hL v h.1, sentList_shaped hL r h.2⟩
end

/-! ## Mapping shaped data -/

variable {S : EsEnv}

/-- A value that the type of its field allows. -/
def LeafFits (S : EsEnv) (t : PType) (v : Value) : Prop := t = .unparsed ∨ v = .none ∨ t.esType.accepts S v = true

mutual
theorem mapValue_disabled {path : PyStr} (hf : fieldType path = some .disabled) (hd : dynamicType path = some .disabled) :
    ∀ (v : Value) {m : Mapping}, RegularMapping m → ∃ m', mapValue S path m v = some m' ∧ RegularMapping m'
  | .none, m, h => ⟨m, rfl, h⟩
  | .list l, m, h => by rw [mapValue]; exact mapElems_disabled hf hd l h
  | .dict d, m, h => by
    rw [mapValue]
    cases hg : aget path m with
    | none => rw [hd]; exact ⟨_, rfl, h.aset hf⟩
    | some t =>
      have := h.types _ _ hg
      rw [hf] at this
      cases this
      exact ⟨m, rfl, h⟩
  | .bool _, m, h => mapLeaf_disabled hf hd _ h
  | .int _, m, h => mapLeaf_disabled hf hd _ h
  | .float _, m, h => mapLeaf_disabled hf hd _ h
  | .str _, m, h => mapLeaf_disabled hf hd _ h
theorem mapElems_disabled {path : PyStr} (hf : fieldType path = some .disabled) (hd : dynamicType path = some .disabled) :
    ∀ (l : List Value) {m : Mapping}, RegularMapping m → ∃ m', mapElems S path m l = some m' ∧ RegularMapping m'
  | [], m, h => ⟨m, rfl, h⟩
  | v :: r, m, h => by
    obtain ⟨m', h1, h2⟩ := mapValue_disabled hf hd v h
    rw [mapElems, h1]
    exact mapElems_disabled hf hd r h2
theorem mapLeaf_disabled {path : PyStr} (hf : fieldType path = some .disabled) (hd : dynamicType path = some .disabled)
    (v : Value) {m : Mapping} (h : RegularMapping m) : ∃ m', mapLeaf S path m v = some m' ∧ RegularMapping m' := by
  unfold mapLeaf
  cases hg : aget path m with
  | none => rw [hd]; exact ⟨_, rfl, h.aset hf⟩
  | some t =>
    have := h.types _ _ hg
    rw [hf] at this
    cases this
    exact ⟨m, rfl, h⟩
end

theorem mapLeaf_ok {path : PyStr} {t : EsType} (hf : fieldType path = some t) (hd : dynamicType path = some t ∨ aget path initialMapping = some t)
    {v : Value} (hv : t.accepts S v = true) {m : Mapping} (h : RegularMapping m) : ∃ m', mapLeaf S path m v = some m' ∧ RegularMapping m' := by
  have hn : t ≠ .disabled := by rintro rfl; cases v <;> cases hv
  unfold mapLeaf
  cases hg : aget path m with
  | none =>
    rcases hd with hd | hd
    · rw [hd]
      cases t <;> first | exact absurd rfl hn | (dsimp only; rw [if_pos hv]; exact ⟨_, rfl, h.aset hf⟩)
    · rw [h.initial _ _ hd] at hg; cases hg
  | some u =>
    have := h.types _ _ hg
    rw [hf] at this
    cases this
    cases t <;> first | exact absurd rfl hn | (dsimp only; rw [if_pos hv]; exact ⟨_, rfl, h⟩)

theorem mapValue_ok {path : PyStr} {t : EsType} (hf : fieldType path = some t) (hd : dynamicType path = some t ∨ aget path initialMapping = some t)
    {v : Value} (hv : t.accepts S v = true) {m : Mapping} (h : RegularMapping m) : ∃ m', mapValue S path m v = some m' ∧ RegularMapping m' := by
  cases v with
  | none => exact ⟨m, rfl, h⟩
  | list l => cases t <;> cases hv
  | dict d => cases t <;> cases hv
  | bool b => exact mapLeaf_ok hf hd hv h
  | int i => exact mapLeaf_ok hf hd hv h
  | float f => exact mapLeaf_ok hf hd hv h
  | str s => exact mapLeaf_ok hf hd hv h

theorem mapValue_leaf {path : PyStr} {t : PType} (hf : fieldType path = some t.esType) (hd : dynamicType path = some t.esType)
    {v : Value} (hv : LeafFits S t v) {m : Mapping} (h : RegularMapping m) : ∃ m', mapValue S path m v = some m' ∧ RegularMapping m' := by
  rcases hv with rfl | rfl | hv
  · exact mapValue_disabled hf hd v h
  · exact ⟨m, rfl, h⟩
  · exact mapValue_ok hf (.inl hd) hv h

theorem mapObject {path : PyStr} (hf : fieldType path = some .object) (hd : dynamicType path = none) {d : Dict}
    (hm : ∀ m, RegularMapping m → ∃ m', mapItems S path m d = some m' ∧ RegularMapping m') {m : Mapping} (h : RegularMapping m) :
    ∃ m', mapValue S path m (.dict d) = some m' ∧ RegularMapping m' := by
  rw [mapValue]
  cases hg : aget path m with
  | none => rw [hd]; exact hm _ (h.aset hf)
  | some u =>
    have := h.types _ _ hg
    rw [hf] at this
    cases this
    exact hm m h

mutual
theorem mapValue_shaped : ∀ (v : Value) {path : PyStr} {ks : List PyStr}, splitDots path = "data".toList :: ks → ks ≠ [] →
    fieldType path = some .object → dynamicType path = none → Shaped (LeafFits S) v → ∀ {m : Mapping}, RegularMapping m →
    ∃ m', mapValue S path m v = some m' ∧ RegularMapping m'
  | .none, path, ks, _, _, _, _, _, m, h => ⟨m, rfl, h⟩
  | .list l, path, ks, hp, hk, hf, hd, hs, m, h => by
    rw [mapValue]
    rw [Shaped] at hs
    exact mapElems_shaped l hp hk hf hd hs h
  | .dict d, path, ks, hp, hk, hf, hd, hs, m, h => by
    rw [Shaped] at hs
    exact mapObject hf hd (fun m h => mapItems_shaped d hp (.inr hk) hs h) h
  | .bool _, _, _, _, _, _, _, hs, _, _ => hs.elim
  | .int _, _, _, _, _, _, _, hs, _, _ => hs.elim
  | .float _, _, _, _, _, _, _, hs, _, _ => hs.elim
  | .str _, _, _, _, _, _, _, hs, _, _ => hs.elim
theorem mapElems_shaped : ∀ (l : List Value) {path : PyStr} {ks : List PyStr}, splitDots path = "data".toList :: ks → ks ≠ [] →
    fieldType path = some .object → dynamicType path = none → ShapedList (LeafFits S) l → ∀ {m : Mapping}, RegularMapping m →
    ∃ m', mapElems S path m l = some m' ∧ RegularMapping m'
  | [], path, ks, _, _, _, _, _, m, h => ⟨m, rfl, h⟩
  | v :: r, path, ks, hp, hk, hf, hd, hs, m, h => by
    obtain ⟨m', h1, h2⟩ := mapValue_shaped v hp hk hf hd hs.1 h
    rw [mapElems, h1]
    exact mapElems_shaped r hp hk hf hd hs.2 h2
theorem mapItems_shaped : ∀ (d : Dict) {path : PyStr} {ks : List PyStr} {types : Bool}, splitDots path = "data".toList :: ks →
    (types = false ∨ ks ≠ []) → ShapedDict (LeafFits S) types d → ∀ {m : Mapping}, RegularMapping m →
    ∃ m', mapItems S path m d = some m' ∧ RegularMapping m'
  | [], path, ks, _, _, _, _, m, h => ⟨m, rfl, h⟩
  | (k, v) :: r, path, ks, types, hp, hk, hs, m, h => by
    have hv : ∃ m', mapValue S (dotted path k) m v = some m' ∧ RegularMapping m' := by
      rcases hs.1 with ⟨ht, t, rfl, hl⟩ | ⟨hn, hs⟩
      · obtain ⟨h1, h2⟩ := type_child hp (hk.resolve_left (by rw [ht]; simp)) t
        exact mapValue_leaf h1 h2 hl h
      · refine mapValue_shaped v (ks := ks ++ [k]) ?_ (by simp) (fieldType_child ⟨ks, hp⟩ hn) (dynamicType_child hn) hs h
        rw [splitDots_dotted hn.no_dot, hp]; rfl
    obtain ⟨m', h1, h2⟩ := hv
    rw [mapItems, h1]
    exact mapItems_shaped r hp hk hs.2 h2
end

/-! ## The values the parser makes -/

theorem utf8Len_le (s : PyStr) : utf8Len s ≤ 4 * s.length := by
  unfold utf8Len
  induction s with
  | nil => simp
  | cons c s ih =>
    have := Char.utf8Size_le_four c
    simp only [List.map_cons, List.sum_cons, List.length_cons]
    omega

/-- What the parser makes, before it is written as JSON. -/
def RawFits (S : EsEnv) (t : PType) (v : Value) : Prop := t = .unparsed ∨ (v.isScalar = true ∧ LeafFits S t v.sent)

theorem rawFits_leaves (hP : PlacesOk E S) (hl : S.NotLonger) (ho : ShortKeywords o) : ParserLeaves E o (RawFits S) where
  unparsed := fun _ _ => .inl rfl
  text := fun s => .inr ⟨rfl, .inr (.inr rfl)⟩
  keyword := fun s => .inr ⟨rfl, .inr (.inr (by
    show decide (utf8Len (S.lower (pyTake o.keywordLength s)) ≤ 32766) = true
    rw [decide_eq_true_eq]
    have h1 := utf8Len_le (S.lower (pyTake o.keywordLength s))
    have h2 := hl (pyTake o.keywordLength s)
    have h3 : (pyTake o.keywordLength s).length ≤ 8191 := by
      unfold pyTake
      rw [if_pos ho.1, List.length_take]
      have := ho.2
      omega
    omega))⟩
  int := fun i => .inr ⟨rfl, .inr (.inr rfl)⟩
  float := fun f => .inr ⟨rfl, by cases f <;> first | exact .inr (.inl rfl) | exact .inr (.inr rfl)⟩
  date := fun i => .inr ⟨rfl, .inr (.inr rfl)⟩
  boolean := fun i => .inr ⟨rfl, .inr (.inr rfl)⟩
  wkt := fun s g h => ⟨.inr ⟨rfl, .inr (.inr (hP.wkt s g h).1)⟩, .inr ⟨rfl, .inr (.inr (hP.wkt s g h).2)⟩⟩
  geojson := fun s g h => ⟨.inr ⟨rfl, .inr (.inr (hP.geojson s g h).1)⟩, .inr ⟨rfl, .inr (.inr (hP.geojson s g h).2)⟩⟩
  hint := fun a b r n g h => ⟨.inr ⟨rfl, .inr (.inr (hP.hint a b r n g h).1)⟩, .inr ⟨rfl, .inr (.inr (hP.hint a b r n g h).2)⟩⟩
  dict := fun t d d' h => by
    rcases h with h | ⟨h, _⟩
    · exact .inl h
    · cases h

theorem rawFits_canon {t : PType} {v : Value} (h : RawFits S t v) : RawFits S t (canon v) := by
  rcases h with h | ⟨h1, h2⟩
  · exact .inl h
  · cases v <;> first | exact .inr ⟨h1, h2⟩ | cases h1

theorem rawFits_sent {t : PType} {v : Value} (h : RawFits S t v) : LeafFits S t v.sent := by
  rcases h with h | ⟨_, h⟩
  · exact .inl h
  · exact h

theorem madeFrom_shaped (hP : PlacesOk E S) (hl : S.NotLonger) {p : ParsedData} (h : MadeFrom E ShortKeywords p) :
    ShapedDict (LeafFits S) false (sentDict p.parsed) := by
  obtain ⟨data, o, hw, hf, ho, hp⟩ := h
  simp only [realParser] at hp
  split at hp
  · rename_i x hx
    cases hp
    exact sentDict_shaped (L := RawFits S) (fun t v h => rawFits_sent h) false _ (canonDict_shaped (L := RawFits S) (fun t v h => rawFits_canon h) false _
      (parse_shaped (rawFits_leaves hP hl ho) hw hf hx))
  · cases hp

theorem mapStrs {path : PyStr} {b : Bool} (hf : fieldType path = some (.keyword b)) (hd : aget path initialMapping = some (.keyword b))
    : ∀ (l : List PyStr), (∀ s ∈ l, (EsType.keyword b).accepts S (.str s) = true) → ∀ {m : Mapping}, RegularMapping m →
      ∃ m', mapElems S path m (sentList (l.map Value.str)) = some m' ∧ RegularMapping m'
  | [], _, m, h => ⟨m, rfl, h⟩
  | s :: l, hs, m, h => by
    obtain ⟨m', h1, h2⟩ := mapValue_ok hf (.inr hd) (hs s List.mem_cons_self) h
    rw [List.map_cons, sentList, mapElems]
    show ∃ m', (match mapValue S path m (.str s) with | none => none | some m => _) = some m' ∧ _
    rw [h1]
    exact mapStrs hf hd l (fun s hm => hs s (List.mem_cons_of_mem _ hm)) h2

theorem mapDoc_ok {doc : Doc ParsedData} (hs : ShapedDict (LeafFits S) false (sentDict doc.parsed.parsed)) (ht : ShortTexts doc)
    {m : Mapping} (h : RegularMapping m) : ∃ m', mapDoc S m (sentDict doc.toDict) = some m' ∧ RegularMapping m' := by
  have step : ∀ {k v r m}, (∃ m', mapValue S k m v = some m' ∧ RegularMapping m') →
      (∀ m', RegularMapping m' → ∃ m'', mapDoc S m' r = some m'' ∧ RegularMapping m'') → ∃ m'', mapDoc S m ((k, v) :: r) = some m'' ∧ RegularMapping m'' := by
    rintro k v r m ⟨m', h1, h2⟩ hr
    rw [mapDoc, h1]
    exact hr m' h2
  have kw : ∀ s, utf8Len s ≤ 32766 → (EsType.keyword false).accepts S (.str s) = true := fun s h => by
    show decide (utf8Len s ≤ 32766) = true
    rw [decide_eq_true_eq]; exact h
  have e : sentDict doc.toDict = ("id".toList, .str doc.id) :: ("version".toList, .int doc.version) ::
      ("versions".toList, .dict (("gte".toList, .int doc.gte) :: match doc.lt with | some v => [("lt".toList, .int v)] | none => [])) ::
      ("data".toList, .dict (sentDict doc.parsed.parsed)) ::
      ("data_types".toList, .list (sentList (doc.parsed.dataTypes.map Value.str))) ::
      ("parsed_types".toList, .list (sentList (doc.parsed.parsedTypes.map Value.str))) ::
      match doc.next with | some v => [("next".toList, .int v)] | none => [] := by
    unfold Doc.toDict
    cases doc.next <;> cases doc.lt <;> rfl
  rw [e]
  refine step (mapValue_ok (t := .keyword false) (by decide) (.inr (by decide)) (kw _ ht.id) h) (fun m h => ?_)
  refine step (mapValue_ok (t := .date) (by decide) (.inr (by decide)) rfl h) (fun m h => ?_)
  refine step ⟨m, ?_, h⟩ (fun m h => ?_)
  · rw [mapValue, h.initial "versions".toList .dateRange (by decide)]
    dsimp only
    rw [if_pos]
    cases doc.lt <;> simp [rangeOk]
  refine step (mapObject (by decide) (by decide) (fun m h => mapItems_shaped _ (ks := []) (by decide) (.inl rfl) hs h) h) (fun m h => ?_)
  refine step ?_ (fun m h => ?_)
  · rw [mapValue]
    exact mapStrs (b := false) (by decide) (by decide) _ (fun s hm => kw s (ht.dataTypes s hm)) h
  refine step ?_ (fun m h => ?_)
  · rw [mapValue]
    exact mapStrs (b := false) (by decide) (by decide) _ (fun s hm => kw s (ht.parsedTypes s hm)) h
  cases doc.next with
  | none => exact ⟨m, rfl, h⟩
  | some v => exact step (mapValue_ok (t := .date) (by decide) (.inr (by decide)) rfl h) (fun m h => ⟨m, rfl, h⟩)

end Splitgill
