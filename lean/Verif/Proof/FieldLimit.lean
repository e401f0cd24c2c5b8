import Verif.Spec.FieldLimit
import Verif.Proof.Mapping
/-!
# The number of fields of an index
-/

namespace Splitgill

/-! ## The fields that documents add -/

mutual
/-- The paths at which a value has anything. -/
def touched (path : PyStr) : Value → List PyStr
  | .none => []
  | .dict d => path :: touchedDict path d
  | .list l => touchedList path l
  | .bool _ => [path]
  | .int _ => [path]
  | .float _ => [path]
  | .str _ => [path]
def touchedDict (path : PyStr) : Dict → List PyStr
  | [] => []
  | (k, v) :: r => touched (dotted path k) v ++ touchedDict path r
def touchedList (path : PyStr) : List Value → List PyStr
  | [] => []
  | v :: r => touched path v ++ touchedList path r
end

variable {S : EsEnv}

/-- What a step does to the fields: no field changes, names stay different, and only some are added. -/
structure Adds (m m' : Mapping) (l : List PyStr) : Prop where
  mono : ∀ q t, aget q m = some t → aget q m' = some t
  nodup : (akeys m).Nodup → (akeys m').Nodup
  keys : ∀ q ∈ akeys m', q ∈ akeys m ∨ q ∈ l

theorem Adds.refl (m : Mapping) (l : List PyStr) : Adds m m l := ⟨fun _ _ h => h, id, fun _ h => .inl h⟩

theorem Adds.trans {a b c : Mapping} {l l' : List PyStr} (h : Adds a b l) (h' : Adds b c l') : Adds a c (l ++ l') := by
  refine ⟨fun q t hq => h'.mono q t (h.mono q t hq), fun hn => h'.nodup (h.nodup hn), fun q hq => ?_⟩
  rcases h'.keys q hq with hq | hq
  · rcases h.keys q hq with hq | hq
    · exact .inl hq
    · exact .inr (List.mem_append_left _ hq)
  · exact .inr (List.mem_append_right _ hq)

theorem Adds.weaken {a b : Mapping} {l l' : List PyStr} (h : Adds a b l) (hl : ∀ q ∈ l, q ∈ l') : Adds a b l' :=
  ⟨h.mono, h.nodup, fun q hq => (h.keys q hq).imp id (hl q)⟩

theorem Adds.aset {m : Mapping} {path : PyStr} {t : EsType} (h : aget path m = none) : Adds m (aset path t m) [path] := by
  refine ⟨fun q u hq => ?_, nodup_aset, fun q hq => ?_⟩
  · rw [aget_aset]
    split
    · rename_i e
      subst e
      rw [h] at hq
      cases hq
    · exact hq
  · rcases mem_akeys_aset.1 hq with rfl | hq
    · exact .inr (by simp)
    · exact .inl hq

theorem mapLeaf_adds {path : PyStr} {m m' : Mapping} {v : Value} (h : mapLeaf S path m v = some m') : Adds m m' [path] := by
  unfold mapLeaf at h
  split at h
  · cases h; exact .refl _ _
  · split at h
    · cases h; exact .refl _ _
    · cases h
  · rename_i hn
    split at h
    · cases h
    · cases h; exact .aset hn
    · split at h
      · cases h; exact .aset hn
      · cases h

mutual
theorem mapValue_adds : ∀ {v : Value} {path : PyStr} {m m' : Mapping}, mapValue S path m v = some m' → Adds m m' (touched path v)
  | .none, path, m, m', h => by rw [mapValue] at h; cases h; exact .refl _ _
  | .list l, path, m, m', h => by rw [mapValue] at h; rw [touched]; exact mapElems_adds h
  | .bool b, path, m, m', h => by rw [mapValue] at h; rw [touched]; exact mapLeaf_adds h
  | .int b, path, m, m', h => by rw [mapValue] at h; rw [touched]; exact mapLeaf_adds h
  | .float b, path, m, m', h => by rw [mapValue] at h; rw [touched]; exact mapLeaf_adds h
  | .str b, path, m, m', h => by rw [mapValue] at h; rw [touched]; exact mapLeaf_adds h
  | .dict d, path, m, m', h => by
    rw [mapValue] at h
    rw [touched]
    split at h
    · exact (mapItems_adds h).weaken (fun q hq => List.mem_cons_of_mem _ hq)
    · cases h; exact .refl _ _
    · split at h
      · cases h; exact .refl _ _
      · cases h
    · cases h
    · rename_i hn
      split at h
      · exact (Adds.aset hn).trans (mapItems_adds h)
      · cases h; exact (Adds.aset hn).weaken (fun q hq => by simp at hq; simp [hq])
      · cases h
theorem mapElems_adds : ∀ {l : List Value} {path : PyStr} {m m' : Mapping}, mapElems S path m l = some m' → Adds m m' (touchedList path l)
  | [], path, m, m', h => by rw [mapElems] at h; cases h; exact .refl _ _
  | v :: r, path, m, m', h => by
    rw [mapElems] at h
    rw [touchedList]
    split at h
    · cases h
    · rename_i hv
      exact (mapValue_adds hv).trans (mapElems_adds h)
theorem mapItems_adds : ∀ {d : Dict} {path : PyStr} {m m' : Mapping}, mapItems S path m d = some m' → Adds m m' (touchedDict path d)
  | [], path, m, m', h => by rw [mapItems] at h; cases h; exact .refl _ _
  | (k, v) :: r, path, m, m', h => by
    rw [mapItems] at h
    rw [touchedDict]
    split at h
    · cases h
    · rename_i hv
      exact (mapValue_adds hv).trans (mapItems_adds h)
end

/-! ## The fields of parsed data -/

/-- Not a dict or list. -/
def isLeaf : Value → Prop
  | .dict _ => False
  | .list _ => False
  | _ => True

mutual
/-- A value of parsed data at a path: its fields are among those of `A`, and the types in it among those of `T`. -/
def Placed (A : List PyStr → Prop) (T : PType → Prop) : List PyStr → Value → Prop
  | p, .dict d => PlacedDict A T true p d
  | p, .list l => PlacedList A T p l
  | _, _ => True
def PlacedDict (A : List PyStr → Prop) (T : PType → Prop) : Bool → List PyStr → Dict → Prop
  | _, _, [] => True
  | types, p, (k, v) :: r => ((types = true ∧ ∃ t, k = PType.name t ∧ T t ∧ isLeaf v) ∨ (A (p ++ [k]) ∧ Placed A T (p ++ [k]) v)) ∧
      PlacedDict A T types p r
def PlacedList (A : List PyStr → Prop) (T : PType → Prop) : List PyStr → List Value → Prop
  | _, [] => True
  | p, v :: r => Placed A T p v ∧ PlacedList A T p r
end

variable {A : List PyStr → Prop} {T : PType → Prop} {types : Bool} {p : List PyStr}

/-- An item of such a dict. -/
def PlacedItem (A : List PyStr → Prop) (T : PType → Prop) (types : Bool) (p : List PyStr) (kv : PyStr × Value) : Prop :=
  (types = true ∧ ∃ t, kv.1 = PType.name t ∧ T t ∧ isLeaf kv.2) ∨ (A (p ++ [kv.1]) ∧ Placed A T (p ++ [kv.1]) kv.2)

theorem placedDict_iff : ∀ {d : Dict}, PlacedDict A T types p d ↔ ∀ kv ∈ d, PlacedItem A T types p kv
  | [] => by simp [PlacedDict]
  | (k, v) :: r => by rw [PlacedDict, placedDict_iff, List.forall_mem_cons]; rfl

theorem PlacedDict.aset {k : PyStr} {v : Value} {d : Dict} (hv : PlacedItem A T types p (k, v)) (h : PlacedDict A T types p d) :
    PlacedDict A T types p (aset k v d) := by
  rw [placedDict_iff] at *
  intro kv hkv
  rcases mem_aset hkv with rfl | hkv
  · exact hv
  · exact h kv hkv

theorem PlacedDict.aupdate {a b : Dict} (ha : PlacedDict A T types p a) (hb : PlacedDict A T types p b) : PlacedDict A T types p (aupdate a b) := by
  rw [placedDict_iff] at *
  intro kv h
  rcases mem_aupdate h with h | h
  · exact hb kv h
  · exact ha kv h

theorem PlacedDict.asetOpt {t : PType} {v : Option Value} {d : Dict} (h : PlacedDict A T true p d) (ht : T t) (hv : ∀ x, v = some x → isLeaf x) :
    PlacedDict A T true p (asetOpt t.name v d) := by
  unfold Splitgill.asetOpt
  split
  · exact h.aset (.inl ⟨rfl, t, rfl, ht, hv _ rfl⟩)
  · exact h

/-- The types that the parser finds. -/
structure ParserTypes (E : ParseEnv) (T : PType → Prop) : Prop where
  plain : ∀ t, t ≠ .geoPoint → t ≠ .geoShape → T t
  wkt : ∀ s g, E.wkt s = some g → T .geoPoint ∧ T .geoShape
  geojson : ∀ d g, E.geojson d = some g → T .geoPoint ∧ T .geoShape
  hint : ∀ lon lat r n g, E.hintGeo lon lat r n = some g → T .geoPoint ∧ T .geoShape

variable {E : ParseEnv} {o : ParsingOptions}

theorem geoDict_placed {g : PyStr × PyStr} (h : T .geoPoint ∧ T .geoShape) : PlacedDict A T true p (geoDict g) :=
  ⟨.inl ⟨rfl, .geoPoint, rfl, h.1, trivial⟩, .inl ⟨rfl, .geoShape, rfl, h.2, trivial⟩, trivial⟩

theorem parseValue_placed (h : ParserTypes E T) (v : Value) (hv : isLeaf v) : PlacedDict A T true p (parseValue E o v) := by
  have hb : PlacedDict A T true p [(PType.unparsed.name, v), (PType.text.name, .str (strValue E o v)),
      (PType.keyword.name, .str (pyTake o.keywordLength (strValue E o v)))] :=
    ⟨.inl ⟨rfl, .unparsed, rfl, h.plain _ (by decide) (by decide), hv⟩, .inl ⟨rfl, .text, rfl, h.plain _ (by decide) (by decide), trivial⟩,
      .inl ⟨rfl, .keyword, rfl, h.plain _ (by decide) (by decide), trivial⟩, trivial⟩
  unfold parseValue
  refine PlacedDict.asetOpt (PlacedDict.asetOpt (PlacedDict.asetOpt ?_ (h.plain _ (by decide) (by decide)) ?_) (h.plain _ (by decide) (by decide)) ?_)
    (h.plain _ (by decide) (by decide)) ?_
  · split
    · rename_i g hg
      exact hb.aupdate (geoDict_placed (h.wkt _ _ hg))
    · exact hb
  · intro x hx
    obtain ⟨b, _, rfl⟩ := Option.map_eq_some_iff.1 hx
    trivial
  · intro x hx
    unfold parsedNumber at hx
    split at hx
    · cases hx; trivial
    · cases hx; trivial
    · obtain ⟨f, hf, rfl⟩ := Option.map_eq_some_iff.1 hx
      trivial
  · intro x hx
    obtain ⟨i, hi, rfl⟩ := Option.map_eq_some_iff.1 hx
    trivial

theorem addHints_placed : ∀ {hints : List (PyStr × (PyStr × PyStr))} {d d' : Dict},
    (∀ kg ∈ hints, T .geoPoint ∧ T .geoShape) → PlacedDict A T types p d →
    addHints hints d = .ok d' → PlacedDict A T types p d'
  | [], d, d', _, hd, e => by cases e; exact hd
  | (k, g) :: r, d, d', hh, hd, e => by
    rw [addHints] at e
    split at e
    · cases e
    · rename_i x hx
      refine addHints_placed (fun kg hkg => hh kg (List.mem_cons_of_mem _ hkg)) (hd.aset ?_) e
      rcases placedDict_iff.1 hd _ (aget_mem hx) with ⟨ht, t, e1, e2, e3⟩ | ⟨hk, hs⟩
      · exact absurd e3 id
      · refine .inr ⟨hk, ?_⟩
        show Placed A T _ (.dict _)
        rw [Placed]
        have hs : Placed A T (p ++ [k]) (.dict x) := hs
        rw [Placed] at hs
        exact hs.aupdate (geoDict_placed (hh (k, g) List.mem_cons_self))
    · cases e

theorem matchHints_types (h : ParserTypes E T) (d : Dict) (hints : List GeoFieldHint) :
    ∀ kg ∈ matchHints E d hints, T .geoPoint ∧ T .geoShape := by
  unfold matchHints
  suffices hs : ∀ (hints : List GeoFieldHint) (acc : List (PyStr × (PyStr × PyStr))),
      (∀ kg ∈ acc, T .geoPoint ∧ T .geoShape) →
      ∀ kg ∈ hints.foldl (hintStep E d) acc, T .geoPoint ∧ T .geoShape from hs hints [] (fun _ hm => nomatch hm)
  intro hints
  induction hints with
  | nil => exact fun acc h => h
  | cons x hints ih =>
    intro acc ha
    refine ih _ ?_
    unfold hintStep
    split
    · rename_i g hg
      intro kg hkg
      exact h.hint _ _ _ _ _ hg
    · exact ha

theorem assembleDict_placed (h : ParserTypes E T) {b : Bool} {data : Dict} {items x : PResult Dict}
    (hi : PlacedDict A T b p items.parsed) (e : assembleDict E o b data items = .ok x) : PlacedDict A T b p x.parsed := by
  unfold assembleDict at e
  dsimp only at e
  split at e
  · cases e
  · rename_i d hd
    cases e
    refine addHints_placed (matchHints_types h data o.geoHints) (PlacedDict.aupdate ?_ hi) hd
    cases b with
    | false => trivial
    | true =>
      rw [if_pos rfl]
      cases hg : matchGeojson E data with
      | none => trivial
      | some g =>
        refine geoDict_placed ?_
        unfold matchGeojson at hg
        split at hg
        · exact h.geojson _ _ hg
        · cases hg

mutual
theorem parseInner_placed (h : ParserTypes E T) (inList : Bool) : ∀ (v : Value) (p : List PyStr) (x : PResult (Option Value)),
    (∀ q ∈ fieldsOf v, A (p ++ q)) → parseInner E o inList v = .ok x → ∀ y, x.parsed = some y → Placed A T p y
  | .dict [], p, x, _, e, y, hy => by
    cases e
    cases inList
    · cases hy
    · cases hy; trivial
  | .dict (kv :: r), p, x, hf, e, y, hy => by
    rw [parseInner] at e
    cases h1 : parseItems E o (kv :: r) with
    | error _ => rw [h1] at e; cases e
    | ok items =>
      rw [h1] at e
      dsimp only at e
      cases h2 : assembleDict E o true (kv :: r) items with
      | error _ => rw [h2] at e; cases e
      | ok z =>
        rw [h2] at e
        cases e
        cases hy
        rw [Placed]
        rw [fieldsOf] at hf
        exact assembleDict_placed h (parseItems_placed h true (kv :: r) p items hf h1) h2
  | .list [], p, x, _, e, y, hy => by
    cases e
    cases inList
    · cases hy
    · cases hy; trivial
  | .list (v :: r), p, x, hf, e, y, hy => by
    rw [parseInner] at e
    cases h1 : parseElems E o (v :: r) with
    | error _ => rw [h1] at e; cases e
    | ok z =>
      rw [h1] at e
      cases e
      cases hy
      rw [Placed]
      rw [fieldsOf] at hf
      exact parseElems_placed h (v :: r) p z hf h1
  | .none, p, x, _, e, y, hy => by
    cases e
    cases inList
    · cases hy; exact ⟨.inl ⟨rfl, .unparsed, rfl, h.plain _ (by decide) (by decide), trivial⟩, trivial⟩
    · cases hy; trivial
  | .str s, p, x, _, e, y, hy => by
    rw [parseInner] at e
    split at e
    · cases e
      cases inList
      · cases hy; exact ⟨.inl ⟨rfl, .unparsed, rfl, h.plain _ (by decide) (by decide), trivial⟩, trivial⟩
      · cases hy; trivial
    · cases e
      cases hy
      exact parseValue_placed h _ trivial
  | .bool b, p, x, _, e, y, hy => by
    cases e; cases hy
    exact parseValue_placed h _ trivial
  | .int b, p, x, _, e, y, hy => by
    cases e; cases hy
    exact parseValue_placed h _ trivial
  | .float b, p, x, _, e, y, hy => by
    cases e; cases hy
    exact parseValue_placed h _ trivial
theorem parseItems_placed (h : ParserTypes E T) (b : Bool) : ∀ (d : Dict) (p : List PyStr) (x : PResult Dict),
    (∀ q ∈ fieldsOfDict d, A (p ++ q)) → parseItems E o d = .ok x → PlacedDict A T b p x.parsed
  | [], p, x, _, e => by cases e; trivial
  | (k, v) :: r, p, x, hd, e => by
    rw [parseItems] at e
    cases h1 : parseInner E o false v with
    | error _ => rw [h1] at e; cases e
    | ok z =>
      rw [h1] at e
      dsimp only at e
      cases h2 : parseItems E o r with
      | error _ => rw [h2] at e; cases e
      | ok w =>
        rw [h2] at e
        cases e
        rw [fieldsOfDict] at hd
        have hr := parseItems_placed h b r p w (fun q hq => hd q (by simp [hq])) h2
        dsimp only
        cases hz : z.parsed with
        | none => exact hr
        | some y =>
          refine ⟨.inr ⟨hd [k] (by simp), parseInner_placed h false v (p ++ [k]) z (fun q hq => ?_) h1 y hz⟩, hr⟩
          have := hd (k :: q) (by simp [hq])
          simpa using this
theorem parseElems_placed (h : ParserTypes E T) : ∀ (l : List Value) (p : List PyStr) (x : PResult (List Value)),
    (∀ q ∈ fieldsOfList l, A (p ++ q)) → parseElems E o l = .ok x → PlacedList A T p x.parsed
  | [], p, x, _, e => by cases e; trivial
  | v :: r, p, x, hd, e => by
    rw [parseElems] at e
    cases h1 : parseInner E o true v with
    | error _ => rw [h1] at e; cases e
    | ok z =>
      rw [h1] at e
      dsimp only at e
      cases h2 : parseElems E o r with
      | error _ => rw [h2] at e; cases e
      | ok w =>
        rw [h2] at e
        cases e
        rw [fieldsOfList] at hd
        refine ⟨?_, parseElems_placed h r p w (fun q hm => hd q (by simp [hm])) h2⟩
        cases hz : z.parsed with
        | none => trivial
        | some y => exact parseInner_placed h true v p z (fun q hm => hd q (by simp [hm])) h1 y hz
end

mutual
theorem canon_placed : ∀ (v : Value) (p : List PyStr), Placed A T p v → Placed A T p (canon v)
  | .dict d, p, h => by rw [canon, Placed]; rw [Placed] at h; exact canonDict_placed true d p h
  | .list l, p, h => by rw [canon, Placed]; rw [Placed] at h; exact canonList_placed l p h
  | .none, _, h => h
  | .bool _, _, h => h
  | .int _, _, h => h
  | .float _, _, h => h
  | .str _, _, h => h
theorem canonDict_placed (b : Bool) : ∀ (d : Dict) (p : List PyStr), PlacedDict A T b p d → PlacedDict A T b p (canonDict d)
  | [], _, h => h
  | (k, v) :: r, p, h => by
    rw [canonDict]
    have hr := canonDict_placed b r p h.2
    rw [placedDict_iff] at hr ⊢
    intro kv hkv
    have := (insertBy_perm (le := fun a b : PyStr × Value => strLe a.1 b.1) (k, canon v) (canonDict r)).mem_iff.1 hkv
    rcases List.mem_cons.1 this with rfl | hm
    · rcases h.1 with ⟨ht, t, e, hl, hv⟩ | ⟨hk, hs⟩
      · refine .inl ⟨ht, t, e, hl, ?_⟩
        revert hv
        cases v <;> exact id
      · exact .inr ⟨hk, canon_placed v _ hs⟩
    · exact hr kv hm
theorem canonList_placed : ∀ (l : List Value) (p : List PyStr), PlacedList A T p l → PlacedList A T p (canonList l)
  | [], _, h => h
  | v :: r, p, h => ⟨canon_placed v p h.1, canonList_placed r p h.2⟩
end

mutual
theorem sent_placed : ∀ (v : Value) (p : List PyStr), Placed A T p v → Placed A T p v.sent
  | .dict d, p, h => by rw [Value.sent, Placed]; rw [Placed] at h; exact sentDict_placed true d p h
  | .list l, p, h => by rw [Value.sent, Placed]; rw [Placed] at h; exact sentList_placed l p h
  | .none, _, h => h
  | .bool _, _, h => h
  | .int _, _, h => h
  | .float f, _, h => by cases f <;> trivial
  | .str _, _, h => h
theorem sentDict_placed (b : Bool) : ∀ (d : Dict) (p : List PyStr), PlacedDict A T b p d → PlacedDict A T b p (sentDict d)
  | [], _, h => h
  | (k, v) :: r, p, h => by
    rw [sentDict]
    refine ⟨?_, sentDict_placed b r p h.2⟩
    rcases h.1 with ⟨ht, t, e, hl, hv⟩ | ⟨hk, hs⟩
    · refine .inl ⟨ht, t, e, hl, ?_⟩
      cases v with
      | float f => cases f <;> trivial
      | dict _ => exact hv
      | list _ => exact hv
      | _ => trivial
    · exact .inr ⟨hk, sent_placed v _ hs⟩
theorem sentList_placed : ∀ (l : List Value) (p : List PyStr), PlacedList A T p l → PlacedList A T p (sentList l)
  | [], _, h => h
  | v :: r, p, h => ⟨sent_placed v p h.1, sentList_placed r p h.2⟩
end

/-! ## Their paths in the index -/

/-- The path in the index of a field. -/
def indexedPath (p : List PyStr) : PyStr := p.foldl dotted "data".toList

theorem indexedPath_child (p : List PyStr) (k : PyStr) : indexedPath (p ++ [k]) = dotted (indexedPath p) k := by
  simp [indexedPath]

/-- The path of a field, or of a type in it. -/
def AtField (A : List PyStr → Prop) (T : PType → Prop) (q : PyStr) : Prop :=
  ∃ p, A p ∧ (q = indexedPath p ∨ ∃ t, T t ∧ q = dotted (indexedPath p) (PType.name t))

theorem touched_leaf {v : Value} (h : isLeaf v) {path q : PyStr} (hq : q ∈ touched path v) : q = path := by
  cases v with
  | none => cases hq
  | dict _ => exact absurd h id
  | list _ => exact absurd h id
  | _ => simpa [touched] using hq

mutual
theorem touched_placed : ∀ (v : Value) (p : List PyStr), A p → Placed A T p v → ∀ q ∈ touched (indexedPath p) v, AtField A T q
  | .none, _, _, _, q, hq => by cases hq
  | .dict d, p, ha, h, q, hq => by
    rw [touched] at hq
    rw [Placed] at h
    rcases List.mem_cons.1 hq with rfl | hq
    · exact ⟨p, ha, .inl rfl⟩
    · exact touchedDict_placed true d p (fun _ => ha) h q hq
  | .list l, p, ha, h, q, hq => by
    rw [touched] at hq
    rw [Placed] at h
    exact touchedList_placed l p ha h q hq
  | .bool _, p, ha, _, q, hq => ⟨p, ha, .inl (by simpa [touched] using hq)⟩
  | .int _, p, ha, _, q, hq => ⟨p, ha, .inl (by simpa [touched] using hq)⟩
  | .float _, p, ha, _, q, hq => ⟨p, ha, .inl (by simpa [touched] using hq)⟩
  | .str _, p, ha, _, q, hq => ⟨p, ha, .inl (by simpa [touched] using hq)⟩
theorem touchedDict_placed (b : Bool) : ∀ (d : Dict) (p : List PyStr), (b = true → A p) → PlacedDict A T b p d →
    ∀ q ∈ touchedDict (indexedPath p) d, AtField A T q
  | [], _, _, _, q, hq => by cases hq
  | (k, v) :: r, p, ha, h, q, hq => by
    rw [touchedDict] at hq
    rcases List.mem_append.1 hq with hq | hq
    · rcases h.1 with ⟨ht, t, rfl, hT, hv⟩ | ⟨hk, hs⟩
      · exact ⟨p, ha ht, .inr ⟨t, hT, touched_leaf hv hq⟩⟩
      · rw [← indexedPath_child] at hq
        exact touched_placed v _ hk hs q hq
    · exact touchedDict_placed b r p ha h.2 q hq
theorem touchedList_placed : ∀ (l : List Value) (p : List PyStr), A p → PlacedList A T p l → ∀ q ∈ touchedList (indexedPath p) l, AtField A T q
  | [], _, _, _, q, hq => by cases hq
  | v :: r, p, ha, h, q, hq => by
    rw [touchedList] at hq
    rcases List.mem_append.1 hq with hq | hq
    · exact touched_placed v p ha h.1 q hq
    · exact touchedList_placed r p ha h.2 q hq
end

/-- All fields that an index can have. -/
def allFields (ts : List PType) (ps : List (List PyStr)) : List PyStr :=
  akeys initialMapping ++ "data".toList :: ps.flatMap (fun p => indexedPath p :: ts.map (fun t => dotted (indexedPath p) t.name))

theorem allFields_length (ts : List PType) : ∀ ps : List (List PyStr), (allFields ts ps).length = 10 + (1 + ts.length) * ps.length
  | [] => rfl
  | p :: ps => by
    have := allFields_length ts ps
    unfold allFields at this ⊢
    simp only [List.length_append, List.length_cons, List.flatMap_cons, List.length_map] at this ⊢
    rw [Nat.mul_succ]
    omega

theorem atField_all {ts : List PType} {ps : List (List PyStr)} {q : PyStr} (h : AtField (· ∈ ps) (· ∈ ts) q) : q ∈ allFields ts ps := by
  obtain ⟨p, hp, h⟩ := h
  unfold allFields
  refine List.mem_append_right _ (List.mem_cons_of_mem _ (List.mem_flatMap.2 ⟨p, hp, ?_⟩))
  rcases h with rfl | ⟨t, ht, rfl⟩
  · exact List.mem_cons_self
  · exact List.mem_cons_of_mem _ (List.mem_map_of_mem (f := fun t => dotted (indexedPath p) t.name) ht)

theorem placed_root {d : Dict} (h : PlacedDict A T false [] d) : ∀ q ∈ touchedDict "data".toList d, AtField A T q :=
  fun q hq => touchedDict_placed false d [] (fun e => nomatch e) h q hq

theorem madeFrom_placed {ts : List PType} {ps : List (List PyStr)} {opts : ParsingOptions → Prop} (ht : ParserTypes E (· ∈ ts)) {x : ParsedData}
    (h : MadeFromFields E opts ps x) : PlacedDict (· ∈ ps) (· ∈ ts) false [] (sentDict x.parsed) := by
  obtain ⟨data, o, _, _, _, hf, hp⟩ := h
  simp only [realParser] at hp
  split at hp
  · rename_i y hy
    cases hp
    refine sentDict_placed false _ _ (canonDict_placed false _ _ ?_)
    unfold parse parseDict at hy
    cases h1 : parseItems E o data with
    | error _ => rw [h1] at hy; cases hy
    | ok items =>
      rw [h1] at hy
      dsimp only at hy
      cases h2 : assembleDict E o false data items with
      | error _ => rw [h2] at hy; cases hy
      | ok z =>
        rw [h2] at hy
        dsimp only at hy
        split at hy
        · cases hy
          exact assembleDict_placed ht (parseItems_placed ht false data [] items (fun q hq => hf q hq) h1) h2
        · cases hy
        · cases hy
  · cases hp

/-! ## Documents -/

theorem mapValue_range {path : PyStr} {m m' : Mapping} {d : Dict} (hg : aget path m = some .dateRange) (h : mapValue S path m (.dict d) = some m') :
    m' = m := by
  rw [mapValue, hg] at h
  dsimp only at h
  split at h
  · cases h; rfl
  · cases h

theorem mapDoc_adds {doc : Doc ParsedData} {m m' : Mapping} (hm : RegularMapping m) (h : mapDoc S m (sentDict doc.toDict) = some m') :
    Adds m m' (akeys initialMapping ++ "data".toList :: touchedDict "data".toList (sentDict doc.parsed.parsed)) := by
  have e : sentDict doc.toDict = ("id".toList, .str doc.id) :: ("version".toList, .int doc.version) ::
      ("versions".toList, .dict (("gte".toList, .int doc.gte) :: match doc.lt with | some v => [("lt".toList, .int v)] | none => [])) ::
      ("data".toList, .dict (sentDict doc.parsed.parsed)) ::
      ("data_types".toList, .list (sentList (doc.parsed.dataTypes.map Value.str))) ::
      ("parsed_types".toList, .list (sentList (doc.parsed.parsedTypes.map Value.str))) ::
      (match doc.next with | some v => [("next".toList, .int v)] | none => []) := by
    obtain ⟨id, version, gte, lt, next, parsed⟩ := doc
    cases lt <;> cases next <;> rfl
  have strs : ∀ (path : PyStr) (l : List PyStr), ∀ q ∈ touched path (.list (sentList (l.map Value.str))), q = path := by
    intro path l q hq
    rw [touched] at hq
    induction l with
    | nil => cases hq
    | cons s l ih =>
      rw [List.map_cons, sentList, touchedList] at hq
      rcases List.mem_append.1 hq with hq | hq
      · simpa [Value.sent, touched] using hq
      · exact ih hq
  have step : ∀ {k v r} {m m' : Mapping} {l : List PyStr}, mapDoc S m ((k, v) :: r) = some m' →
      (∀ m'', mapValue S k m v = some m'' → Adds m m'' l) → (∀ m'', Adds m m'' l → mapDoc S m'' r = some m' → Adds m'' m' l) → Adds m m' l := by
    intro k v r m m' l h h1 h2
    rw [mapDoc] at h
    split at h
    · cases h
    · rename_i m'' hv
      have := h1 m'' hv
      exact (this.trans (h2 m'' this h)).weaken (fun q hq => by simpa using hq)
  rw [e] at h
  refine step h (fun m1 hv => (mapValue_adds hv).weaken ?_) (fun m1 a1 h => ?_)
  · intro q hq
    rw [touched, List.mem_singleton] at hq
    subst hq
    exact List.mem_append_left _ (by decide)
  refine step h (fun m2 hv => (mapValue_adds hv).weaken ?_) (fun m2 a2 h => ?_)
  · intro q hq
    rw [touched, List.mem_singleton] at hq
    subst hq
    exact List.mem_append_left _ (by decide)
  refine step h (fun m3 hv => ?_) (fun m3 a3 h => ?_)
  · have hg : aget "versions".toList m2 = some .dateRange := a2.mono _ _ (a1.mono _ _ (hm.initial _ _ (by decide)))
    rw [mapValue_range hg hv]
    exact .refl _ _
  refine step h (fun m4 hv => (mapValue_adds hv).weaken ?_) (fun m4 a4 h => ?_)
  · intro q hq
    rw [touched] at hq
    exact List.mem_append_right _ hq
  refine step h (fun m5 hv => (mapValue_adds hv).weaken ?_) (fun m5 a5 h => ?_)
  · intro q hq
    rw [strs _ _ q hq]
    exact List.mem_append_left _ (by decide)
  refine step h (fun m6 hv => (mapValue_adds hv).weaken ?_) (fun m6 a6 h => ?_)
  · intro q hq
    rw [strs _ _ q hq]
    exact List.mem_append_left _ (by decide)
  cases hn : doc.next with
  | none =>
    rw [hn] at h
    cases h
    exact .refl _ _
  | some v =>
    rw [hn] at h
    refine step h (fun m7 hv => (mapValue_adds hv).weaken ?_) (fun m7 a7 h => ?_)
    · intro q hq
      rw [touched, List.mem_singleton] at hq
      subst hq
      exact List.mem_append_left _ (by decide)
    · cases h
      exact .refl _ _

/-- Documents with these fields are accepted if all their fields are within the limit. -/
theorem limitDocs_ok (hP : PlacesOk E S) (hl : S.NotLonger) {ts : List PType} (ht : ParserTypes E (· ∈ ts)) {ps : List (List PyStr)} {limit : Nat}
    (hlim : 10 + (1 + ts.length) * ps.length ≤ limit) : ∀ (docs : List (Doc ParsedData)),
    (∀ doc ∈ docs, MadeFromFields E ShortKeywords ps doc.parsed ∧ ShortTexts doc) → ∀ (m : Mapping), RegularMapping m → (akeys m).Nodup →
    (∀ q ∈ akeys m, q ∈ allFields ts ps) → ∃ m', limitDocs S limit m (docs.map (fun d => sentDict d.toDict)) = some m'
  | [], _, m, _, _, _ => ⟨m, rfl⟩
  | doc :: docs, hd, m, hr, hn, hk => by
    obtain ⟨h1, h2⟩ := hd doc List.mem_cons_self
    have h1' : MadeFrom E ShortKeywords doc.parsed := by
      obtain ⟨data, o, a, b, c, _, e⟩ := h1
      exact ⟨data, o, a, b, c, e⟩
    obtain ⟨m', h3, h4⟩ := mapDoc_ok (madeFrom_shaped hP hl h1') h2 hr
    have ha := mapDoc_adds hr h3
    have hn' := ha.nodup hn
    have hk' : ∀ q ∈ akeys m', q ∈ allFields ts ps := by
      intro q hq
      rcases ha.keys q hq with hq | hq
      · exact hk q hq
      · rcases List.mem_append.1 hq with hq | hq
        · exact List.mem_append_left _ hq
        · rcases List.mem_cons.1 hq with rfl | hq
          · exact List.mem_append_right _ List.mem_cons_self
          · exact atField_all (placed_root (madeFrom_placed ht h1) q hq)
    have hlen : m'.length ≤ limit := by
      have h5 := (List.subperm_of_subset hn' hk').length_le
      rw [allFields_length] at h5
      have : (akeys m').length = m'.length := by simp [akeys]
      omega
    have : limitDoc S limit m (sentDict doc.toDict) = some m' := by
      unfold limitDoc
      rw [h3]
      exact if_pos hlen
    rw [List.map_cons, limitDocs, this]
    exact limitDocs_ok hP hl ht hlim docs (fun d hm => hd d (List.mem_cons_of_mem _ hm)) m' h4 hn' hk'

end Splitgill
