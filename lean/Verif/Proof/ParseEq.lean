import Verif.Proof.Parse4
import Verif.Proof.PatchCongr
/-!
# Lemmas: parsing does not depend on the order of keys
-/

namespace Splitgill

variable {E : ParseEnv} {o : ParsingOptions}

/-- Equal but for the order of keys, without repeated keys. -/
abbrev SE (a b : Value) : Prop := VR strictScalarEq a b

theorem SE.refl {v : Value} (h : v.wf = true) : SE v v := VR_refl (fun _ hv => (strictScalarEq_iff hv).2 rfl) h
theorem SE.symm {v w : Value} (h : SE v w) : SE w v := ⟨h.2.1, h.1, strictEq_symm h.1 h.2.1 h.2.2⟩
theorem SE.trans {u v w : Value} (h : SE u v) (h' : SE v w) : SE u w := ⟨h.1, h'.2.1, strictEq_trans h.2.2 h'.2.2⟩

theorem SE.scalar {v w : Value} (hv : v.isScalar = true) (h : SE v w) : v = w := by
  have := h.2.2
  rw [eqWith_scalar_left hv, Bool.and_eq_true] at this
  exact (strictScalarEq_iff hv).1 this.2

theorem SE.dtype {v w : Value} (h : SE v w) : v.dtype = w.dtype := by
  cases v with
  | list l => obtain ⟨l', rfl⟩ := VR_left_list h; rfl
  | dict d => obtain ⟨d', rfl⟩ := VR_left_dict h; rfl
  | _ => rw [h.scalar rfl]

theorem DR.length {d d' : Dict} (h : DR strictScalarEq d d') : d.length = d'.length := by
  have := (VR_dict.2 h).2.2
  rw [eqWith_dict_iff] at this
  exact this.1

theorem perm_aerase {k : PyStr} {w : Value} : ∀ {d : Dict}, aget k d = some w → d.Perm ((k, w) :: aerase k d)
  | [], h => by cases h
  | (k', w') :: r, h => by
    rw [aget_cons] at h
    unfold aerase
    split at h
    · rename_i e; cases h; subst e; simp
    · rename_i e
      rw [if_neg e]
      exact ((perm_aerase h).cons _).trans (.swap _ _ _)

/-- Lists made of the items of related dicts. -/
theorem DR.flatMap_perm {β : Type} {f g : PyStr × Value → List β} : ∀ {d d' : Dict}, DR strictScalarEq d d' →
    (∀ k v w, (k, v) ∈ d → (k, w) ∈ d' → SE v w → (f (k, v)).Perm (g (k, w))) → (d.flatMap f).Perm (d'.flatMap g)
  | [], d', h, _ => by
    have := h.length
    have : d' = [] := List.length_eq_zero_iff.1 this.symm
    subst this; exact .refl _
  | (k, v) :: d, d', h, hf => by
    rcases h.2.2 k with ⟨e, _⟩ | ⟨v', w, hv, hw, hr⟩
    · rw [aget_cons, if_pos rfl] at e; cases e
    · rw [aget_cons, if_pos rfl] at hv; cases hv
      have hp := perm_aerase hw
      have hd : DR strictScalarEq d (aerase k d') := by
        have hn := h.1
        rw [akeys_cons, List.nodup_cons] at hn
        refine ⟨hn.2, nodup_aerase h.2.1, fun k' => ?_⟩
        rw [aget_aerase _ _ h.2.1]
        split
        · rename_i e; subst e; exact .inl ⟨aget_eq_none_iff.2 hn.1, rfl⟩
        · rename_i e
          have := h.2.2 k'
          rwa [aget_cons, if_neg e] at this
      refine List.Perm.trans ?_ (hp.symm.flatMap_right g)
      rw [List.flatMap_cons, List.flatMap_cons]
      exact (hf k v w List.mem_cons_self (aget_mem hw) hr).append
        (hd.flatMap_perm (fun k' v' w' h1 h2 => hf k' v' w' (List.mem_cons_of_mem _ h1) ((aerase_sublist k d').subset h2)))

theorem OR.map {a b : Option Value} (h : OR strictScalarEq a b) {f : Value → Value} (hf : ∀ v w, SE v w → SE (f v) (f w)) :
    OR strictScalarEq (a.map f) (b.map f) := by
  rcases h with ⟨rfl, rfl⟩ | ⟨v, w, rfl, rfl, h⟩
  · exact .inl ⟨rfl, rfl⟩
  · exact .inr ⟨_, _, rfl, rfl, hf v w h⟩

/-! ## What is known about the results -/

/-- Results with parsed data that is related by `R`, and with the same types. -/
structure PSim {α : Type} (R : α → α → Prop) (x y : PResult α) : Prop where
  parsed : R x.parsed y.parsed
  dataTypes : x.dataTypes.Perm y.dataTypes
  parsedTypes : x.parsedTypes.Perm y.parsedTypes

/-- The types in a value. -/
def innerTypes (E : ParseEnv) (o : ParsingOptions) (sel : PResult (Option Value) → List PyStr) (v : Value) : List PyStr :=
  match parseInner E o false v with
  | .ok x => sel x
  | .error _ => []

theorem parseItems_types : ∀ {d : Dict} {x}, parseItems E o d = .ok x →
    x.dataTypes = d.flatMap (fun kv => (innerTypes E o PResult.dataTypes kv.2).map (dotted kv.1)) ∧
    x.parsedTypes = d.flatMap (fun kv => (innerTypes E o PResult.parsedTypes kv.2).map (dotted kv.1))
  | [], x, h => by cases h; exact ⟨rfl, rfl⟩
  | (k, v) :: r, x, h => by
    rw [parseItems] at h
    split at h
    · cases h
    · rename_i x1 h1
      split at h
      · cases h
      · rename_i y hy
        cases h
        obtain ⟨i1, i2⟩ := parseItems_types hy
        simp only [List.flatMap_cons, innerTypes, h1]
        exact ⟨by rw [i1]; rfl, by rw [i2]; rfl⟩

theorem parseItems_inner {d : Dict} {x} (h : parseItems E o d = .ok x) : ∀ {k v}, (k, v) ∈ d →
    ∃ y, parseInner E o false v = .ok y := by
  induction d generalizing x with
  | nil => intro k v h; cases h
  | cons kv r ih =>
    obtain ⟨k', v'⟩ := kv
    rw [parseItems] at h
    split at h
    · cases h
    · rename_i x1 h1
      split at h
      · cases h
      · rename_i y hy
        intro k v hm
        rcases List.mem_cons.1 hm with e | hm
        · cases e; exact ⟨_, h1⟩
        · exact ih hy hm

theorem aget_parseItems_none {d : Dict} {x} (h : parseItems E o d = .ok x) {k} (hk : aget k d = none) : aget k x.parsed = none := by
  rw [aget_eq_none_iff] at hk ⊢
  exact fun hm => hk ((parseItems_keys h).subset hm)

/-- The loop of `parse_dict`. -/
theorem parseItems_eq {d d' : Dict} (hd : DR strictScalarEq d d')
    (ih : ∀ k v w, (k, v) ∈ d → SE v w → ∀ x, parseInner E o false v = .ok x → ∃ y, parseInner E o false w = .ok y ∧
      PSim (OR strictScalarEq) x y) {x} (h : parseItems E o d = .ok x) :
    ∃ y, parseItems E o d' = .ok y ∧ PSim (DR strictScalarEq) x y := by
  have hmem : ∀ k w, (k, w) ∈ d' → ∃ v, (k, v) ∈ d ∧ SE v w := by
    intro k w hw
    rcases hd.2.2 k with ⟨_, e⟩ | ⟨v, w', hv, hw', hr⟩
    · rw [aget_of_mem hd.2.1 hw] at e; cases e
    · rw [aget_of_mem hd.2.1 hw] at hw'; cases hw'
      exact ⟨v, aget_mem hv, hr⟩
  obtain ⟨y, hy⟩ := parseItems_total (E := E) (o := o) (d := d') (by
    intro k w hw
    obtain ⟨v, hv, hr⟩ := hmem k w hw
    obtain ⟨x', hx'⟩ := parseItems_inner h hv
    obtain ⟨y', hy', _⟩ := ih k v w hv hr x' hx'
    exact ⟨y', hy'⟩)
  refine ⟨y, hy, ⟨(parseItems_keys h).nodup hd.1, (parseItems_keys hy).nodup hd.2.1, fun k => ?_⟩, ?_, ?_⟩
  · rcases hd.2.2 k with ⟨e, e'⟩ | ⟨v, w, hv, hw, hr⟩
    · exact .inl ⟨aget_parseItems_none h e, aget_parseItems_none hy e'⟩
    · obtain ⟨x', a1, a2⟩ := parseItems_get h hd.1 hv
      obtain ⟨y', b1, b2⟩ := parseItems_get hy hd.2.1 hw
      obtain ⟨y'', c1, c2⟩ := ih k v w (aget_mem hv) hr x' a1
      rw [b1] at c1; cases c1
      rw [a2, b2]; exact c2.parsed
  · rw [(parseItems_types h).1, (parseItems_types hy).1]
    refine hd.flatMap_perm (fun k v w h1 _ hr => ?_)
    obtain ⟨x', a1⟩ := parseItems_inner h h1
    obtain ⟨y', c1, c2⟩ := ih k v w h1 hr x' a1
    simp only [innerTypes, a1, c1]
    exact c2.dataTypes.map _
  · rw [(parseItems_types h).2, (parseItems_types hy).2]
    refine hd.flatMap_perm (fun k v w h1 _ hr => ?_)
    obtain ⟨x', a1⟩ := parseItems_inner h h1
    obtain ⟨y', c1, c2⟩ := ih k v w h1 hr x' a1
    simp only [innerTypes, a1, c1]
    exact c2.parsedTypes.map _

/-- The loop of `parse_list`. -/
theorem parseElems_eq : ∀ {l l' : List Value}, List.Forall₂ SE l l' →
    (∀ v w, v ∈ l → SE v w → ∀ x, parseInner E o true v = .ok x → ∃ y, parseInner E o true w = .ok y ∧
      PSim (OR strictScalarEq) x y) → ∀ {x}, parseElems E o l = .ok x →
    ∃ y, parseElems E o l' = .ok y ∧ PSim (List.Forall₂ SE) x y := by
  intro l l' hl
  induction hl with
  | nil => intro _ x h; exact ⟨x, h, by cases h; exact ⟨.nil, .refl _, .refl _⟩⟩
  | @cons v w l l' hvw _ ihl =>
    intro ih x h
    rw [parseElems] at h
    split at h
    · cases h
    · rename_i x1 h1
      split at h
      · cases h
      · rename_i y hy
        cases h
        obtain ⟨y1, a1, a2⟩ := ih v w List.mem_cons_self hvw x1 h1
        obtain ⟨y2, b1, b2⟩ := ihl (fun v w hv => ih v w (List.mem_cons_of_mem _ hv)) hy
        refine ⟨_, by rw [parseElems, a1, b1], ⟨.cons ?_ b2.parsed, ?_, ?_⟩⟩
        · rcases a2.parsed with ⟨e, e'⟩ | ⟨p, q, e, e', hr⟩
          · rw [e, e']; exact SE.refl rfl
          · rw [e, e']; exact hr
        · exact (a2.dataTypes.map _).append b2.dataTypes
        · exact a2.parsedTypes.append b2.parsedTypes

/-! ## Dicts -/

theorem DR_aupdate_right {b d d' : Dict} (hb : (Value.dict b).wf = true) (h : DR strictScalarEq d d') :
    DR strictScalarEq (aupdate b d) (aupdate b d') := by
  have hb' := wf_dict_iff.1 hb
  refine ⟨nodup_aupdate hb'.1, nodup_aupdate hb'.1, fun k => ?_⟩
  rw [aget_aupdate k d b h.1, aget_aupdate k d' b h.2.1]
  rcases h.2.2 k with ⟨e, e'⟩ | ⟨v, w, e, e', hr⟩
  · rw [e, e']
    cases hk : aget k b with
    | none => exact .inl ⟨rfl, rfl⟩
    | some v => exact .inr ⟨v, v, rfl, rfl, SE.refl (hb'.2 k v (aget_mem hk))⟩
  · rw [e, e']; exact .inr ⟨v, w, rfl, rfl, hr⟩

theorem wf_geoDict (g : PyStr × PyStr) : (Value.dict (geoDict g)).wf = true := by
  rw [wf_dict_iff]
  refine ⟨by rw [akeys_geoDict]; exact geoTypes_nodup, fun k v h => ?_⟩
  simp only [geoDict, List.mem_cons, Prod.mk.injEq, List.not_mem_nil, or_false] at h
  rcases h with ⟨_, rfl⟩ | ⟨_, rfl⟩ <;> rfl

theorem wf_geoBase (g : Option (PyStr × PyStr)) : (Value.dict ((g.map geoDict).getD [])).wf = true := by
  cases g with
  | none => rfl
  | some g => exact wf_geoDict g

theorem addHints_eq : ∀ (hs : List (PyStr × (PyStr × PyStr))) {p q p' : Dict}, DR strictScalarEq p q → addHints hs p = .ok p' →
    ∃ q', addHints hs q = .ok q' ∧ DR strictScalarEq p' q'
  | [], p, q, p', h, hp => by cases hp; exact ⟨q, rfl, h⟩
  | (k, g) :: r, p, q, p', h, hp => by
    rw [addHints] at hp
    split at hp
    · cases hp
    · rename_i d hd
      rcases h.2.2 k with ⟨e, _⟩ | ⟨v, w, hv, hw, hr⟩
      · rw [hd] at e; cases e
      · rw [hd] at hv; cases hv
        obtain ⟨d', rfl⟩ := VR_left_dict hr
        rw [addHints, hw]
        refine addHints_eq r (DR_aset h (VR_dict.2 ?_)) hp
        exact DR_aupdate (fun _ hv => (strictScalarEq_iff hv).2 rfl) (wf_dict_iff.1 (wf_geoDict g)).2 (VR_dict.1 hr)
    · cases hp

theorem getOrEmpty_eq {d d' : Dict} (h : DR strictScalarEq d d') (k : PyStr) : SE (getOrEmpty k d) (getOrEmpty k d') := by
  unfold getOrEmpty
  rcases h.2.2 k with ⟨e, e'⟩ | ⟨v, w, e, e', hr⟩
  · rw [e, e']; exact SE.refl rfl
  · rw [e, e']; exact hr

theorem matchHint_eq (hE : E.IgnoresOrder) {d d' : Dict} (h : DR strictScalarEq d d') (hint : GeoFieldHint) :
    matchHint E d hint = matchHint E d' hint := by
  have h1 := getOrEmpty_eq h hint.lonField
  have h2 := getOrEmpty_eq h hint.latField
  refine hE.hint _ _ _ _ _ _ _ h1.1 h1.2.1 h1.2.2 h2.1 h2.2.1 h2.2.2 ?_
  cases optTruthy hint.radiusField with
  | none => exact .inl ⟨rfl, rfl⟩
  | some r =>
    have h3 := getOrEmpty_eq h r
    exact .inr ⟨_, _, rfl, rfl, h3.1, h3.2.1, h3.2.2⟩

theorem matchHints_eq (hE : E.IgnoresOrder) {d d' : Dict} (h : DR strictScalarEq d d') (hints : List GeoFieldHint) :
    matchHints E d hints = matchHints E d' hints := by
  unfold matchHints
  congr 1
  funext acc hint
  unfold hintStep
  rw [matchHint_eq hE h]

theorem matchGeojson_eq (hE : E.IgnoresOrder) {d d' : Dict} (h : DR strictScalarEq d d') :
    matchGeojson E d = matchGeojson E d' := by
  have hh : ∀ k, ahas k d = ahas k d' := by
    intro k
    unfold ahas
    rcases h.2.2 k with ⟨e, e'⟩ | ⟨v, w, e, e', hr⟩ <;> rw [e, e'] <;> rfl
  have := VR_dict.2 h
  unfold matchGeojson
  rw [hh, hh, hE.geojson d d' this.1 this.2.1 this.2.2]

theorem assembleDict_eq (hE : E.IgnoresOrder) {c : Bool} {d d' : Dict} {i i' x : PResult Dict} (hd : DR strictScalarEq d d')
    (hi : PSim (DR strictScalarEq) i i') (h : assembleDict E o c d i = .ok x) :
    ∃ y, assembleDict E o c d' i' = .ok y ∧ PSim (DR strictScalarEq) x y := by
  unfold assembleDict at h ⊢
  simp only [] at h ⊢
  rw [← matchHints_eq hE hd, ← matchGeojson_eq hE hd]
  split at h
  · cases h
  · rename_i p hp
    cases h
    obtain ⟨q, hq, hr⟩ := addHints_eq _ (DR_aupdate_right (wf_geoBase _) hi.parsed) hp
    rw [hq]
    refine ⟨_, rfl, hr, ?_, ?_⟩
    · refine List.Perm.append ?_ hi.dataTypes
      have := hd.flatMap_perm (f := fun kv => [dotted kv.1 kv.2.dtype.name]) (g := fun kv => [dotted kv.1 kv.2.dtype.name])
        (fun k v w _ _ hr => by simp [hr.dtype])
      simpa [List.flatMap_singleton', ← List.map_eq_flatMap] using this
    · exact (hi.parsedTypes.append_left _).append_right _

/-! ## Values -/

theorem wf_parseValue {v : Value} (hv : v.isScalar = true) : (Value.dict (parseValue E o v)).wf = true := by
  rw [wf_dict_iff]
  refine ⟨nodup_parseValue v, fun k w h => wf_scalar (parseValue_scalar (E := E) (o := o) hv (aget_of_mem (nodup_parseValue v) h))⟩

theorem setOf_perm {l l' : List PyStr} (h : l.Perm l') : (setOf strEq l).Perm (setOf strEq l') :=
  (List.perm_ext_iff_of_nodup (nodup_setOf_str l) (nodup_setOf_str l')).2 (fun s => by rw [mem_setOf_str, mem_setOf_str, h.mem_iff])

theorem parseInner_scalar_eq {v : Value} (hv : v.isScalar = true) (c : Bool) :
    ∃ x, parseInner E o c v = .ok x ∧ PSim (OR strictScalarEq) x x := by
  have key : ∀ (p : Value) (a b : List PyStr), p.wf = true → PSim (OR strictScalarEq) ⟨some p, a, b⟩ ⟨some p, a, b⟩ :=
    fun p a b hp => ⟨.inr ⟨p, p, rfl, rfl, SE.refl hp⟩, .refl _, .refl _⟩
  cases v with
  | list l => cases hv
  | dict d => cases hv
  | none => exact ⟨_, rfl, key _ _ _ (by cases c <;> rfl)⟩
  | bool b => exact ⟨_, rfl, key _ _ _ (wf_parseValue rfl)⟩
  | int b => exact ⟨_, rfl, key _ _ _ (wf_parseValue rfl)⟩
  | float b => exact ⟨_, rfl, key _ _ _ (wf_parseValue rfl)⟩
  | str s =>
    rw [parseInner]
    split
    · exact ⟨_, rfl, key _ _ _ (by cases c <;> rfl)⟩
    · exact ⟨_, rfl, key _ _ _ (wf_parseValue rfl)⟩

theorem parseInner_eq (hE : E.IgnoresOrder) : ∀ v w : Value, SE v w → ∀ c x, parseInner E o c v = .ok x →
    ∃ y, parseInner E o c w = .ok y ∧ PSim (OR strictScalarEq) x y := by
  refine Value.ind' ?_ ?_ ?_
  · intro v hv w h c x hx
    have := h.scalar hv
    subst this
    obtain ⟨y, h1, h2⟩ := parseInner_scalar_eq (E := E) (o := o) hv c
    rw [hx] at h1; cases h1
    exact ⟨x, hx, h2⟩
  · intro l ih w h c x hx
    obtain ⟨l', rfl⟩ := VR_left_list h
    have hl := VR_list.1 h
    cases hl with
    | nil => exact ⟨x, hx, by cases hx; cases c <;> exact ⟨by first | exact .inl ⟨rfl, rfl⟩ | exact .inr ⟨_, _, rfl, rfl, SE.refl rfl⟩, .refl _, .refl _⟩⟩
    | @cons a b l l' hab hl =>
      rw [parseInner] at hx
      split at hx
      · cases hx
      · rename_i y hy
        cases hx
        have hl2 : List.Forall₂ SE (a :: l) (b :: l') := .cons hab hl
        obtain ⟨z, h1, h2⟩ := parseElems_eq (E := E) (o := o) hl2 (fun v w hv hr x hx => ih v hv w hr true x hx) hy
        refine ⟨_, by rw [parseInner, h1], ⟨.inr ⟨_, _, rfl, rfl, VR_list.2 h2.parsed⟩, setOf_perm (.append ?_ h2.dataTypes), setOf_perm h2.parsedTypes⟩⟩
        have : (a :: l).map (fun w => dotted [] w.dtype.name) = (b :: l').map (fun w => dotted [] w.dtype.name) := by
          have key : ∀ {m m' : List Value}, List.Forall₂ SE m m' →
              m.map (fun w => dotted [] w.dtype.name) = m'.map (fun w => dotted [] w.dtype.name) := by
            intro m m' hm
            induction hm with
            | nil => rfl
            | cons h _ ih => rw [List.map_cons, List.map_cons, ih, h.dtype]
          exact key hl2
        rw [this]
  · intro d ih w h c x hx
    obtain ⟨d', rfl⟩ := VR_left_dict h
    have hd := VR_dict.1 h
    have hlen := hd.length
    cases d with
    | nil =>
      have : d' = [] := List.length_eq_zero_iff.1 hlen.symm
      subst this
      exact ⟨x, hx, by cases hx; cases c <;> exact ⟨by first | exact .inl ⟨rfl, rfl⟩ | exact .inr ⟨_, _, rfl, rfl, SE.refl rfl⟩, .refl _, .refl _⟩⟩
    | cons kv r =>
      cases d' with
      | nil => cases hlen
      | cons kv' r' =>
        rw [parseInner] at hx
        split at hx
        · cases hx
        · rename_i items hi
          split at hx
          · cases hx
          · rename_i y hy
            cases hx
            obtain ⟨items', h1, h2⟩ := parseItems_eq (E := E) (o := o) hd (fun k v w hv hr x hx => ih k v hv w hr false x hx) hi
            obtain ⟨z, h3, h4⟩ := assembleDict_eq hE hd h2 hy
            refine ⟨⟨some (.dict z.parsed), z.dataTypes, z.parsedTypes⟩, by rw [parseInner, h1]; simp only [h3], ⟨.inr ⟨_, _, rfl, rfl, VR_dict.2 h4.parsed⟩, h4.dataTypes, h4.parsedTypes⟩⟩

/-! ## The whole -/

theorem strLe_antisymm : ∀ s t : PyStr, strLe s t = true → strLe t s = true → s = t
  | [], [], _, _ => rfl
  | [], _ :: _, _, h => by simp [strLe] at h
  | _ :: _, [], h, _ => by simp [strLe] at h
  | a :: s, b :: t, h1, h2 => by
    simp only [strLe] at h1 h2
    rcases Nat.lt_trichotomy a.toNat b.toNat with h | h | h
    · rw [if_neg (by omega), if_neg (by omega)] at h2; cases h2
    · rw [if_neg (by omega), if_pos h] at h1
      rw [if_neg (by omega), if_pos h.symm] at h2
      rw [toNat_inj h, strLe_antisymm s t h1 h2]
    · rw [if_neg (by omega), if_neg (by omega)] at h1; cases h1

theorem sortBy_str_perm {l l' : List PyStr} (h : l.Perm l') : sortBy strLe l = sortBy strLe l' := by
  have htot : ∀ a b, strLe a b = false → strLe b a = true := by
    intro a b hab
    rcases strLe_total a b with h | h
    · rw [hab] at h; cases h
    · exact h
  have hs := fun l => sortBy_pairwise (le := strLe) htot (fun a b c => strLe_trans) l
  have hp : (sortBy strLe l).Perm (sortBy strLe l') := (sortBy_perm strLe l).trans (h.trans (sortBy_perm strLe l').symm)
  exact hp.eq_of_pairwise (fun a b _ _ => strLe_antisymm a b) (hs l) (hs l')

/-- Parsing data that is the same but for the order of keys. -/
theorem parse_eq (hE : E.IgnoresOrder) {d d' : Dict} (h : SE (.dict d) (.dict d')) {p : ParsedData} (hp : parse E o d = .ok p) :
    ∃ q, parse E o d' = .ok q ∧ SE (.dict p.parsed) (.dict q.parsed) ∧ p.dataTypes = q.dataTypes ∧ p.parsedTypes = q.parsedTypes := by
  have hd := VR_dict.1 h
  obtain ⟨x, hx, h1, h2, h3⟩ := parse_ok hp
  obtain ⟨items, hi, ha⟩ := parseDict_ok hx
  obtain ⟨items', a1, a2⟩ := parseItems_eq (E := E) (o := o) hd (fun k v w _ hr x hx => parseInner_eq hE v w hr false x hx) hi
  obtain ⟨y, b1, b2⟩ := assembleDict_eq hE hd a2 ha
  unfold summarise at h2 h3
  rw [sortBy_str_perm b2.dataTypes] at h2
  rw [sortBy_str_perm b2.parsedTypes] at h3
  refine ⟨⟨y.parsed, p.dataTypes, p.parsedTypes⟩, ?_, ?_, rfl, rfl⟩
  · unfold parse parseDict summarise
    rw [a1]
    simp only [b1, h2, h3]
  · rw [← h1]; exact VR_dict.2 b2.parsed

end Splitgill
