import Verif.Proof.Canon
import Verif.Proof.Search3
/-!
# Lemmas: from the data that is ingested to the data that is rebuilt from a search
-/

namespace Splitgill

/-! ## Paths in equal data -/

theorem VR_getAt {c : Value → Value → Bool} {p : Path} {l v : Value} (hv : getAt p l = some v) :
    ∀ {r}, VR c l r → ∃ w, getAt p r = some w ∧ VR c v w := by
  refine getAt_ind (P := fun p l v => ∀ {r}, VR c l r → ∃ w, getAt p r = some w ∧ VR c v w) ?_ ?_ ?_ p l v hv
  · intro v r h; exact ⟨r, rfl, h⟩
  · intro k p d x v hx _ ih r h
    obtain ⟨d', rfl⟩ := VR_left_dict h
    rcases (VR_dict.1 h).2.2 k with ⟨e, _⟩ | ⟨a, b, ha, hb, hab⟩
    · rw [hx] at e; cases e
    · rw [hx] at ha; cases ha
      obtain ⟨w, h1, h2⟩ := ih hab
      exact ⟨w, by simp [getAt, hb, h1], h2⟩
  · intro i p l x v hx _ ih r h
    obtain ⟨l', rfl⟩ := VR_left_list h
    have h' := VR_list.1 h
    obtain ⟨hi, rfl⟩ := List.getElem?_eq_some_iff.1 hx
    have hi' : i < l'.length := by rw [← h'.length_eq]; exact hi
    obtain ⟨w, h1, h2⟩ := ih (h'.get hi hi')
    exact ⟨w, by simpa [getAt, hi'] using h1, h2⟩

theorem DR.mem_keys {c : Value → Value → Bool} {d d' : Dict} (h : DR c d d') {k : PyStr} (hk : k ∈ akeys d) : k ∈ akeys d' := by
  obtain ⟨⟨k', v⟩, h1, rfl⟩ := List.mem_map.1 hk
  rcases h.2.2 k' with ⟨e, _⟩ | ⟨a, b, _, hb, _⟩
  · rw [aget_of_mem h.1 h1] at e; cases e
  · exact List.mem_map.2 ⟨(k', b), aget_mem hb, rfl⟩

theorem FieldNames.of_vr {c : Value → Value → Bool} {a b : Value} (h : VR c b a) (ha : FieldNames a) : FieldNames b := by
  intro p d hd k hk
  obtain ⟨w, h1, h2⟩ := VR_getAt hd h
  obtain ⟨d', rfl⟩ := VR_left_dict h2
  exact ha p d' h1 k ((VR_dict.1 h2).mem_keys hk)

/-- A class of data, of that with names as they are prepared. -/
def DataClass.named (K : DataClass) : DataClass where
  c := K.c
  Q d := K.Q d ∧ FieldNames (.dict d)
  refl := K.refl
  symm := K.symm
  trans := K.trans
  toSim := K.toSim
  wf h := K.wf h.1
  closed h ha := ⟨K.closed h ha.1, ha.2.of_vr (K.symm h)⟩
  merge ha hb h := K.merge ha.1 hb.1 h
  ofPyEq ha hb h := K.ofPyEq ha.1 hb.1 h

theorem Fits.named {K : PyStr → DataClass} {U : Unicode} (hU : ∀ r : Record, FieldNames (.dict (prepareRecordData U r)))
    {rs : List Record} (h : Fits K U rs) : Fits (fun id => (K id).named) U rs := fun r hr => ⟨h r hr, hU r⟩

theorem Parser.RespectsFor.named {P : Type} {X : Parser P} {K : PyStr → DataClass} (h : X.RespectsFor K) :
    X.RespectsFor (fun id => (K id).named) := fun id a b o hd => h id a b o ⟨hd.vr, hd.left.1, hd.right.1⟩

/-! ## Rebuilding equal data -/

theorem aget_filter_key (p : PyStr → Bool) (k : PyStr) : ∀ d : Dict, aget k (d.filter (fun kv => p kv.1)) = if p k then aget k d else none
  | [] => by simp
  | (k', v) :: r => by
    rw [List.filter_cons]
    by_cases hk : k' = k
    · subst hk
      by_cases hp : p k' = true
      · simp [hp, aget_cons]
      · rw [if_neg hp, aget_filter_key p k' r, if_neg hp, if_neg hp]
    · split
      · rw [aget_cons, if_neg (Ne.symm hk), aget_filter_key p k r, aget_cons, if_neg (Ne.symm hk)]
      · rw [aget_filter_key p k r, aget_cons, if_neg (Ne.symm hk)]

theorem akeys_filter_nodup {d : Dict} (p : PyStr × Value → Bool) (h : (akeys d).Nodup) : (akeys (d.filter p)).Nodup :=
  h.sublist (List.filter_sublist.map _)

theorem DR.filter_key {c : Value → Value → Bool} {d d' : Dict} (h : DR c d d') (p : PyStr → Bool) :
    DR c (d.filter (fun kv => p kv.1)) (d'.filter (fun kv => p kv.1)) := by
  refine ⟨akeys_filter_nodup _ h.1, akeys_filter_nodup _ h.2.1, fun k => ?_⟩
  rw [aget_filter_key, aget_filter_key]
  split
  · exact h.2.2 k
  · exact .inl ⟨rfl, rfl⟩

theorem DR.map_val {c : Value → Value → Bool} {d d' : Dict} (h : DR c d d') {f : Value → Value}
    (hf : ∀ k v w, (k, v) ∈ d → VR c v w → VR c (f v) (f w)) :
    DR c (d.map (fun kv => (kv.1, f kv.2))) (d'.map (fun kv => (kv.1, f kv.2))) := by
  refine ⟨by rw [akeys_map]; exact h.1, by rw [akeys_map]; exact h.2.1, fun k => ?_⟩
  rw [aget_map_val, aget_map_val]
  rcases h.2.2 k with ⟨e, e'⟩ | ⟨a, b, ha, hb, hab⟩
  · rw [e, e']; exact .inl ⟨rfl, rfl⟩
  · rw [ha, hb]; exact .inr ⟨f a, f b, rfl, rfl, hf k a b (aget_mem ha) hab⟩

theorem VR_scalar {c : Value → Value → Bool} {v w : Value} (hv : v.isScalar = true) (h : VR c v w) : w.isScalar = true ∧ c v w = true := by
  have := h.2.2
  rw [eqWith_scalar_left hv, Bool.and_eq_true] at this
  exact this

theorem rebuildList_eq : ∀ l, rebuildList l = l.map rebuildValue
  | [] => rfl
  | v :: r => by rw [rebuildList, rebuildList_eq r]; rfl

theorem rebuildValue_scalar {v : Value} (hv : v.isScalar = true) : rebuildValue v = v := by
  cases v <;> first | rfl | cases hv

theorem forall₂_map {α β : Type} {R : α → α → Prop} {S : β → β → Prop} {f : α → β} {l l' : List α} (h : List.Forall₂ R l l')
    (hf : ∀ v w, v ∈ l → R v w → S (f v) (f w)) : List.Forall₂ S (l.map f) (l'.map f) := by
  induction h with
  | nil => exact .nil
  | cons hx _ ih => exact .cons (hf _ _ (by simp) hx) (ih (fun v w hv => hf v w (by simp [hv])))

theorem rebuild_congr {c : Value → Value → Bool} : ∀ v w : Value, VR c v w → VR c (rebuildValue v) (rebuildValue w) := by
  apply Value.ind' (P := fun v => ∀ w, VR c v w → VR c (rebuildValue v) (rebuildValue w))
  · intro v hv w h
    rw [rebuildValue_scalar hv, rebuildValue_scalar (VR_scalar hv h).1]
    exact h
  · intro l ih w h
    obtain ⟨l', rfl⟩ := VR_left_list h
    rw [rebuildValue, rebuildValue, rebuildList_eq, rebuildList_eq]
    exact VR_list.2 (forall₂_map (VR_list.1 h) (fun v w hv hr => ih v hv w hr))
  · intro d ih w h
    obtain ⟨d', rfl⟩ := VR_left_dict h
    have h' := VR_dict.1 h
    rw [rebuildValue, rebuildValue]
    rcases h'.2.2 PType.unparsed.name with ⟨e, e'⟩ | ⟨a, b, ha, hb, hab⟩
    · rw [e, e']
      dsimp only
      refine VR_dict.2 (DR.filter_key ?_ isDataField)
      rw [rebuildItems_eq, rebuildItems_eq]
      exact h'.map_val (fun k v w hv hr => ih k v hv w hr)
    · rw [ha, hb]; exact hab

theorem rebuildData_congr {c : Value → Value → Bool} {d d' : Dict} (h : VR c (.dict d) (.dict d')) :
    VR c (.dict (rebuildData d)) (.dict (rebuildData d')) := by
  rw [rebuildData, rebuildData, rebuildItems_eq, rebuildItems_eq]
  exact VR_dict.2 ((VR_dict.1 h).map_val (fun k v w _ hr => rebuild_congr v w hr))

/-! ## What remains of equal data -/

theorem remainsDict_eq : ∀ d : Dict, remainsDict d =
    (d.filter (fun kv => !kv.2.isEmptyContainer)).map (fun kv => (kv.1, remains kv.2))
  | [] => rfl
  | (k, v) :: r => by
    rw [remainsDict, remainsDict_eq r, List.filter_cons]
    cases h : v.isEmptyContainer <;> simp

theorem remainsList_eq (l : List Value) : remainsList l = l.map (fun v => if v.isEmptyContainer || strictEq v (.str []) then .none else remains v) := by
  induction l with
  | nil => rfl
  | cons v r ih => rw [remainsList, ih]; rfl

theorem aget_filter_val (p : Value → Bool) (k : PyStr) : ∀ {d : Dict}, (akeys d).Nodup →
    aget k (d.filter (fun kv => p kv.2)) = (aget k d).bind (fun v => if p v then some v else none)
  | [], _ => by simp
  | (k', v) :: r, hn => by
    have hn' : (akeys r).Nodup := by simp [akeys] at hn ⊢; exact hn.2
    have ih := aget_filter_val p k hn'
    rw [List.filter_cons]
    by_cases hk : k' = k
    · subst hk
      have hnone : aget k' r = none := by
        cases hx : aget k' r with
        | none => rfl
        | some y =>
          have : k' ∈ akeys r := List.mem_map_of_mem (f := Prod.fst) (aget_mem hx)
          simp only [akeys, List.map_cons, List.nodup_cons] at hn
          exact absurd this hn.1
      by_cases hp : p v = true
      · simp [hp, aget_cons]
      · rw [if_neg hp, ih, hnone, aget_cons, if_pos rfl]; simp [hp]
    · split
      · rw [aget_cons, if_neg (Ne.symm hk), ih, aget_cons, if_neg (Ne.symm hk)]
      · rw [ih, aget_cons, if_neg (Ne.symm hk)]

theorem aget_remainsDict {d : Dict} (hn : (akeys d).Nodup) (k : PyStr) :
    aget k (remainsDict d) = (aget k d).bind (fun v => if v.isEmptyContainer then none else some (remains v)) := by
  rw [remainsDict_eq, aget_map_val, aget_filter_val (fun v => !v.isEmptyContainer) k hn]
  cases aget k d with
  | none => rfl
  | some v => cases h : v.isEmptyContainer <;> simp [h]

theorem nodup_remainsDict {d : Dict} (hn : (akeys d).Nodup) : (akeys (remainsDict d)).Nodup := by
  rw [remainsDict_eq, akeys_map]; exact akeys_filter_nodup _ hn

theorem isEmptyContainer_congr {c : Value → Value → Bool} {v w : Value} (h : VR c v w) : v.isEmptyContainer = w.isEmptyContainer := by
  cases v with
  | list l =>
    obtain ⟨l', rfl⟩ := VR_left_list h
    have := (VR_list.1 h).length_eq
    cases l <;> cases l' <;> simp_all [Value.isEmptyContainer]
  | dict d =>
    obtain ⟨d', rfl⟩ := VR_left_dict h
    have := h.2.2
    rw [eqWith_dict_iff] at this
    have := this.1
    cases d <;> cases d' <;> simp_all [Value.isEmptyContainer]
  | _ =>
    have := (VR_scalar rfl h).1
    cases w <;> first | rfl | cases this

theorem remains_scalar {v : Value} (hv : v.isScalar = true) : remains v = v := by
  cases v <;> first | rfl | cases hv

/-- Equalities of scalars that know the empty text. -/
def KnowsEmpty (c : Value → Value → Bool) : Prop :=
  ∀ v w : Value, v.isScalar = true → w.isScalar = true → c v w = true → (v = .str [] ↔ w = .str [])

theorem isEmptyText_congr {c : Value → Value → Bool} (hc : KnowsEmpty c) {v w : Value} (h : VR c v w) :
    strictEq v (.str []) = strictEq w (.str []) := by
  have key : strictEq v (.str []) = true ↔ strictEq w (.str []) = true := by
    rw [isEmptyString_iff, isEmptyString_iff]
    cases hv : v.isScalar with
    | true => exact hc v w hv (VR_scalar hv h).1 (VR_scalar hv h).2
    | false =>
      cases v with
      | list l => obtain ⟨l', rfl⟩ := VR_left_list h; simp
      | dict d => obtain ⟨d', rfl⟩ := VR_left_dict h; simp
      | _ => cases hv
  cases h1 : strictEq v (.str []) <;> cases h2 : strictEq w (.str []) <;> simp_all

theorem remains_congr {c : Value → Value → Bool} (hc : KnowsEmpty c) (hnone : c .none .none = true) :
    ∀ v w : Value, VR c v w → VR c (remains v) (remains w) := by
  apply Value.ind' (P := fun v => ∀ w, VR c v w → VR c (remains v) (remains w))
  · intro v hv w h
    rw [remains_scalar hv, remains_scalar (VR_scalar hv h).1]
    exact h
  · intro l ih w h
    obtain ⟨l', rfl⟩ := VR_left_list h
    rw [remains, remains, remainsList_eq, remainsList_eq]
    refine VR_list.2 (forall₂_map (VR_list.1 h) (fun v w hv hr => ?_))
    rw [isEmptyContainer_congr hr, isEmptyText_congr hc hr]
    split
    · exact ⟨rfl, rfl, by simpa [eqWith] using hnone⟩
    · exact ih v hv w hr
  · intro d ih w h
    obtain ⟨d', rfl⟩ := VR_left_dict h
    have h' := VR_dict.1 h
    rw [remains, remains]
    refine VR_dict.2 ⟨nodup_remainsDict h'.1, nodup_remainsDict h'.2.1, fun k => ?_⟩
    rw [aget_remainsDict h'.1, aget_remainsDict h'.2.1]
    rcases h'.2.2 k with ⟨e, e'⟩ | ⟨a, b, ha, hb, hab⟩
    · rw [e, e']; exact .inl ⟨rfl, rfl⟩
    · rw [ha, hb]
      simp only [Option.bind_some]
      rw [isEmptyContainer_congr hab]
      split
      · exact .inl ⟨rfl, rfl⟩
      · exact .inr ⟨_, _, rfl, rfl, ih k a (aget_mem ha) b hab⟩

theorem remainsDict_congr {c : Value → Value → Bool} (hc : KnowsEmpty c) (hnone : c .none .none = true) {d d' : Dict}
    (h : VR c (.dict d) (.dict d')) : VR c (.dict (remainsDict d)) (.dict (remainsDict d')) := by
  have := remains_congr hc hnone _ _ h
  rwa [remains, remains] at this

theorem knowsEmpty_sim : KnowsEmpty simScalarEq := by
  intro v w hv hw h
  cases v <;> cases w <;> simp_all [simScalarEq, pyScalarEq, Value.isScalar, Value.num]

theorem knowsEmpty_strict : KnowsEmpty strictScalarEq := by
  intro v w hv hw h
  rw [(strictScalarEq_iff hv).1 h]

theorem remains_getAt : ∀ (p : Path) (v w : Value), v.wf = true → getAt p (remains v) = some w → w.isScalar = true →
    getAt p v = some w ∨ w = .none
  | [], v, w, _, h, hs => by
    simp only [getAt, Option.some.injEq] at h
    left
    cases v with
    | list l => rw [remains] at h; subst h; cases hs
    | dict d => rw [remains] at h; subst h; cases hs
    | _ => simpa [getAt, remains] using h
  | .key k :: p, v, w, hw, h, hs => by
    cases v with
    | dict d =>
      have hw' := wf_dict_iff.1 hw
      rw [remains] at h
      simp only [getAt] at h
      obtain ⟨x, hx, h⟩ := Option.bind_eq_some_iff.1 h
      rw [aget_remainsDict hw'.1] at hx
      obtain ⟨y, hy, hx⟩ := Option.bind_eq_some_iff.1 hx
      split at hx
      · cases hx
      · cases hx
        rcases remains_getAt p y w (hw'.2 k y (aget_mem hy)) h hs with h | h
        · left; simp [getAt, hy, h]
        · exact .inr h
    | _ => simp [remains, getAt] at h
  | .idx i :: p, v, w, hw, h, hs => by
    cases v with
    | list l =>
      have hw' := wf_list_iff.1 hw
      rw [remains, remainsList_eq] at h
      simp only [getAt] at h
      obtain ⟨x, hx, h⟩ := Option.bind_eq_some_iff.1 h
      rw [List.getElem?_map] at hx
      obtain ⟨y, hy, rfl⟩ := Option.map_eq_some_iff.1 hx
      split at h
      · right
        cases p with
        | nil => simpa [getAt] using h.symm
        | cons s p => cases s <;> simp [getAt] at h
      · rcases remains_getAt p y w (hw' y (List.mem_of_getElem? hy)) h hs with h | h
        · left; simp [getAt, hy, h]
        · exact .inr h
    | _ => simp [remains, getAt] at h

theorem NoPun.remains {a b : Value} (ha : a.wf = true) (hb : b.wf = true) (h : NoPun a b) : NoPun (remains a) (remains b) := by
  intro p v w hv hw hs hs' he
  rcases remains_getAt p a v ha hv hs with h1 | rfl
  · rcases remains_getAt p b w hb hw hs' with h2 | rfl
    · exact h p v w h1 h2 hs hs' he
    · cases v <;> simp_all [pyEq, eqWith, pyScalarEq, Value.num]
  · cases w <;> simp_all [pyEq, eqWith, pyScalarEq, Value.num]

end Splitgill
