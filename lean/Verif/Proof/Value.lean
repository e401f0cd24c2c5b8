import Verif.Py.Value
import Verif.Spec.Value
import Mathlib.Data.List.Perm.Subperm
import Mathlib.Data.List.Forall2
/-!
# Lemmas about values, dicts and equality
-/

namespace Splitgill

/-! ## Induction -/

theorem Value.ind {P : Value → Prop}
    (hnone : P .none) (hbool : ∀ b, P (.bool b)) (hint : ∀ i, P (.int i))
    (hfloat : ∀ f, P (.float f)) (hstr : ∀ s, P (.str s))
    (hlist : ∀ l : List Value, (∀ v ∈ l, P v) → P (.list l))
    (hdict : ∀ d : Dict, (∀ k v, (k, v) ∈ d → P v) → P (.dict d)) : ∀ v, P v := by
  intro v
  refine Value.rec (motive_1 := P) (motive_2 := fun l => ∀ v ∈ l, P v)
    (motive_3 := fun d => ∀ k v, (k, v) ∈ d → P v) (motive_4 := fun kv => P kv.2)
    hnone hbool hint hfloat hstr hlist hdict ?_ ?_ ?_ ?_ ?_ v
  · simp
  · intro h t hh ht v hv
    rcases List.mem_cons.1 hv with rfl | hv
    · exact hh
    · exact ht v hv
  · simp
  · intro h t hh ht k v hv
    rcases List.mem_cons.1 hv with rfl | hv
    · exact hh
    · exact ht k v hv
  · intro k v hv; exact hv

/-- Induction with one scalar case. -/
theorem Value.ind' {P : Value → Prop}
    (hs : ∀ v, v.isScalar = true → P v)
    (hlist : ∀ l : List Value, (∀ v ∈ l, P v) → P (.list l))
    (hdict : ∀ d : Dict, (∀ k v, (k, v) ∈ d → P v) → P (.dict d)) : ∀ v, P v :=
  Value.ind (hs _ rfl) (fun _ => hs _ rfl) (fun _ => hs _ rfl) (fun _ => hs _ rfl)
    (fun _ => hs _ rfl) hlist hdict

/-! ## Dicts -/

section Assoc
variable {κ : Type} [DecidableEq κ] {α : Type}

@[simp] theorem aget_nil (k : κ) : aget k ([] : List (κ × α)) = none := rfl
theorem aget_cons (k k' : κ) (v : α) (r) :
    aget k ((k', v) :: r) = if k = k' then some v else aget k r := rfl
@[simp] theorem akeys_nil : akeys ([] : List (κ × α)) = [] := rfl
@[simp] theorem akeys_cons (kv : κ × α) (r) : akeys (kv :: r) = kv.1 :: akeys r := rfl

theorem aget_mem {k : κ} {v : α} : ∀ {d : List (κ × α)}, aget k d = some v → (k, v) ∈ d
  | [], h => by simp at h
  | (k', v') :: r, h => by
    rw [aget_cons] at h
    split at h
    · next e => subst e; simp at h; subst h; simp
    · exact List.mem_cons_of_mem _ (aget_mem h)

theorem aget_isSome_iff {k : κ} : ∀ {d : List (κ × α)}, (aget k d).isSome ↔ k ∈ akeys d
  | [] => by simp
  | (k', v') :: r => by
    rw [aget_cons]
    split
    · next e => simp [e]
    · next e => simp [e, aget_isSome_iff (d := r)]

theorem ahas_iff {k : κ} {d : List (κ × α)} : ahas k d = true ↔ k ∈ akeys d := aget_isSome_iff

theorem aget_eq_none_iff {k : κ} {d : List (κ × α)} : aget k d = none ↔ k ∉ akeys d := by
  rw [← aget_isSome_iff]; cases aget k d <;> simp

theorem ahas_false_iff {k : κ} {d : List (κ × α)} : ahas k d = false ↔ k ∉ akeys d := by
  rw [← Bool.not_eq_true, ahas_iff]

theorem mem_akeys_of_mem {k : κ} {v : α} {d : List (κ × α)} (h : (k, v) ∈ d) : k ∈ akeys d :=
  List.mem_map.2 ⟨_, h, rfl⟩

theorem aget_of_mem {k : κ} {v : α} : ∀ {d : List (κ × α)}, (akeys d).Nodup → (k, v) ∈ d →
    aget k d = some v
  | [], _, h => by simp at h
  | (k', v') :: r, hn, h => by
    rw [akeys_cons, List.nodup_cons] at hn
    rw [aget_cons]
    rcases List.mem_cons.1 h with e | h'
    · cases e; simp
    · split
      · next e => subst e; exact absurd (mem_akeys_of_mem h') hn.1
      · exact aget_of_mem hn.2 h'

theorem aget_iff_mem {k : κ} {v : α} {d : List (κ × α)} (hn : (akeys d).Nodup) :
    aget k d = some v ↔ (k, v) ∈ d := ⟨aget_mem, aget_of_mem hn⟩

theorem aget_aset (k k' : κ) (v : α) : ∀ d : List (κ × α),
    aget k (aset k' v d) = if k = k' then some v else aget k d
  | [] => by simp [aset, aget_cons]
  | (k₁, v₁) :: r => by
    unfold aset
    split
    · next e =>
      subst e; simp only [aget_cons]; split <;> simp_all
    · next e =>
      simp only [aget_cons, aget_aset k k' v r]
      split
      · next e1 => subst e1; split <;> simp_all
      · rfl

theorem akeys_aset (k : κ) (v : α) : ∀ d : List (κ × α),
    akeys (aset k v d) = if k ∈ akeys d then akeys d else akeys d ++ [k]
  | [] => by simp [aset]
  | (k₁, v₁) :: r => by
    unfold aset
    split
    · next e => subst e; simp
    · next e =>
      simp only [akeys_cons, akeys_aset k v r, List.mem_cons, e, false_or]
      split <;> simp

theorem aset_of_not_mem (k : κ) (v : α) : ∀ {d : List (κ × α)}, k ∉ akeys d →
    aset k v d = d ++ [(k, v)]
  | [], _ => rfl
  | (k₁, v₁) :: r, h => by
    simp only [akeys_cons, List.mem_cons, not_or] at h
    unfold aset; rw [if_neg h.1, aset_of_not_mem k v h.2]; rfl

theorem nodup_aset {k : κ} {v : α} {d : List (κ × α)} (h : (akeys d).Nodup) :
    (akeys (aset k v d)).Nodup := by
  rw [akeys_aset]; split
  · exact h
  · next hk => 
    rw [List.nodup_append]; refine ⟨h, by simp, ?_⟩
    intro a ha b hb; simp at hb; subst hb; exact fun e => hk (e ▸ ha)

theorem mem_akeys_aset {k k' : κ} {v : α} {d : List (κ × α)} :
    k ∈ akeys (aset k' v d) ↔ k = k' ∨ k ∈ akeys d := by
  rw [← aget_isSome_iff, aget_aset, ← aget_isSome_iff]; split <;> simp_all

theorem aget_aerase (k k' : κ) : ∀ {d : List (κ × α)}, (akeys d).Nodup →
    aget k (aerase k' d) = if k = k' then none else aget k d
  | [], _ => by simp [aerase]
  | (k₁, v₁) :: r, hn => by
    rw [akeys_cons, List.nodup_cons] at hn
    unfold aerase
    split
    · next e =>
      subst e; simp only [aget_cons]; split
      · next e => subst e; exact aget_eq_none_iff.2 hn.1
      · rfl
    · next e =>
      simp only [aget_cons, aget_aerase k k' hn.2]
      split
      · next e1 => subst e1; split <;> simp_all
      · rfl

theorem aerase_sublist (k : κ) : ∀ d : List (κ × α), (aerase k d).Sublist d
  | [] => List.Sublist.slnil
  | (k₁, v₁) :: r => by
    unfold aerase; split
    · exact List.sublist_cons_self _ _
    · exact (aerase_sublist k r).cons_cons _

theorem nodup_aerase {k : κ} {d : List (κ × α)} (h : (akeys d).Nodup) :
    (akeys (aerase k d)).Nodup := h.sublist ((aerase_sublist k d).map _)

theorem mem_akeys_aerase {k k' : κ} {d : List (κ × α)} (h : (akeys d).Nodup) :
    k ∈ akeys (aerase k' d) ↔ k ≠ k' ∧ k ∈ akeys d := by
  rw [← aget_isSome_iff, aget_aerase _ _ h, ← aget_isSome_iff]; split <;> simp_all

@[simp] theorem aupdate_nil (d : List (κ × α)) : aupdate d [] = d := rfl
@[simp] theorem aupdate_cons (d : List (κ × α)) (kv e) :
    aupdate d (kv :: e) = aupdate (aset kv.1 kv.2 d) e := rfl

theorem nodup_aupdate {d : List (κ × α)} : ∀ {e}, (akeys d).Nodup → (akeys (aupdate d e)).Nodup
  | [], h => h
  | _ :: e, h => nodup_aupdate (e := e) (nodup_aset h)

theorem aget_aupdate (k : κ) : ∀ (e d : List (κ × α)), (akeys e).Nodup →
    aget k (aupdate d e) = (aget k e).or (aget k d)
  | [], d, _ => by simp
  | (k', v) :: e, d, hn => by
    rw [akeys_cons, List.nodup_cons] at hn
    rw [aupdate_cons, aget_aupdate k e _ hn.2, aget_aset, aget_cons]
    split
    · next h =>
      subst h; rw [aget_eq_none_iff.2 hn.1]; simp
    · rfl

theorem mem_akeys_aupdate {k : κ} : ∀ {e d : List (κ × α)},
    k ∈ akeys (aupdate d e) ↔ k ∈ akeys e ∨ k ∈ akeys d
  | [], d => by simp
  | (k', v) :: e, d => by
    rw [aupdate_cons, mem_akeys_aupdate (e := e), mem_akeys_aset]; simp; tauto

theorem nodup_aofList (l : List (κ × α)) : (akeys (aofList l)).Nodup :=
  nodup_aupdate (by simp)

theorem mem_aset {k : κ} {v : α} {d : List (κ × α)} {kv} (h : kv ∈ aset k v d) :
    kv = (k, v) ∨ kv ∈ d := by
  induction d with
  | nil => simpa [aset] using h
  | cons a r ih =>
    obtain ⟨k₁, v₁⟩ := a
    unfold aset at h
    split at h
    · next e => subst e; rcases List.mem_cons.1 h with h | h <;> simp [h]
    · rcases List.mem_cons.1 h with h | h
      · simp [h]
      · rcases ih h with h | h <;> simp [h]

theorem mem_aupdate {kv} : ∀ {e d : List (κ × α)}, kv ∈ aupdate d e → kv ∈ e ∨ kv ∈ d
  | [], d, h => by simpa using h
  | (k', v) :: e, d, h => by
    rw [aupdate_cons] at h
    rcases mem_aupdate h with h | h
    · simp [h]
    · rcases mem_aset h with h | h <;> simp [h]

end Assoc

/-! ## Structural equality -/

section Eq
variable {c : Value → Value → Bool}

theorem eqWith_scalar_left {a b : Value} (ha : a.isScalar = true) :
    eqWith c a b = (b.isScalar && c a b) := by
  cases a <;> cases b <;> simp_all [eqWith, Value.isScalar]

theorem eqWith_list {a b : List Value} : eqWith c (.list a) (.list b) = eqListWith c a b := by
  simp [eqWith]

theorem eqListWith_iff : ∀ {a b : List Value},
    eqListWith c a b = true ↔ List.Forall₂ (fun x y => eqWith c x y = true) a b
  | [], [] => by simp [eqListWith]
  | [], _ :: _ => by simp [eqListWith]
  | _ :: _, [] => by simp [eqListWith]
  | a :: as, b :: bs => by simp [eqListWith, eqListWith_iff (a := as) (b := bs)]

theorem eqDictWith_iff : ∀ {a b : Dict},
    eqDictWith c a b = true ↔ ∀ k v, (k, v) ∈ a → ∃ w, aget k b = some w ∧ eqWith c v w = true
  | [], _ => by simp [eqDictWith]
  | (k, v) :: r, b => by
    rw [eqDictWith, Bool.and_eq_true, eqDictWith_iff (a := r)]
    constructor
    · rintro ⟨h, hr⟩ k' v' hm
      rcases List.mem_cons.1 hm with e | hm
      · cases e
        cases hg : aget k b with
        | none => simp [hg] at h
        | some w => exact ⟨w, rfl, by simpa [hg] using h⟩
      · exact hr _ _ hm
    · intro h
      refine ⟨?_, fun k v hm => h k v (List.mem_cons_of_mem _ hm)⟩
      obtain ⟨w, hw, hv⟩ := h k v (by simp)
      simp [hw, hv]

theorem eqWith_dict_iff {a b : Dict} : eqWith c (.dict a) (.dict b) = true ↔
    a.length = b.length ∧ ∀ k v, (k, v) ∈ a → ∃ w, aget k b = some w ∧ eqWith c v w = true := by
  simp [eqWith, eqDictWith_iff]

/-- Two dicts without repeated keys are equal iff they have the same keys and equal values. -/
theorem eqWith_dict_iff' {a b : Dict} (ha : (akeys a).Nodup) (hb : (akeys b).Nodup) :
    eqWith c (.dict a) (.dict b) = true ↔
    (∀ k, k ∈ akeys a ↔ k ∈ akeys b) ∧
    ∀ k v w, aget k a = some v → aget k b = some w → eqWith c v w = true := by
  rw [eqWith_dict_iff]
  constructor
  · rintro ⟨hl, h⟩
    have hsub : akeys a ⊆ akeys b := by
      intro k hk
      obtain ⟨⟨k', v⟩, hm, rfl⟩ := List.mem_map.1 hk
      obtain ⟨w, hw, _⟩ := h k' v hm
      exact aget_isSome_iff.1 (by simp [hw])
    have hperm : (akeys a).Perm (akeys b) :=
      (ha.subperm hsub).perm_of_length_le (by simp [akeys, hl])
    refine ⟨fun k => hperm.mem_iff, fun k v w hv hw => ?_⟩
    obtain ⟨w', hw', e⟩ := h k v (aget_mem hv)
    rw [hw] at hw'; cases hw'; exact e
  · rintro ⟨hk, h⟩
    have hperm : (akeys a).Perm (akeys b) := (List.perm_ext_iff_of_nodup ha hb).2 hk
    refine ⟨by simpa [akeys] using hperm.length_eq, fun k v hm => ?_⟩
    have hkb := (hk k).1 (mem_akeys_of_mem hm)
    obtain ⟨w, hw⟩ := Option.isSome_iff_exists.1 (aget_isSome_iff.2 hkb)
    exact ⟨w, hw, h k v w (aget_of_mem ha hm) hw⟩

end Eq

/-! ## Well-formedness -/

theorem wfList_iff : ∀ {l : List Value}, wfList l = true ↔ ∀ v ∈ l, v.wf = true
  | [] => by simp [wfList]
  | v :: r => by simp [wfList, wfList_iff (l := r)]

theorem wfDict_iff : ∀ {d : Dict}, wfDict d = true ↔ ∀ k v, (k, v) ∈ d → v.wf = true
  | [] => by simp [wfDict]
  | (k, v) :: r => by
    simp only [wfDict, Bool.and_eq_true, wfDict_iff (d := r), List.mem_cons]
    constructor
    · rintro ⟨h1, h2⟩ k' v' (e | h)
      · cases e; exact h1
      · exact h2 _ _ h
    · exact fun h => ⟨h k v (Or.inl rfl), fun k v hm => h k v (Or.inr hm)⟩

theorem wf_list_iff {l : List Value} : (Value.list l).wf = true ↔ ∀ v ∈ l, v.wf = true := by
  simp [Value.wf, wfList_iff]

theorem wf_dict_iff {d : Dict} : (Value.dict d).wf = true ↔
    (akeys d).Nodup ∧ ∀ k v, (k, v) ∈ d → v.wf = true := by
  simp [Value.wf, wfDict_iff]

theorem wf_scalar {v : Value} (h : v.isScalar = true) : v.wf = true := by
  cases v <;> simp_all [Value.wf, Value.isScalar]

/-! ## Reflexivity, symmetry, transitivity, implication -/

section Laws
variable {c c' : Value → Value → Bool}

theorem eqWith_refl (hc : ∀ v, v.isScalar = true → c v v = true) :
    ∀ v : Value, v.wf = true → eqWith c v v = true := by
  refine Value.ind' ?_ ?_ ?_
  · intro v hv _; rw [eqWith_scalar_left hv, hv, hc v hv]; rfl
  · intro l ih hwf
    rw [wf_list_iff] at hwf
    rw [eqWith_list, eqListWith_iff, List.forall₂_same]
    exact fun v hv => ih v hv (hwf v hv)
  · intro d ih hwf
    rw [wf_dict_iff] at hwf
    rw [eqWith_dict_iff' hwf.1 hwf.1]
    refine ⟨fun _ => Iff.rfl, fun k v w hv hw => ?_⟩
    rw [hv] at hw; cases hw
    exact ih k v (aget_mem hv) (hwf.2 k v (aget_mem hv))

theorem eqWith_list_left {a : List Value} {y : Value} (h : eqWith c (.list a) y = true) :
    ∃ b, y = .list b ∧ eqListWith c a b = true := by
  cases y <;> simp_all [eqWith]

theorem eqWith_dict_left {a : Dict} {y : Value} (h : eqWith c (.dict a) y = true) :
    ∃ b, y = .dict b := by
  cases y <;> simp_all [eqWith]

theorem eqWith_symm (hc : ∀ v w, v.isScalar = true → w.isScalar = true → c v w = true →
      c w v = true) :
    ∀ v w : Value, v.wf = true → w.wf = true → eqWith c v w = true → eqWith c w v = true := by
  refine Value.ind' ?_ ?_ ?_
  · intro v hv w _ _ h
    rw [eqWith_scalar_left hv, Bool.and_eq_true] at h
    rw [eqWith_scalar_left h.1, hv, hc _ _ hv h.1 h.2]; rfl
  · intro l ih w hwf hw h
    obtain ⟨b, rfl, h'⟩ := eqWith_list_left h
    replace h := h'
    rw [wf_list_iff] at hwf hw
    rw [eqListWith_iff] at h
    rw [eqWith_list, eqListWith_iff]
    clear * - h ih hwf hw
    induction h with
    | nil => simp
    | cons h t ih' =>
      refine List.Forall₂.cons (ih _ (by simp) _ (hwf _ (by simp)) (hw _ (by simp)) h) ?_
      exact ih' (fun v hv => ih v (by simp [hv])) (fun v hv => hwf v (by simp [hv]))
        (fun v hv => hw v (by simp [hv]))
  · intro d ih w hwf hw h
    obtain ⟨b, rfl⟩ := eqWith_dict_left h
    rw [wf_dict_iff] at hwf hw
    rw [eqWith_dict_iff' hwf.1 hw.1] at h
    rw [eqWith_dict_iff' hw.1 hwf.1]
    refine ⟨fun k => (h.1 k).symm, fun k v w hv hw' => ?_⟩
    exact ih k w (aget_mem hw') v (hwf.2 _ _ (aget_mem hw')) (hw.2 _ _ (aget_mem hv))
      (h.2 k w v hw' hv)

theorem eqWith_trans3 {c₁ c₂ c₃ : Value → Value → Bool} (hc : ∀ u v w, u.isScalar = true →
      v.isScalar = true → w.isScalar = true → c₁ u v = true → c₂ v w = true → c₃ u w = true) :
    ∀ u v w : Value, eqWith c₁ u v = true → eqWith c₂ v w = true → eqWith c₃ u w = true := by
  refine Value.ind' ?_ ?_ ?_
  · intro u hu v w h1 h2
    rw [eqWith_scalar_left hu, Bool.and_eq_true] at h1
    rw [eqWith_scalar_left h1.1, Bool.and_eq_true] at h2
    rw [eqWith_scalar_left hu, h2.1, hc _ _ _ hu h1.1 h2.1 h1.2 h2.2]; rfl
  · intro l ih v w h1 h2
    obtain ⟨b, rfl, h1'⟩ := eqWith_list_left h1
    replace h1 := h1'
    obtain ⟨d, rfl, h2'⟩ := eqWith_list_left h2
    replace h2 := h2'
    rw [eqListWith_iff] at h1 h2
    rw [eqWith_list, eqListWith_iff]
    clear * - h1 h2 ih
    induction h1 generalizing d with
    | nil => cases h2; simp
    | cons h t ih' =>
      cases h2 with
      | cons h2 t2 =>
        exact List.Forall₂.cons (ih _ (by simp) _ _ h h2)
          (ih' (fun v hv => ih v (by simp [hv])) _ t2)
  · intro d ih v w h1 h2
    obtain ⟨b, rfl⟩ := eqWith_dict_left h1
    obtain ⟨e, rfl⟩ := eqWith_dict_left h2
    rw [eqWith_dict_iff] at h1 h2 ⊢
    refine ⟨h1.1.trans h2.1, fun k v hm => ?_⟩
    obtain ⟨x, hx, hvx⟩ := h1.2 k v hm
    obtain ⟨y, hy, hxy⟩ := h2.2 k x (aget_mem hx)
    exact ⟨y, hy, ih k v hm _ _ hvx hxy⟩

theorem eqWith_trans (hc : ∀ u v w, u.isScalar = true → v.isScalar = true → w.isScalar = true →
      c u v = true → c v w = true → c u w = true) :
    ∀ u v w : Value, eqWith c u v = true → eqWith c v w = true → eqWith c u w = true :=
  eqWith_trans3 hc

theorem eqWith_mono (hc : ∀ u v, u.isScalar = true → v.isScalar = true → c u v = true →
      c' u v = true) :
    ∀ u v : Value, eqWith c u v = true → eqWith c' u v = true := by
  refine Value.ind' ?_ ?_ ?_
  · intro u hu v h1
    rw [eqWith_scalar_left hu, Bool.and_eq_true] at h1
    rw [eqWith_scalar_left hu, h1.1, hc _ _ hu h1.1 h1.2]; rfl
  · intro l ih v h1
    obtain ⟨b, rfl, h1'⟩ := eqWith_list_left h1
    replace h1 := h1'
    rw [eqListWith_iff] at h1
    rw [eqWith_list, eqListWith_iff]
    clear * - h1 ih
    induction h1 with
    | nil => simp
    | cons h t ih' =>
      exact List.Forall₂.cons (ih _ (by simp) _ h) (ih' (fun v hv => ih v (by simp [hv])))
  · intro d ih v h1
    obtain ⟨b, rfl⟩ := eqWith_dict_left h1
    rw [eqWith_dict_iff] at h1 ⊢
    refine ⟨h1.1, fun k v hm => ?_⟩
    obtain ⟨x, hx, hvx⟩ := h1.2 k v hm
    exact ⟨x, hx, ih k v hm _ hvx⟩

end Laws

/-! ## The three equalities -/

theorem simScalarEq_refl {v : Value} (h : v.isScalar = true) : simScalarEq v v = true := by
  cases v with
  | float f => cases f <;> simp [simScalarEq, Value.num]
  | _ => simp_all [simScalarEq, Value.isScalar, Value.num]

/-- Canonical form of a scalar for `simScalarEq`. -/
inductive ScalarKey
  | none | str (s : PyStr) | num (f : PyFloat) | other
deriving DecidableEq

def Value.key : Value → ScalarKey
  | .none => .none
  | .str s => .str s
  | v => match v.num with | some f => .num f | .none => .other

theorem simScalarEq_iff {a b : Value} (ha : a.isScalar = true) (hb : b.isScalar = true) :
    simScalarEq a b = true ↔ a.key = b.key := by
  cases a <;> cases b <;> first
    | (simp_all [Value.isScalar]; done)
    | (simp [simScalarEq, Value.key, Value.num]; done)
    | (rename_i f; cases f <;> simp [simScalarEq, Value.key, Value.num]; done)
    | (rename_i f g; cases f <;> cases g <;> simp [simScalarEq, Value.key, Value.num])

theorem pyScalarEq_iff {a b : Value} :
    pyScalarEq a b = true ↔ simScalarEq a b = true ∧ a.num ≠ some .nan := by
  unfold pyScalarEq simScalarEq
  split
  · simp [Value.num]
  · simp [Value.num]
  · split <;> simp_all

theorem pyScalarEq_symm {a b : Value} (ha : a.isScalar = true) (hb : b.isScalar = true)
    (h : pyScalarEq a b = true) : pyScalarEq b a = true := by
  rw [pyScalarEq_iff] at *
  refine ⟨(simScalarEq_iff hb ha).2 ((simScalarEq_iff ha hb).1 h.1).symm, ?_⟩
  intro hn
  apply h.2
  have h1 := h.1
  unfold simScalarEq at h1
  split at h1
  · simp [Value.num] at hn
  · simp [Value.num] at hn
  · split at h1 <;> simp_all

theorem simEq_refl {v : Value} (h : v.wf = true) : simEq v v = true :=
  eqWith_refl (fun _ => simScalarEq_refl) v h

theorem simEq_symm {v w : Value} (hv : v.wf = true) (hw : w.wf = true) (h : simEq v w = true) :
    simEq w v = true :=
  eqWith_symm (fun _ _ hv hw h => (simScalarEq_iff hw hv).2 ((simScalarEq_iff hv hw).1 h).symm)
    v w hv hw h

theorem simEq_trans {u v w : Value} (h1 : simEq u v = true) (h2 : simEq v w = true) :
    simEq u w = true :=
  eqWith_trans (fun _ _ _ hu hv hw h1 h2 => (simScalarEq_iff hu hw).2
    (((simScalarEq_iff hu hv).1 h1).trans ((simScalarEq_iff hv hw).1 h2))) u v w h1 h2

theorem simEq_of_pyEq {v w : Value} (h : pyEq v w = true) : simEq v w = true :=
  eqWith_mono (fun _ _ _ _ h => (pyScalarEq_iff.1 h).1) v w h

theorem pyEq_symm {v w : Value} (hv : v.wf = true) (hw : w.wf = true) (h : pyEq v w = true) :
    pyEq w v = true :=
  eqWith_symm (fun _ _ hv hw h => pyScalarEq_symm hv hw h) v w hv hw h

theorem pyEq_trans {u v w : Value} (h1 : pyEq u v = true) (h2 : pyEq v w = true) :
    pyEq u w = true :=
  eqWith_trans (fun u v w hu hv hw h1 h2 => by
    rw [pyScalarEq_iff] at *
    exact ⟨(simScalarEq_iff hu hw).2
      (((simScalarEq_iff hu hv).1 h1.1).trans ((simScalarEq_iff hv hw).1 h2.1)), h1.2⟩) u v w h1 h2

/-- Python's `==` does not distinguish values that are equal up to NaN. -/
theorem pyEq_simEq {u v w : Value} (h1 : pyEq u v = true) (h2 : simEq v w = true) :
    pyEq u w = true :=
  eqWith_trans3 (fun u v w hu hv hw h1 h2 => by
    rw [pyScalarEq_iff] at *
    exact ⟨(simScalarEq_iff hu hw).2
      (((simScalarEq_iff hu hv).1 h1.1).trans ((simScalarEq_iff hv hw).1 h2)), h1.2⟩) u v w h1 h2

theorem strictScalarEq_iff {a b : Value} (ha : a.isScalar = true) :
    strictScalarEq a b = true ↔ a = b := by
  cases a <;> cases b <;> simp_all [strictScalarEq, Value.isScalar]

theorem strictEq_refl {v : Value} (h : v.wf = true) : strictEq v v = true :=
  eqWith_refl (fun _ hv => (strictScalarEq_iff hv).2 rfl) v h

theorem strictEq_symm {v w : Value} (hv : v.wf = true) (hw : w.wf = true)
    (h : strictEq v w = true) : strictEq w v = true :=
  eqWith_symm (fun _ _ hv hw h =>
    (strictScalarEq_iff hw).2 ((strictScalarEq_iff hv).1 h).symm) v w hv hw h

theorem strictEq_trans {u v w : Value} (h1 : strictEq u v = true) (h2 : strictEq v w = true) :
    strictEq u w = true :=
  eqWith_trans (fun _ _ _ hu hv _ h1 h2 => (strictScalarEq_iff hu).2
    (((strictScalarEq_iff hu).1 h1).trans ((strictScalarEq_iff hv).1 h2))) u v w h1 h2

theorem simEq_of_strictEq {v w : Value} (h : strictEq v w = true) : simEq v w = true :=
  eqWith_mono (fun u v hu hv h => by
    rw [strictScalarEq_iff hu] at h; subst h; exact simScalarEq_refl hu) v w h

end Splitgill
