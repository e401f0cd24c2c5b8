import Verif.Proof.Query3
/-!
# Lemmas: the fields that values are copied to
-/

namespace Splitgill

theorem mem_esUnderElems {t : PyStr} {s : Value} : ∀ {l : List Value}, s ∈ esUnderElems t l ↔ ∃ v ∈ l, s ∈ esUnder t v
  | [] => by simp [esUnderElems]
  | v :: r => by
    rw [esUnderElems, List.mem_append, mem_esUnderElems]
    simp

theorem mem_esUnderItems {t : PyStr} {s : Value} : ∀ {d : Dict}, s ∈ esUnderItems t d ↔
    ∃ k v, (k, v) ∈ d ∧ ((k = t ∧ s ∈ esValues v []) ∨ s ∈ esUnder t v)
  | [] => by simp [esUnderItems]
  | (k, v) :: r => by
    rw [esUnderItems, List.mem_append, List.mem_append, mem_esUnderItems]
    constructor
    · rintro ((h | h) | ⟨k', v', h1, h2⟩)
      · split at h
        · exact ⟨k, v, List.mem_cons_self, .inl ⟨‹_›, h⟩⟩
        · cases h
      · exact ⟨k, v, List.mem_cons_self, .inr h⟩
      · exact ⟨k', v', List.mem_cons_of_mem _ h1, h2⟩
    · rintro ⟨k', v', h1, h2⟩
      rcases List.mem_cons.1 h1 with e | h1
      · cases e
        rcases h2 with ⟨rfl, h2⟩ | h2
        · exact .inl (.inl (by rw [if_pos rfl]; exact h2))
        · exact .inl (.inr h2)
      · exact .inr ⟨k', v', h1, h2⟩

/-- The values under a name are those at the paths that end with it. -/
theorem mem_esUnder {t : PyStr} {s : Value} : ∀ v : Value, v.wf = true → (s ∈ esUnder t v ↔ ∃ ks, s ∈ esValues v (ks ++ [t])) := by
  apply Value.ind'
  · intro v hv _
    have h1 : esUnder t v = [] := by cases v <;> first | rfl | cases hv
    have h2 : ∀ ks, esValues v (ks ++ [t]) = [] := by
      intro ks
      cases ks <;> cases v <;> first | rfl | cases hv
    simp [h1, h2]
  · intro l ih hw
    have hw' := wf_list_iff.1 hw
    rw [esUnder, mem_esUnderElems]
    constructor
    · rintro ⟨v, hv, h⟩
      obtain ⟨ks, h⟩ := (ih v hv (hw' v hv)).1 h
      refine ⟨ks, ?_⟩
      rw [show esValues (.list l) (ks ++ [t]) = esElems l (ks ++ [t]) from by cases ks <;> rfl, mem_esElems]
      exact ⟨v, hv, h⟩
    · rintro ⟨ks, h⟩
      rw [show esValues (.list l) (ks ++ [t]) = esElems l (ks ++ [t]) from by cases ks <;> rfl, mem_esElems] at h
      obtain ⟨v, hv, h⟩ := h
      exact ⟨v, hv, (ih v hv (hw' v hv)).2 ⟨ks, h⟩⟩
  · intro d ih hw
    have hw' := wf_dict_iff.1 hw
    rw [esUnder, mem_esUnderItems]
    constructor
    · rintro ⟨k, v, hv, ⟨rfl, h⟩ | h⟩
      · refine ⟨[], ?_⟩
        rw [List.nil_append, show esValues (.dict d) [k] = esItems d k [] from rfl, esItems_eq, aget_of_mem hw'.1 hv]
        exact h
      · obtain ⟨ks, h⟩ := (ih k v hv (hw'.2 k v hv)).1 h
        refine ⟨k :: ks, ?_⟩
        rw [List.cons_append, show esValues (.dict d) (k :: (ks ++ [t])) = esItems d k (ks ++ [t]) from rfl, esItems_eq,
          aget_of_mem hw'.1 hv]
        exact h
    · rintro ⟨ks, h⟩
      cases ks with
      | nil =>
        rw [List.nil_append, show esValues (.dict d) [t] = esItems d t [] from rfl, esItems_eq] at h
        cases hk : aget t d with
        | none => rw [hk] at h; cases h
        | some v => rw [hk] at h; exact ⟨t, v, aget_mem hk, .inl ⟨rfl, h⟩⟩
      | cons k ks =>
        rw [List.cons_append, show esValues (.dict d) (k :: (ks ++ [t])) = esItems d k (ks ++ [t]) from rfl, esItems_eq] at h
        cases hk : aget k d with
        | none => rw [hk] at h; cases h
        | some v =>
          rw [hk] at h
          have hv := aget_mem hk
          exact ⟨k, v, hv, .inr ((ih k v hv (hw'.2 k v hv)).2 ⟨ks, h⟩)⟩

/-- What is copied is what is at the paths with this last name and others before it. -/
theorem mem_esCopied {t : PType} {s : Value} {d : Dict} (hw : (Value.dict d).wf = true) :
    s ∈ esCopied t d ↔ ∃ ks, ks ≠ [] ∧ s ∈ esValues (.dict d) (ks ++ [t.name]) := by
  have hw' := wf_dict_iff.1 hw
  have h1 : ∀ d : Dict, s ∈ esCopied t d ↔ ∃ k v, (k, v) ∈ d ∧ s ∈ esUnder t.name v := by
    intro d
    induction d with
    | nil => simp [esCopied]
    | cons kv r ih =>
      obtain ⟨k, v⟩ := kv
      rw [esCopied, List.mem_append, ih]
      constructor
      · rintro (h | ⟨k', v', h1, h2⟩)
        · exact ⟨k, v, List.mem_cons_self, h⟩
        · exact ⟨k', v', List.mem_cons_of_mem _ h1, h2⟩
      · rintro ⟨k', v', h1, h2⟩
        rcases List.mem_cons.1 h1 with e | h1
        · cases e; exact .inl h2
        · exact .inr ⟨k', v', h1, h2⟩
  rw [h1]
  constructor
  · rintro ⟨k, v, hv, h⟩
    obtain ⟨ks, h⟩ := (mem_esUnder v (hw'.2 k v hv)).1 h
    refine ⟨k :: ks, by simp, ?_⟩
    rw [List.cons_append, show esValues (.dict d) (k :: (ks ++ [t.name])) = esItems d k (ks ++ [t.name]) from rfl, esItems_eq,
      aget_of_mem hw'.1 hv]
    exact h
  · rintro ⟨ks, hne, h⟩
    cases ks with
    | nil => exact absurd rfl hne
    | cons k ks =>
      rw [List.cons_append, show esValues (.dict d) (k :: (ks ++ [t.name])) = esItems d k (ks ++ [t.name]) from rfl, esItems_eq] at h
      cases hk : aget k d with
      | none => rw [hk] at h; cases h
      | some v =>
        rw [hk] at h
        have hv := aget_mem hk
        exact ⟨k, v, hv, (mem_esUnder v (hw'.2 k v hv)).2 ⟨ks, h⟩⟩

/-- A path that ends with a name. -/
theorem keysOf_split : ∀ (p : Path) (ks : List PyStr) (k : PyStr), keysOf p = ks ++ [k] →
    ∃ p0 q, p = p0 ++ [.key k] ++ q ∧ keysOf p0 = ks ∧ keysOf q = [] := by
  intro p
  induction p with
  | nil => intro ks k h; cases ks <;> cases h
  | cons a p ih =>
    intro ks k h
    cases a with
    | idx i =>
      have h' : keysOf p = ks ++ [k] := h
      obtain ⟨p0, q, rfl, h2, h3⟩ := ih ks k h'
      exact ⟨.idx i :: p0, q, rfl, h2, h3⟩
    | key k' =>
      have h' : k' :: keysOf p = ks ++ [k] := by simpa [keysOf, PathEl.name?] using h
      cases ks with
      | nil =>
        injection h' with e1 e2
        subst e1
        exact ⟨[], p, rfl, rfl, e2⟩
      | cons k0 ks =>
        injection h' with e1 e2
        subst e1
        obtain ⟨p0, q, rfl, h2, h3⟩ := ih ks k e2
        exact ⟨.key k' :: p0, q, rfl, by simpa [keysOf, PathEl.name?] using h2, h3⟩

end Splitgill
