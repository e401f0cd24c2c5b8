import Verif.Proof.Diff
/-!
# `diff` finds exactly the changes; type exactness
-/

namespace Splitgill

theorem nonEmpty_ne {α} {l e : List α} (h : nonEmpty l = some e) : e ≠ [] := by
  unfold nonEmpty at h
  cases l with
  | nil => simp at h
  | cons a l => simp at h; subst h; simp

theorem listLoop_ln_ne {path : Path} : ∀ {i : Nat} {a b e}, (listLoop path i a b).ln = some e →
    e ≠ []
  | i, [], [], e, h => by simp [listLoop] at h
  | i, [], r :: rs, e, h => by simp [listLoop] at h; subst h; simp
  | i, l :: ls, [], e, h => by simp [listLoop] at h
  | i, l :: ls, r :: rs, e, h => by
    rw [listLoop_cons] at h; exact listLoop_ln_ne h

theorem compare_nontrivial {c : Comparison} {op : DiffOp} (h : c.compare.1 = some op) :
    op.ops.nontrivial := by
  cases c with
  | dict p a b =>
    simp only [Comparison.compare, dictCompare] at h
    split at h
    · next ht =>
      cases h
      simp only [Ops.truthy, Option.isSome_none, Bool.or_false, Bool.or_eq_true,
        Option.isSome_iff_exists] at ht
      rcases ht with (⟨e, he⟩ | ⟨e, he⟩) | ⟨e, he⟩
      · exact Or.inl ⟨e, he, nonEmpty_ne he⟩
      · exact Or.inr (Or.inl ⟨e, he, nonEmpty_ne he⟩)
      · exact Or.inr (Or.inr (Or.inl ⟨e, he, nonEmpty_ne he⟩))
    · cases h
  | list p a b =>
    simp only [Comparison.compare, listCompare] at h
    split at h
    · next ht =>
      cases h
      simp only [Ops.truthy, Option.isSome_none, Bool.false_or, Bool.or_eq_true,
        Option.isSome_iff_exists] at ht
      rcases ht with (⟨e, he⟩ | ⟨e, he⟩) | ⟨e, he⟩
      · exact Or.inr (Or.inr (Or.inr (Or.inl ⟨e, he, nonEmpty_ne he⟩)))
      · exact Or.inr (Or.inr (Or.inr (Or.inr (Or.inl ⟨e, he, listLoop_ln_ne he⟩))))
      · exact Or.inr (Or.inr (Or.inr (Or.inr (Or.inr ⟨e, he⟩))))
    · cases h

theorem childC_nil {p : Path} {l r : Value} (h : childC p l r = [])
    (h' : (pyEq l r || sameKind l r) = true) : pyEq l r = true := by
  by_cases hp : pyEq l r
  · exact hp
  · cases l <;> cases r <;> simp_all [childC, sameKind]

theorem dictLoop_nil {path : Path} {b : Dict} : ∀ {a : Dict}, dictLoop path b a = ([], []) →
    ∀ k v w, (k, v) ∈ a → aget k b = some w → pyEq v w = true
  | [], _, k, v, w, h, _ => by simp at h
  | (k', v') :: rest, h, k, v, w, hm, hb => by
    rw [dictLoop_cons] at h
    cases hg : aget k' b with
    | none =>
      rw [hg] at h
      rcases List.mem_cons.1 hm with e | hm
      · cases e; rw [hb] at hg; cases hg
      · exact dictLoop_nil h k v w hm hb
    | some w' =>
      rw [hg] at h
      simp only [Prod.mk.injEq, List.append_eq_nil_iff] at h
      rcases List.mem_cons.1 hm with e | hm
      · cases e
        rw [hb] at hg; cases hg
        refine childC_nil h.2.1 ?_
        have h1 := h.1.1
        split at h1
        · assumption
        · simp at h1
      · exact dictLoop_nil (Prod.ext h.1.2 h.2.2) k v w hm hb

theorem listLoop_nil {path : Path} : ∀ {i : Nat} {a b : List Value},
    (listLoop path i a b).changes = [] → (listLoop path i a b).ln = none →
    (listLoop path i a b).ld = none → (listLoop path i a b).further = [] →
    List.Forall₂ (fun x y => pyEq x y = true) a b
  | i, [], [], _, _, _, _ => by simp
  | i, [], r :: rs, _, h, _, _ => by simp [listLoop] at h
  | i, l :: ls, [], _, _, h, _ => by simp [listLoop] at h
  | i, l :: ls, r :: rs, h1, h2, h3, h4 => by
    rw [listLoop_cons] at h1 h2 h3 h4
    simp only [List.append_eq_nil_iff] at h1 h2 h3 h4
    refine List.Forall₂.cons (childC_nil h4.1 ?_) (listLoop_nil h1.2 h2 h3 h4.2)
    have h1 := h1.1
    split at h1
    · assumption
    · simp at h1

theorem compare_none {c : Comparison} (hw : c.wf) (h1 : c.compare.1 = none)
    (h2 : c.compare.2 = []) : pyEq c.left c.right = true := by
  cases c with
  | dict p a b =>
    have ha := (wf_dict_iff.1 hw.1).1
    have hb := (wf_dict_iff.1 hw.2).1
    simp only [Comparison.compare, dictCompare] at h1 h2
    split at h1
    · cases h1
    · next hf =>
      simp only [Ops.truthy, Option.isSome_none, Bool.or_false, Bool.not_eq_true,
          Bool.or_eq_false_iff] at hf
      have e1 := nonEmpty_none hf.1.1
      have e2 := nonEmpty_none hf.1.2
      have e3 := dictLoop_nil (Prod.ext (nonEmpty_none hf.2) h2)
      show eqWith _ (.dict a) (.dict b) = true
      rw [eqWith_dict_iff' ha hb]
      refine ⟨fun k => ⟨fun hk => ?_, fun hk => ?_⟩, fun k v w hv hw => e3 k v w (aget_mem hv) hw⟩
      · have := (List.filter_eq_nil_iff.1 e2) k hk
        simpa [ahas_iff] using this
      · obtain ⟨⟨k', v⟩, hm, rfl⟩ := List.mem_map.1 hk
        have := (List.filter_eq_nil_iff.1 e1) _ hm
        simpa [ahas_iff] using this
  | list p a b =>
    simp only [Comparison.compare, listCompare] at h1 h2
    split at h1
    · cases h1
    · next hf =>
      simp only [Ops.truthy, Option.isSome_none, Bool.or_false, Bool.false_or, Bool.not_eq_true,
          Bool.or_eq_false_iff, Option.isSome_eq_false_iff, Option.isNone_iff_eq_none] at hf
      have e0 : (nonEmpty (listLoop p 0 a b).changes).isSome = false := by rw [hf.1.1]; rfl
      show eqWith _ (.list a) (.list b) = true
      rw [eqWith_list, eqListWith_iff]
      exact listLoop_nil (nonEmpty_none e0) hf.1.2 hf.2 h2

theorem bfs_ne_nil : ∀ (fuel : Nat) (q : List Comparison), weight q ≤ fuel → (∀ c ∈ q, c.wf) →
    (∃ c ∈ q, pyEq c.left c.right = false) → bfs fuel q ≠ []
  | _, [], _, _, h => by simp at h
  | 0, c :: q, hw, _, _ => absurd hw (by have := weight_pos (c := c) (q := q); omega)
  | fuel + 1, c :: q, hw, hwf, ⟨x, hx, hne⟩ => by
    simp only [bfs]
    cases hop : c.compare.1 with
    | some op => simp
    | none =>
      simp only [Option.toList_none, List.nil_append]
      obtain ⟨hs, _, _⟩ := further_spec c (hwf c (by simp))
      refine bfs_ne_nil fuel _ (weight_step hw) ?_ ?_
      · intro f hf
        rcases List.mem_append.1 hf with hf | hf
        · exact hwf f (by simp [hf])
        · exact (hs f hf).1
      · rcases List.mem_cons.1 hx with e | hx
        · subst e
          cases hfur : x.compare.2 with
          | nil =>
            have := compare_none (hwf x (by simp)) hop hfur
            rw [hne] at this; cases this
          | cons f fs =>
            have hf : f ∈ x.compare.2 := by simp [hfur]
            exact ⟨f, by simp, (hs f hf).2.2⟩
        · exact ⟨x, by simp [hx], hne⟩

theorem bfs_nontrivial : ∀ (fuel : Nat) (q : List Comparison), ∀ op ∈ bfs fuel q,
    op.ops.nontrivial
  | 0, _, op, h => by simp [bfs] at h
  | fuel + 1, [], op, h => by simp [bfs] at h
  | fuel + 1, c :: q, op, h => by
    simp only [bfs, List.mem_append, Option.mem_toList] at h
    rcases h with h | h
    · exact compare_nontrivial h
    · exact bfs_nontrivial fuel _ op h

theorem bfs_paths : ∀ (fuel : Nat) (q : List Comparison), (∀ c ∈ q, c.wf) → ∀ op ∈ bfs fuel q,
    ∃ c ∈ q, ∃ r, op.path = c.path ++ r
  | 0, _, _, op, h => by simp [bfs] at h
  | fuel + 1, [], _, op, h => by simp [bfs] at h
  | fuel + 1, c :: q, hw, op, h => by
    simp only [bfs, List.mem_append, Option.mem_toList] at h
    have hc := hw c (by simp)
    obtain ⟨hs, _, _⟩ := further_spec c hc
    rcases h with h | h
    · exact ⟨c, by simp, [], by simp [((compare_op c hc).1 op h).1]⟩
    · obtain ⟨f, hf, r, hr⟩ := bfs_paths fuel _ (by
        intro f hf
        rcases List.mem_append.1 hf with hf | hf
        · exact hw f (by simp [hf])
        · exact (hs f hf).1) op h
      rcases List.mem_append.1 hf with hf | hf
      · exact ⟨f, by simp [hf], r, hr⟩
      · obtain ⟨e, he, _⟩ := (hs f hf).2.1
        exact ⟨c, by simp, [e] ++ r, by rw [hr, he]; simp⟩

theorem bfs_paths_nodup : ∀ (fuel : Nat) (q : List Comparison), (∀ c ∈ q, c.wf) →
    q.Pairwise (fun c c' => Indep c.path c'.path) → ((bfs fuel q).map DiffOp.path).Nodup
  | 0, _, _, _ => by simp [bfs]
  | fuel + 1, [], _, _ => by simp [bfs]
  | fuel + 1, c :: q, hw, hp => by
    have hc := hw c (by simp)
    obtain ⟨hs, hpw, _⟩ := further_spec c hc
    have hp' := List.pairwise_cons.1 hp
    have hw' : ∀ f ∈ q ++ c.compare.2, f.wf := by
      intro f hf
      rcases List.mem_append.1 hf with hf | hf
      · exact hw f (by simp [hf])
      · exact (hs f hf).1
    have ih := bfs_paths_nodup fuel (q ++ c.compare.2) hw' (by
      rw [List.pairwise_append]
      refine ⟨hp'.2, hpw, fun f hf g hg => ?_⟩
      obtain ⟨e, he, _⟩ := (hs g hg).2.1
      rw [he]
      exact ((hp'.1 f hf).append_left _).symm)
    simp only [bfs]
    cases hop : c.compare.1 with
    | none => simpa using ih
    | some op =>
      simp only [Option.toList_some, List.singleton_append, List.map_cons, List.nodup_cons]
      refine ⟨?_, ih⟩
      intro hm
      obtain ⟨op', hop', he⟩ := List.mem_map.1 hm
      have hpath := ((compare_op c hc).1 op hop).1
      obtain ⟨f, hf, r, hr⟩ := bfs_paths fuel _ hw' op' hop'
      rw [he, hpath] at hr
      rcases List.mem_append.1 hf with hf | hf
      · exact ((hp'.1 f hf).append_right r).ne hr
      · obtain ⟨e, he, _⟩ := (hs f hf).2.1
        rw [he] at hr
        have := congrArg List.length hr
        simp at this

theorem diff_cases {base new : Dict} :
    (pyEq (.dict base) (.dict new) = true ∧ diff (.dict base) (.dict new) = .ok []) ∨
    (pyEq (.dict base) (.dict new) = false ∧
      diff (.dict base) (.dict new) = .ok (bfs (Value.dict base).size [.dict [] base new])) := by
  by_cases h : pyEq (.dict base) (.dict new)
  · left; simp [diff, h]
  · right; simp [diff, h]

theorem diff_nil_iff {base new : Dict} (hb : (Value.dict base).wf = true)
    (hn : (Value.dict new).wf = true) :
    diff (.dict base) (.dict new) = .ok [] ↔ pyEq (.dict base) (.dict new) = true := by
  rcases diff_cases (base := base) (new := new) with ⟨h1, h2⟩ | ⟨h1, h2⟩
  · simp [h1, h2]
  · rw [h1, h2]
    simp only [Except.ok.injEq, Bool.false_eq_true, iff_false]
    refine bfs_ne_nil _ _ (by simp [weight, Comparison.left]) ?_ ⟨.dict [] base new, by simp, h1⟩
    intro c hc; simp at hc; subst hc; exact ⟨hb, hn⟩

/-! ## Type exactness -/

theorem NoPun.list {a b : List Value} {i : Nat} {v w : Value} (h : NoPun (.list a) (.list b))
    (hv : a[i]? = some v) (hw : b[i]? = some w) : NoPun v w := by
  intro p x y hx hy
  exact h (.idx i :: p) x y (by simp [getAt, hv, hx]) (by simp [getAt, hw, hy])

theorem NoPun.dict {a b : Dict} {k v w} (h : NoPun (.dict a) (.dict b))
    (hv : aget k a = some v) (hw : aget k b = some w) : NoPun v w := by
  intro p x y hx hy
  exact h (.key k :: p) x y (by simp [getAt, hv, hx]) (by simp [getAt, hw, hy])

theorem strictEq_of_simEq : ∀ (l r : Value), l.wf = true → r.wf = true → NoPun l r →
    simEq l r = true → strictEq l r = true := by
  refine Value.ind' ?_ ?_ ?_
  · intro l hs r _ _ hn h
    have h' := h
    rw [simEq, eqWith_scalar_left hs, Bool.and_eq_true] at h'
    have : l = r := by
      by_cases hnan : l.num = some .nan
      · have h2 := h'.2
        have key : ∀ v : Value, v.num = some .nan → v = .float .nan := by
          intro v hv
          unfold Value.num at hv
          split at hv <;> simp_all
        have hr' : r.num = some .nan := by
          rw [key l hnan] at h2
          unfold simScalarEq at h2
          split at h2
          · rename_i e _; cases e
          · rename_i e _; cases e
          · split at h2
            · rename_i e1 e2
              have e1 : some PyFloat.nan = some _ := e1
              cases e1
              rw [e2, ← of_decide_eq_true h2]
            · cases h2
        rw [key l hnan, key r hr']
      · exact hn [] l r rfl rfl hs h'.1 (by
          rw [pyEq, eqWith_scalar_left hs, Bool.and_eq_true]
          exact ⟨h'.1, pyScalarEq_iff.2 ⟨h'.2, hnan⟩⟩)
    subst this
    exact strictEq_refl (wf_scalar hs)
  · intro l ih r hl hr hn h
    obtain ⟨b, rfl, h'⟩ := eqWith_list_left h
    rw [wf_list_iff] at hl hr
    have hn' := fun i v w => NoPun.list (i := i) (v := v) (w := w) hn
    show eqWith _ _ _ = true
    rw [eqWith_list, eqListWith_iff]
    rw [eqListWith_iff] at h'
    clear h hn
    induction h' with
    | nil => simp
    | cons h t ih' =>
      refine List.Forall₂.cons (ih _ (by simp) _ (hl _ (by simp)) (hr _ (by simp))
        (hn' 0 _ _ rfl rfl) h) ?_
      exact ih' (fun v hv => ih v (by simp [hv])) (fun v hv => hl v (by simp [hv]))
        (fun v hv => hr v (by simp [hv]))
        (fun i v w h1 h2 => hn' (i + 1) v w (by simpa using h1) (by simpa using h2))
  · intro d ih r hl hr hn h
    obtain ⟨b, rfl⟩ := eqWith_dict_left h
    rw [wf_dict_iff] at hl hr
    rw [simEq, eqWith_dict_iff' hl.1 hr.1] at h
    show eqWith _ _ _ = true
    rw [eqWith_dict_iff' hl.1 hr.1]
    refine ⟨h.1, fun k v w hv hw => ?_⟩
    exact ih k v (aget_mem hv) w (hl.2 _ _ (aget_mem hv)) (hr.2 _ _ (aget_mem hw))
      (hn.dict hv hw) (h.2 k v w hv hw)

theorem strictEq_of_pyEq (l r : Value) (hl : l.wf = true) (hr : r.wf = true) (hn : NoPun l r)
    (h : pyEq l r = true) : strictEq l r = true := strictEq_of_simEq l r hl hr hn (simEq_of_pyEq h)

theorem mergeV_strictEq {l r : Value} (hl : l.wf = true) (hr : r.wf = true) (h : NoPun l r) :
    strictEq (mergeV l r) r = true :=
  mergeV_eqWith (S := fun l r => l.wf = true ∧ r.wf = true ∧ NoPun l r)
    (fun _ hv => (strictScalarEq_iff hv).2 rfl)
    (fun l r hS hp => strictEq_of_pyEq l r hS.1 hS.2.1 hS.2.2 hp)
    (fun a b i v w hS hv hw => ⟨wf_list_iff.1 hS.1 _ (List.mem_of_getElem? hv),
      wf_list_iff.1 hS.2.1 _ (List.mem_of_getElem? hw), hS.2.2.list hv hw⟩)
    (fun a b k v w hS hv hw => ⟨(wf_dict_iff.1 hS.1).2 _ _ hv, (wf_dict_iff.1 hS.2.1).2 _ _ hw,
      hS.2.2.dict (aget_of_mem (wf_dict_iff.1 hS.1).1 hv) (aget_of_mem (wf_dict_iff.1 hS.2.1).1 hw)⟩)
    l r hl hr ⟨hl, hr, h⟩

theorem aget_mergeD {a b : Dict} {k v w} (ha : (akeys a).Nodup) (hb : (akeys b).Nodup)
    (hv : aget k a = some v) (hw : aget k b = some w) :
    aget k (mergeD b a ++ b.filter (fun kv => !ahas kv.1 a)) = some (mergeV v w) := by
  refine aget_of_mem (nodup_mergeD_append ha hb) ?_
  exact List.mem_append_left _ (mem_mergeD.2 ⟨v, w, aget_mem hv, hw, rfl⟩)

theorem mergeL_get : ∀ {a b : List Value} {j : Nat} {v w : Value}, a[j]? = some v →
    b[j]? = some w → (mergeL a b)[j]? = some (mergeV v w)
  | [], _, _, _, _, h, _ => by simp at h
  | _ :: _, [], _, _, _, _, h => by simp at h
  | a :: as, b :: bs, 0, v, w, h1, h2 => by simp at h1 h2; simp [mergeL, h1, h2]
  | a :: as, b :: bs, j + 1, v, w, h1, h2 => by
    simp only [List.getElem?_cons_succ] at h1 h2
    simpa [mergeL] using mergeL_get h1 h2

/-- Where two `==` scalars meet, the old one is kept. -/
theorem mergeV_keeps {p : Path} {l v : Value} (hv : getAt p l = some v) :
    ∀ {r w}, l.wf = true → r.wf = true → getAt p r = some w → v.isScalar = true →
    w.isScalar = true → pyEq v w = true → getAt p (mergeV l r) = some v := by
  refine getAt_ind (P := fun p l v => ∀ {r w}, l.wf = true → r.wf = true → getAt p r = some w →
    v.isScalar = true → w.isScalar = true → pyEq v w = true → getAt p (mergeV l r) = some v)
    ?_ ?_ ?_ p l v hv
  · intro v r w _ _ hr hs hws hp
    simp only [getAt, Option.some.injEq] at hr; subst hr
    rw [mergeV_eq, if_pos hp]; rfl
  · intro k p d x v hx hv' ih r w hl hr hw hs hws hp
    by_cases he : pyEq (.dict d) r
    · rw [mergeV_eq, if_pos he]; simp [getAt, hx, hv']
    · cases r with
      | dict b =>
        simp only [getAt] at hw
        obtain ⟨y, hy, hw⟩ := Option.bind_eq_some_iff.1 hw
        rw [wf_dict_iff] at hl hr
        rw [mergeV_eq, if_neg he]
        simp only [mergeC, getAt, aget_mergeD hl.1 hr.1 hx hy, Option.bind_some]
        exact ih (hl.2 _ _ (aget_mem hx)) (hr.2 _ _ (aget_mem hy)) hw hs hws hp
      | _ => simp [getAt] at hw
  · intro i p l x v hx hv' ih r w hl hr hw hs hws hp
    by_cases he : pyEq (.list l) r
    · rw [mergeV_eq, if_pos he]; simp [getAt, hx, hv']
    · cases r with
      | list b =>
        simp only [getAt] at hw
        obtain ⟨y, hy, hw⟩ := Option.bind_eq_some_iff.1 hw
        rw [wf_list_iff] at hl hr
        rw [mergeV_eq, if_neg he]
        simp only [mergeC, getAt, mergeL_get hx hy, Option.bind_some]
        exact ih (hl _ (List.mem_of_getElem? hx)) (hr _ (List.mem_of_getElem? hy)) hw hs hws hp
      | _ => simp [getAt] at hw

theorem strictEq_getAt {p : Path} {l v : Value} (hv : getAt p l = some v) :
    ∀ {r w}, strictEq l r = true → getAt p r = some w → strictEq v w = true := by
  refine getAt_ind (P := fun p l v => ∀ {r w}, strictEq l r = true → getAt p r = some w →
    strictEq v w = true) ?_ ?_ ?_ p l v hv
  · intro v r w h hr; simp only [getAt, Option.some.injEq] at hr; subst hr; exact h
  · intro k p d x v hx _ ih r w h hr
    obtain ⟨b, rfl⟩ := eqWith_dict_left h
    simp only [getAt] at hr
    obtain ⟨y, hy, hw⟩ := Option.bind_eq_some_iff.1 hr
    rw [strictEq, eqWith_dict_iff] at h
    obtain ⟨y', hy', hxy⟩ := h.2 k x (aget_mem hx)
    rw [hy] at hy'; cases hy'
    exact ih hxy hw
  · intro i p l x v hx _ ih r w h hr
    obtain ⟨b, rfl, h'⟩ := eqWith_list_left h
    simp only [getAt] at hr
    obtain ⟨y, hy, hw⟩ := Option.bind_eq_some_iff.1 hr
    rw [eqListWith_iff] at h'
    refine ih ?_ hw
    obtain ⟨hi, rfl⟩ := List.getElem?_eq_some_iff.1 hx
    obtain ⟨hi', rfl⟩ := List.getElem?_eq_some_iff.1 hy
    exact h'.get hi hi'

theorem mergeV_strictEq_iff {l r : Value} (hl : l.wf = true) (hr : r.wf = true) :
    strictEq (mergeV l r) r = true ↔ NoPun l r := by
  refine ⟨fun h p v w hv hw hs hws hp => ?_, mergeV_strictEq hl hr⟩
  have := strictEq_getAt (mergeV_keeps hv hl hr hw hs hws hp) h hw
  rw [strictEq, eqWith_scalar_left hs, Bool.and_eq_true] at this
  exact (strictScalarEq_iff hs).1 this.2

end Splitgill
