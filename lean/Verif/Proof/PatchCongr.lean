import Verif.Proof.Diff2
import Verif.Model.Record
/-!
# `patch` respects equality of its base
-/

namespace Splitgill

/-- All values carried by the ops are well formed. -/
structure Ops.Wf (o : Ops) : Prop where
  dn : ∀ e, o.dn = some e → ∀ k v, (k, v) ∈ e → v.wf = true
  dc : ∀ e, o.dc = some e → ∀ k v, (k, v) ∈ e → v.wf = true
  lc : ∀ e, o.lc = some e → ∀ i v, (i, v) ∈ e → v.wf = true
  ln : ∀ e, o.ln = some e → ∀ v ∈ e, v.wf = true

def OpsWf (ops : List DiffOp) : Prop := ∀ op ∈ ops, op.ops.Wf

section
variable (c : Value → Value → Bool)

/-- Both well formed and equal. -/
def VR (a b : Value) : Prop := a.wf = true ∧ b.wf = true ∧ eqWith c a b = true

/-- Related options. -/
def OR (a b : Option Value) : Prop :=
  (a = none ∧ b = none) ∨ ∃ v w, a = some v ∧ b = some w ∧ VR c v w

/-- Related dicts. -/
def DR (d d' : Dict) : Prop := (akeys d).Nodup ∧ (akeys d').Nodup ∧ ∀ k, OR c (aget k d) (aget k d')

variable {c}

theorem VR_dict {d d' : Dict} : VR c (.dict d) (.dict d') ↔ DR c d d' := by
  unfold VR DR
  rw [wf_dict_iff, wf_dict_iff]
  constructor
  · rintro ⟨⟨h1, h2⟩, ⟨h3, h4⟩, h5⟩
    refine ⟨h1, h3, ?_⟩
    rw [eqWith_dict_iff' h1 h3] at h5
    intro k
    by_cases hk : k ∈ akeys d
    · have hk' := (h5.1 k).1 hk
      obtain ⟨v, hv⟩ := Option.isSome_iff_exists.1 (aget_isSome_iff.2 hk)
      obtain ⟨w, hw⟩ := Option.isSome_iff_exists.1 (aget_isSome_iff.2 hk')
      exact .inr ⟨v, w, hv, hw, h2 _ _ (aget_mem hv), h4 _ _ (aget_mem hw), h5.2 k v w hv hw⟩
    · have hk' : k ∉ akeys d' := fun h => hk ((h5.1 k).2 h)
      exact .inl ⟨aget_eq_none_iff.2 hk, aget_eq_none_iff.2 hk'⟩
  · rintro ⟨h1, h3, h⟩
    refine ⟨⟨h1, ?_⟩, ⟨h3, ?_⟩, ?_⟩
    · intro k v hv
      have := aget_of_mem h1 hv
      rcases h k with ⟨e, _⟩ | ⟨x, y, hx, hy, hr⟩
      · rw [e] at this; cases this
      · rw [hx] at this; cases this; exact hr.1
    · intro k v hv
      have := aget_of_mem h3 hv
      rcases h k with ⟨_, e⟩ | ⟨x, y, hx, hy, hr⟩
      · rw [e] at this; cases this
      · rw [hy] at this; cases this; exact hr.2.1
    · rw [eqWith_dict_iff' h1 h3]
      refine ⟨fun k => ?_, fun k v w hv hw => ?_⟩
      · rw [← aget_isSome_iff, ← aget_isSome_iff]
        rcases h k with ⟨e, e'⟩ | ⟨x, y, hx, hy, hr⟩
        · simp [e, e']
        · simp [hx, hy]
      · rcases h k with ⟨e, e'⟩ | ⟨x, y, hx, hy, hr⟩
        · rw [hv] at e; cases e
        · rw [hv] at hx; rw [hw] at hy; cases hx; cases hy; exact hr.2.2

theorem VR_list {l l' : List Value} : VR c (.list l) (.list l') ↔ List.Forall₂ (VR c) l l' := by
  unfold VR
  rw [wf_list_iff, wf_list_iff, eqWith_list, eqListWith_iff]
  constructor
  · rintro ⟨h1, h2, h⟩
    induction h with
    | nil => exact .nil
    | cons h hs ih =>
      refine .cons ⟨h1 _ (by simp), h2 _ (by simp), h⟩ (ih ?_ ?_)
      · exact fun v hv => h1 v (by simp [hv])
      · exact fun v hv => h2 v (by simp [hv])
  · intro h
    induction h with
    | nil => simp
    | cons h hs ih =>
      obtain ⟨i1, i2, i3⟩ := ih
      refine ⟨?_, ?_, .cons h.2.2 i3⟩
      · intro v hv; rcases List.mem_cons.1 hv with e | hv'
        · rw [e]; exact h.1
        · exact i1 v hv'
      · intro v hv; rcases List.mem_cons.1 hv with e | hv'
        · rw [e]; exact h.2.1
        · exact i2 v hv'

theorem DR_aset {d d' : Dict} {k v v'} (h : DR c d d') (hv : VR c v v') :
    DR c (aset k v d) (aset k v' d') := by
  refine ⟨nodup_aset h.1, nodup_aset h.2.1, fun k' => ?_⟩
  rw [aget_aset, aget_aset]
  split
  · exact .inr ⟨v, v', rfl, rfl, hv⟩
  · exact h.2.2 k'

variable (hrefl : ∀ v, v.isScalar = true → c v v = true)
include hrefl

theorem VR_refl {v : Value} (h : v.wf = true) : VR c v v := ⟨h, h, eqWith_refl hrefl v h⟩

theorem DR_aupdate : ∀ {e d d' : Dict}, (∀ k v, (k, v) ∈ e → v.wf = true) → DR c d d' →
    DR c (aupdate d e) (aupdate d' e)
  | [], _, _, _, h => h
  | (k, v) :: e, d, d', he, h => by
    have e1 : ∀ d : Dict, aupdate d ((k, v) :: e) = aupdate (aset k v d) e := fun _ => rfl
    rw [e1, e1]
    exact DR_aupdate (fun k v hv => he k v (List.mem_cons_of_mem _ hv))
      (DR_aset h (VR_refl hrefl (he k v (by simp))))

theorem DR_updateIf {o : Option Dict} {d d' : Dict} (ho : ∀ e, o = some e → ∀ k v, (k, v) ∈ e → v.wf = true)
    (h : DR c d d') : DR c (updateIf d o) (updateIf d' o) := by
  cases o with
  | none => exact h
  | some e => exact DR_aupdate hrefl (ho e rfl) h

omit hrefl in
theorem DR_aerase {d d' : Dict} {k} (h : DR c d d') : DR c (aerase k d) (aerase k d') := by
  refine ⟨nodup_aerase h.1, nodup_aerase h.2.1, fun k' => ?_⟩
  rw [aget_aerase k' k h.1, aget_aerase k' k h.2.1]
  split
  · exact .inl ⟨rfl, rfl⟩
  · exact h.2.2 k'

omit hrefl in
theorem DR_ahas {d d' : Dict} (h : DR c d d') (k) : ahas k d = ahas k d' := by
  unfold ahas
  rcases h.2.2 k with ⟨e, e'⟩ | ⟨x, y, hx, hy, hr⟩
  · simp [e, e']
  · simp [hx, hy]

omit hrefl in
theorem DR_delKeys : ∀ {ks d d'} {r : Dict}, DR c d d' → delKeys ks d = .ok r →
    ∃ r', delKeys ks d' = .ok r' ∧ DR c r r'
  | [], d, d', r, h, hr => by
    simp only [delKeys] at hr; cases hr; exact ⟨d', rfl, h⟩
  | k :: ks, d, d', r, h, hr => by
    rw [delKeys] at hr ⊢
    rw [← DR_ahas h k]
    split at hr
    · rename_i hk; rw [if_pos hk]; exact DR_delKeys (DR_aerase h) hr
    · cases hr

omit hrefl in
theorem DR_delKeysIf {ks d d'} {r : Dict} (h : DR c d d') (hr : delKeysIf d ks = .ok r) :
    ∃ r', delKeysIf d' ks = .ok r' ∧ DR c r r' := by
  cases ks with
  | none => cases hr; exact ⟨d', rfl, h⟩
  | some ks => exact DR_delKeys h hr

omit hrefl in
theorem forall₂_set {l l' : List Value} {i v v'} (h : List.Forall₂ (VR c) l l') (hv : VR c v v') :
    List.Forall₂ (VR c) (l.set i v) (l'.set i v') := by
  induction h generalizing i with
  | nil => exact .nil
  | cons h hs ih =>
    cases i with
    | zero => exact .cons hv hs
    | succ i => exact .cons h ih

theorem LR_setIndexes : ∀ {cs} {l l' r : List Value}, (∀ i v, (i, v) ∈ cs → v.wf = true) →
    List.Forall₂ (VR c) l l' → setIndexes cs l = .ok r →
    ∃ r', setIndexes cs l' = .ok r' ∧ List.Forall₂ (VR c) r r'
  | [], l, l', r, _, h, hr => by
    simp only [setIndexes] at hr; cases hr; exact ⟨l', rfl, h⟩
  | (i, v) :: cs, l, l', r, hw, h, hr => by
    rw [setIndexes] at hr ⊢
    rw [← h.length_eq]
    split at hr
    · rename_i hk; rw [if_pos hk]
      exact LR_setIndexes (fun i v hv => hw i v (List.mem_cons_of_mem _ hv))
        (forall₂_set h (VR_refl hrefl (hw i v (by simp)))) hr
    · cases hr

theorem LR_setIndexesIf {cs} {l l' r : List Value} (hw : ∀ e, cs = some e → ∀ i v, (i, v) ∈ e → v.wf = true)
    (h : List.Forall₂ (VR c) l l') (hr : setIndexesIf l cs = .ok r) :
    ∃ r', setIndexesIf l' cs = .ok r' ∧ List.Forall₂ (VR c) r r' := by
  cases cs with
  | none => cases hr; exact ⟨l', rfl, h⟩
  | some cs => exact LR_setIndexes hrefl (hw cs rfl) h hr

theorem LR_extendIf {o} {l l' : List Value} (hw : ∀ e, o = some e → ∀ v ∈ e, v.wf = true)
    (h : List.Forall₂ (VR c) l l') : List.Forall₂ (VR c) (extendIf l o) (extendIf l' o) := by
  cases o with
  | none => exact h
  | some e =>
    refine List.rel_append h ?_
    rw [List.forall₂_same]
    exact fun v hv => VR_refl hrefl (hw e rfl v hv)

omit hrefl in
theorem LR_truncIf {o} {l l' : List Value} (h : List.Forall₂ (VR c) l l') :
    List.Forall₂ (VR c) (truncIf l o) (truncIf l' o) := by
  cases o with
  | none => exact h
  | some n => exact List.forall₂_take n h

omit hrefl in
theorem VR_left_dict {d : Dict} {v} (h : VR c (.dict d) v) : ∃ d', v = .dict d' := eqWith_dict_left h.2.2
omit hrefl in
theorem VR_left_list {l} {v} (h : VR c (.list l) v) : ∃ l', v = .list l' := by
  obtain ⟨b, h, _⟩ := eqWith_list_left h.2.2; exact ⟨b, h⟩

theorem applyOps_congr {o : Ops} (ho : o.Wf) {v v' r : Value} (h : VR c v v')
    (hr : applyOps o v = .ok r) : ∃ r', applyOps o v' = .ok r' ∧ VR c r r' := by
  cases v with
  | dict d =>
    obtain ⟨d', rfl⟩ := VR_left_dict h
    rw [VR_dict] at h
    have h1 := DR_updateIf hrefl ho.dn (DR_updateIf hrefl ho.dc h)
    simp only [applyOps, bind, Except.bind] at hr ⊢
    cases hd : delKeysIf (updateIf (updateIf d o.dc) o.dn) o.dd with
    | error e => rw [hd] at hr; cases hr
    | ok d1 =>
      obtain ⟨d2, e2, h2⟩ := DR_delKeysIf h1 hd
      rw [hd] at hr; rw [e2]
      dsimp only at hr ⊢
      split at hr
      · cases hr
      · split at hr
        · cases hr
        · split at hr
          · cases hr
          · cases hr
            exact ⟨.dict d2, rfl, VR_dict.2 h2⟩
  | list l =>
    obtain ⟨l', rfl⟩ := VR_left_list h
    rw [VR_list] at h
    simp only [applyOps, bind, Except.bind] at hr ⊢
    split at hr
    · cases hr
    · split at hr
      · cases hr
      · split at hr
        · cases hr
        · cases hd : setIndexesIf l o.lc with
          | error e => rw [hd] at hr; cases hr
          | ok l1 =>
            obtain ⟨l2, e2, h2⟩ := LR_setIndexesIf hrefl ho.lc h hd
            rw [hd] at hr; rw [e2]
            dsimp only at hr ⊢
            cases hr
            exact ⟨_, rfl, VR_list.2 (LR_truncIf (LR_extendIf hrefl ho.ln h2))⟩
  | _ => simp [applyOps] at hr

theorem applyAt_congr {o : Ops} (ho : o.Wf) : ∀ {p : Path} {v v' r : Value}, VR c v v' →
    applyAt o p v = .ok r → ∃ r', applyAt o p v' = .ok r' ∧ VR c r r'
  | [], v, v', r, h, hr => by
    have e : ∀ v, applyAt o [] v = applyOps o v := fun v => by unfold applyAt; rfl
    rw [e] at hr ⊢; exact applyOps_congr hrefl ho h hr
  | .key k :: p, v, v', r, h, hr => by
    cases v with
    | dict d =>
      obtain ⟨d', rfl⟩ := VR_left_dict h
      rw [VR_dict] at h
      simp only [applyAt] at hr ⊢
      rcases h.2.2 k with ⟨e, e'⟩ | ⟨x, y, hx, hy, hxy⟩
      · rw [e] at hr; cases hr
      · rw [hx] at hr; rw [hy]
        simp only [bind, Except.bind] at hr ⊢
        cases ha : applyAt o p x with
        | error e => rw [ha] at hr; cases hr
        | ok x' =>
          obtain ⟨y', ey, hy'⟩ := applyAt_congr ho hxy ha
          rw [ha] at hr; rw [ey]
          cases hr
          exact ⟨_, rfl, VR_dict.2 (DR_aset h hy')⟩
    | _ => simp [applyAt] at hr
  | .idx i :: p, v, v', r, h, hr => by
    cases v with
    | list l =>
      obtain ⟨l', rfl⟩ := VR_left_list h
      rw [VR_list] at h
      simp only [applyAt] at hr ⊢
      have hg : (l[i]? = none ∧ l'[i]? = none) ∨ ∃ x y, l[i]? = some x ∧ l'[i]? = some y ∧ VR c x y := by
        by_cases hi : i < l.length
        · have hi' : i < l'.length := h.length_eq ▸ hi
          exact .inr ⟨l[i], l'[i], List.getElem?_eq_getElem hi, List.getElem?_eq_getElem hi', h.get hi hi'⟩
        · have hi' : ¬ i < l'.length := h.length_eq ▸ hi
          exact .inl ⟨List.getElem?_eq_none (by omega), List.getElem?_eq_none (by omega)⟩
      rcases hg with ⟨e, e'⟩ | ⟨x, y, hx, hy, hxy⟩
      · rw [e] at hr; cases hr
      · rw [hx] at hr; rw [hy]
        simp only [bind, Except.bind] at hr ⊢
        cases ha : applyAt o p x with
        | error e => rw [ha] at hr; cases hr
        | ok x' =>
          obtain ⟨y', ey, hy'⟩ := applyAt_congr ho hxy ha
          rw [ha] at hr; rw [ey]
          cases hr
          exact ⟨_, rfl, VR_list.2 (forall₂_set h hy')⟩
    | _ => simp [applyAt] at hr

theorem patch_congr : ∀ {ops : List DiffOp} {v v' r : Value}, OpsWf ops → VR c v v' →
    patch v ops = .ok r → ∃ r', patch v' ops = .ok r' ∧ VR c r r'
  | [], v, v', r, _, h, hr => by
    simp only [patch, List.foldlM_nil, pure, Except.pure] at hr ⊢; cases hr; exact ⟨v', rfl, h⟩
  | op :: ops, v, v', r, ho, h, hr => by
    simp only [patch, List.foldlM_cons, bind, Except.bind] at hr ⊢
    cases ha : applyAt op.ops op.path v with
    | error e => rw [ha] at hr; cases hr
    | ok x =>
      obtain ⟨y, ey, hy⟩ := applyAt_congr hrefl (ho op (by simp)) h ha
      rw [ha] at hr; rw [ey]
      exact patch_congr (ops := ops) (fun o h => ho o (List.mem_cons_of_mem _ h)) hy hr

theorem patchDict_congr {ops : List DiffOp} {d d' r : Dict} (ho : OpsWf ops) (h : VR c (.dict d) (.dict d'))
    (hr : patchDict d ops = .ok r) : ∃ r', patchDict d' ops = .ok r' ∧ VR c (.dict r) (.dict r') := by
  unfold patchDict at hr
  cases hp : patch (.dict d) ops with
  | error e => rw [hp] at hr; cases hr
  | ok x =>
    rw [hp] at hr
    cases x with
    | dict x =>
      cases hr
      obtain ⟨y, ey, hy⟩ := patch_congr hrefl ho h hp
      obtain ⟨d2, rfl⟩ := VR_left_dict hy
      exact ⟨d2, by rw [patchDict, ey], hy⟩
    | _ => cases hr

end

/-! ## The ops of a diff are well formed -/

theorem dictLoop_wf {path : Path} {b : Dict} (hb : ∀ k v, (k, v) ∈ b → v.wf = true) : ∀ {a : Dict} {k v},
    (k, v) ∈ (dictLoop path b a).1 → v.wf = true
  | [], k, v, h => by simp [dictLoop] at h
  | (key, lv) :: rest, k, v, h => by
    have ih := fun k v => dictLoop_wf (path := path) hb (a := rest) (k := k) (v := v)
    rw [dictLoop] at h
    dsimp only at h
    split at h
    · exact ih k v h
    · rename_i w hw
      split at h
      · exact ih k v h
      · split at h
        · exact ih k v h
        · exact ih k v h
        · rcases List.mem_cons.1 h with e | h'
          · cases e; exact hb _ _ (aget_mem hw)
          · exact ih k v h'

theorem listLoop_wf {path : Path} : ∀ {i : Nat} {a b : List Value}, (∀ v ∈ b, v.wf = true) →
    (∀ j v, (j, v) ∈ (listLoop path i a b).changes → v.wf = true) ∧
    (∀ e, (listLoop path i a b).ln = some e → ∀ v ∈ e, v.wf = true)
  | i, [], [], _ => by simp [listLoop]
  | i, [], r :: rs, h => by simpa [listLoop] using h
  | i, _ :: _, [], _ => by simp [listLoop]
  | i, l :: ls, r :: rs, h => by
    have ih := listLoop_wf (path := path) (i := i + 1) (a := ls) (b := rs)
      (fun v hv => h v (List.mem_cons_of_mem _ hv))
    unfold listLoop
    dsimp only
    split
    · exact ih
    · split
      · exact ih
      · exact ih
      · refine ⟨?_, ih.2⟩
        intro j v hj
        rcases List.mem_cons.1 hj with e | hj'
        · cases e; exact h _ (by simp)
        · exact ih.1 j v hj'

theorem nonEmpty_some {α} {l e : List α} (h : nonEmpty l = some e) : e = l := by
  unfold nonEmpty at h; split at h
  · cases h
  · cases h; rfl

theorem compare_opsWf {cm : Comparison} (hw : cm.wf) {op} (h : cm.compare.1 = some op) : op.ops.Wf := by
  cases cm with
  | dict p a b =>
    have hb := (wf_dict_iff.1 hw.2).2
    simp only [Comparison.compare, dictCompare] at h
    split at h
    · cases h
      constructor
      · intro e he k v hv
        have := nonEmpty_some he; subst this
        exact hb k v (List.mem_filter.1 hv).1
      · intro e he k v hv
        have := nonEmpty_some he; subst this
        exact dictLoop_wf hb hv
      · intro e he; cases he
      · intro e he; cases he
    · cases h
  | list p a b =>
    have hb := wf_list_iff.1 hw.2
    have := listLoop_wf (path := p) (i := 0) (a := a) hb
    simp only [Comparison.compare, listCompare] at h
    split at h
    · cases h
      constructor
      · intro e he; cases he
      · intro e he; cases he
      · intro e he k v hv
        have h' := nonEmpty_some he; subst h'
        exact this.1 k v hv
      · exact this.2
    · cases h

theorem bfs_opsWf : ∀ (fuel : Nat) (q : List Comparison), (∀ c ∈ q, c.wf) → OpsWf (bfs fuel q)
  | 0, q, _ => by intro op h; simp [bfs] at h
  | fuel + 1, [], _ => by intro op h; simp [bfs] at h
  | fuel + 1, c :: q, hq => by
    intro op h
    simp only [bfs, List.mem_append, Option.mem_toList] at h
    rcases h with h | h
    · exact compare_opsWf (hq c (by simp)) h
    · refine bfs_opsWf fuel _ ?_ op h
      intro c' hc'
      rcases List.mem_append.1 hc' with hc' | hc'
      · exact hq c' (by simp [hc'])
      · exact ((further_spec c (hq c (by simp))).1 c' hc').1

theorem diff_opsWf {a b : Dict} (ha : (Value.dict a).wf = true) (hb : (Value.dict b).wf = true)
    {ops} (h : diff (.dict a) (.dict b) = .ok ops) : OpsWf ops := by
  rcases diff_cases (base := a) (new := b) with ⟨_, h2⟩ | ⟨_, h2⟩
  · rw [h2] at h; cases h; intro op h; cases h
  · rw [h2] at h; cases h
    apply bfs_opsWf
    intro c hc; simp at hc; subst hc; exact ⟨ha, hb⟩

end Splitgill
