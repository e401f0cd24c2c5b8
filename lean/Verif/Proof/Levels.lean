import Verif.Spec.Levels
import Verif.Proof.Bson2
import Verif.Proof.EndToEnd
/-!
# The levels of documents
-/

namespace Splitgill

/-! ## Levels -/

theorem levelsList_le {n : Nat} : ∀ {l : List Value}, bsonLevelsList l ≤ n ↔ ∀ v ∈ l, bsonLevels v ≤ n
  | [] => by simp [bsonLevelsList]
  | v :: l => by rw [bsonLevelsList, Nat.max_le, levelsList_le, List.forall_mem_cons]

theorem levelsDict_le {n : Nat} : ∀ {d : Dict}, bsonLevelsDict d ≤ n ↔ ∀ kv ∈ d, bsonLevels kv.2 ≤ n
  | [] => by simp [bsonLevelsDict]
  | (k, v) :: d => by rw [bsonLevelsDict, Nat.max_le, levelsDict_le, List.forall_mem_cons]

theorem levels_list_le {n : Nat} {l : List Value} : bsonLevels (.list l) ≤ n + 1 ↔ ∀ v ∈ l, bsonLevels v ≤ n := by
  rw [bsonLevels, Nat.add_le_add_iff_right, levelsList_le]

theorem levels_dict_le {n : Nat} {d : Dict} : bsonLevels (.dict d) ≤ n + 1 ↔ ∀ kv ∈ d, bsonLevels kv.2 ≤ n := by
  rw [bsonLevels, Nat.add_le_add_iff_right, levelsDict_le]

theorem levels_dict_pos (d : Dict) : 1 ≤ bsonLevels (.dict d) := by rw [bsonLevels]; omega
theorem levels_list_pos (l : List Value) : 1 ≤ bsonLevels (.list l) := by rw [bsonLevels]; omega

theorem levels_scalar {v : Value} (h : v.isScalar = true) : bsonLevels v = 0 := by
  cases v <;> first | rfl | cases h

/-- What is in a value has fewer levels. -/
theorem levels_getAt {p : Path} {v w : Value} (h : getAt p v = some w) (hw : w.isScalar = false) : bsonLevels w + p.length ≤ bsonLevels v := by
  refine getAt_ind (P := fun p v w => w.isScalar = false → bsonLevels w + p.length ≤ bsonLevels v) ?_ ?_ ?_ p v w h hw
  · intro v _; exact Nat.le_refl _
  · intro k p d x v hx _ ih hs
    have h1 := ih hs
    have h2 := levelsDict_le.1 (Nat.le_refl (bsonLevelsDict d)) _ (aget_mem hx)
    rw [bsonLevels, List.length_cons]
    dsimp only at h2
    omega
  · intro i p l x v hx _ ih hs
    have h1 := ih hs
    have h2 := levelsList_le.1 (Nat.le_refl (bsonLevelsList l)) _ (List.mem_of_getElem? hx)
    rw [bsonLevels, List.length_cons]
    omega

theorem levels_le_of (n : Nat) : ∀ (v : Value), v.wf = true → (∀ p w, getAt p v = some w → w.isScalar = false → p.length < n) → bsonLevels v ≤ n := by
  induction n with
  | zero =>
    intro v _ h
    cases v with
    | list l => exact absurd (h [] _ rfl rfl) (by simp)
    | dict d => exact absurd (h [] _ rfl rfl) (by simp)
    | _ => exact Nat.le_refl _
  | succ n ih =>
    intro v hw h
    cases v with
    | list l =>
      refine levels_list_le.2 fun v hv => ?_
      refine ih v (wf_list_iff.1 hw v hv) fun p w hp hs => ?_
      obtain ⟨i, hi, rfl⟩ := List.getElem_of_mem hv
      have := h (.idx i :: p) w (by rw [getAt, List.getElem?_eq_getElem hi]; exact hp) hs
      simpa using this
    | dict d =>
      refine levels_dict_le.2 fun kv hv => ?_
      obtain ⟨k, v⟩ := kv
      have hwd := wf_dict_iff.1 hw
      refine ih v (hwd.2 k v hv) fun p w hp hs => ?_
      have := h (.key k :: p) w (by rw [getAt, aget_of_mem hwd.1 hv]; exact hp) hs
      simpa using this
    | _ => exact Nat.zero_le _

/-- The levels are those of the specification. -/
theorem nestedWithin_iff {n : Nat} {d : Dict} (hw : (Value.dict d).wf = true) : NestedWithin n d ↔ bsonLevels (.dict d) ≤ n := by
  constructor
  · exact fun h => levels_le_of n _ hw h
  · intro h p v hp hs
    have h1 := levels_getAt hp hs
    have : 1 ≤ bsonLevels v := by
      cases v with
      | list l => exact levels_list_pos l
      | dict d => exact levels_dict_pos d
      | _ => cases hs
    omega

/-- Data in which no more than `n` dicts and lists are nested. -/
def nestedClass (n : Nat) : DataClass where
  c := simScalarEq
  Q d := (Value.dict d).wf = true ∧ NestedWithin n d
  refl := plainClass.refl
  symm := plainClass.symm
  trans := plainClass.trans
  toSim h := h
  wf h := h.1
  closed {a b} h ha := ⟨h.2.1, fun p v hp hs => by
    obtain ⟨w, h1, h2⟩ := VR_getAt hp (plainClass.symm h)
    refine ha.2 p w h1 ?_
    cases v with
    | list l => obtain ⟨_, rfl⟩ := VR_left_list h2; rfl
    | dict d => obtain ⟨_, rfl⟩ := VR_left_dict h2; rfl
    | _ => cases hs⟩
  merge ha hb h := plainClass.merge ha.1 hb.1 h
  ofPyEq ha hb h := plainClass.ofPyEq ha.1 hb.1 h

theorem nestedClass_Q {n : Nat} {d : Dict} : (nestedClass n).Q d ↔ (Value.dict d).wf = true ∧ bsonLevels (.dict d) ≤ n :=
  ⟨fun h => ⟨h.1, (nestedWithin_iff h.1).1 h.2⟩, fun h => ⟨h.1, (nestedWithin_iff h.1).2 h.2⟩⟩

/-! ## Documents -/

/-- The levels of a diff operation. -/
theorem diffOp_levels_le {o : DiffOp} {n : Nat} (hn : 1 ≤ n) (h1 : ∀ d, o.ops.dn = some d → bsonLevels (.dict d) ≤ n)
    (h2 : ∀ d, o.ops.dc = some d → bsonLevels (.dict d) ≤ n) (h3 : ∀ l, o.ops.ln = some l → bsonLevels (.list l) ≤ n)
    (h4 : ∀ cs, o.ops.lc = some cs → ∀ c ∈ cs, bsonLevels c.2 + 2 ≤ n) : bsonLevels o.toBson ≤ n + 2 := by
  obtain ⟨path, ops⟩ := o
  refine levels_list_le.2 fun v hv => ?_
  rcases List.mem_cons.1 hv with rfl | hv
  · refine levels_list_le.2 fun v hv => ?_
    obtain ⟨e, _, rfl⟩ := List.mem_map.1 hv
    cases e <;> exact Nat.zero_le _
  rw [List.mem_singleton] at hv
  subst hv
  refine levels_dict_le.2 fun kv hkv => ?_
  simp only [List.mem_append] at hkv
  rcases hkv with ((((hkv | hkv) | hkv) | hkv) | hkv) | hkv
  · split at hkv
    · rename_i d hd
      rw [List.mem_singleton] at hkv
      subst hkv
      exact h1 d hd
    · cases hkv
  · split at hkv
    · rename_i l hd
      rw [List.mem_singleton] at hkv
      subst hkv
      obtain ⟨m, rfl⟩ : ∃ m, n = m + 1 := ⟨n - 1, by omega⟩
      refine levels_list_le.2 fun v hv => ?_
      obtain ⟨s, _, rfl⟩ := List.mem_map.1 hv
      exact Nat.zero_le _
    · cases hkv
  · split at hkv
    · rename_i d hd
      rw [List.mem_singleton] at hkv
      subst hkv
      exact h2 d hd
    · cases hkv
  · split at hkv
    · rename_i l hd
      rw [List.mem_singleton] at hkv
      subst hkv
      exact h3 l hd
    · cases hkv
  · split at hkv
    · rw [List.mem_singleton] at hkv
      subst hkv
      exact Nat.zero_le _
    · cases hkv
  · split at hkv
    · rename_i cs hd
      rw [List.mem_singleton] at hkv
      subst hkv
      obtain ⟨m, rfl⟩ : ∃ m, n = m + 1 := ⟨n - 1, by omega⟩
      refine levels_list_le.2 fun v hv => ?_
      obtain ⟨c, hc, rfl⟩ := List.mem_map.1 hv
      have := h4 cs hd c hc
      obtain ⟨k, rfl⟩ : ∃ k, m = k + 1 := ⟨m - 1, by omega⟩
      refine levels_list_le.2 fun v hv => ?_
      rcases List.mem_cons.1 hv with rfl | hv
      · exact Nat.zero_le _
      rw [List.mem_singleton] at hv
      subst hv
      omega
    · cases hkv

/-- The levels of a document. -/
theorem record_levels_le {r : MongoRecord} {n : Nat} : bsonLevels r.toBson ≤ n + 3 ↔
    bsonLevels (.dict r.data) ≤ n + 2 ∧ ∀ vd ∈ r.diffs, ∀ o ∈ vd.2, bsonLevels o.toBson ≤ n := by
  have hver : bsonLevels (match r.version with | some v => Value.int v | none => .none) = 0 := by cases r.version <;> rfl
  rw [MongoRecord.toBson, levels_dict_le]
  constructor
  · intro h
    refine ⟨h ("data".toList, .dict r.data) (by simp), fun vd hvd o ho => ?_⟩
    have hne : r.diffs.isEmpty = false := by
      cases hd : r.diffs with
      | nil => rw [hd] at hvd; cases hvd
      | cons _ _ => rfl
    have h1 := h ("diffs".toList, .dict (r.diffs.map (fun vd => (intStr vd.1, .list (vd.2.map DiffOp.toBson)))))
      (List.mem_append_right _ (by rw [hne]; simp))
    have h2 := levels_dict_le.1 h1 (intStr vd.1, .list (vd.2.map DiffOp.toBson)) (List.mem_map.2 ⟨vd, hvd, rfl⟩)
    exact levels_list_le.1 h2 _ (List.mem_map.2 ⟨o, ho, rfl⟩)
  · rintro ⟨h1, h2⟩ kv hkv
    rcases List.mem_append.1 hkv with hkv | hkv
    · simp only [List.mem_cons, List.not_mem_nil, or_false] at hkv
      rcases hkv with rfl | rfl | rfl
      · exact Nat.zero_le _
      · exact h1
      · exact Nat.le_trans (Nat.le_of_eq hver) (Nat.zero_le _)
    · split at hkv
      · cases hkv
      · rw [List.mem_singleton] at hkv
        subst hkv
        refine levels_dict_le.2 fun kv hkv => ?_
        obtain ⟨vd, hvd, rfl⟩ := List.mem_map.1 hkv
        refine levels_list_le.2 fun v hv => ?_
        obtain ⟨o, ho, rfl⟩ := List.mem_map.1 hv
        exact h2 vd hvd o ho

/-! ## `diff` -/

/-- What is compared is not nested too deep for its path. -/
def Comparison.RightNested (n : Nat) : Comparison → Prop
  | .dict path _ r => bsonLevels (.dict r) + path.length ≤ n
  | .list path _ r => bsonLevels (.list r) + path.length ≤ n ∧ 1 ≤ path.length

theorem dictLoop_nested {n : Nat} {path : Path} {right : Dict} (hr : bsonLevels (.dict right) + path.length ≤ n) : ∀ (left : Dict),
    (∀ kv ∈ (dictLoop path right left).1, kv ∈ right) ∧ ∀ c ∈ (dictLoop path right left).2, c.RightNested n
  | [] => ⟨fun _ h => (nomatch h), fun _ h => (nomatch h)⟩
  | (k, v) :: rest => by
    have ih := dictLoop_nested (path := path) hr rest
    rw [dictLoop]
    cases hg : aget k right with
    | none => exact ih
    | some w =>
      have hw : bsonLevels w + 1 ≤ bsonLevels (.dict right) := by
        have := levelsDict_le.1 (Nat.le_refl (bsonLevelsDict right)) _ (aget_mem hg)
        rw [bsonLevels]
        dsimp only at this
        omega
      dsimp only
      split
      · exact ih
      · split
        · rename_i l r
          refine ⟨ih.1, fun c hc => (List.mem_cons.1 hc).elim (fun e => ?_) (ih.2 c)⟩
          subst e
          simp only [Comparison.RightNested, List.length_append, List.length_singleton]
          omega
        · rename_i l r
          refine ⟨ih.1, fun c hc => (List.mem_cons.1 hc).elim (fun e => ?_) (ih.2 c)⟩
          subst e
          simp only [Comparison.RightNested, List.length_append, List.length_singleton]
          omega
        · exact ⟨fun kv h => (List.mem_cons.1 h).elim (fun e => e ▸ aget_mem hg) (ih.1 kv), ih.2⟩

theorem listLoop_nested {n m : Nat} {path : Path} (hm : m + 1 + path.length ≤ n) : ∀ (left right : List Value) (index : Nat),
    (∀ v ∈ right, bsonLevels v ≤ m) →
    (∀ c ∈ (listLoop path index left right).changes, bsonLevels c.2 ≤ m) ∧
    (∀ l, (listLoop path index left right).ln = some l → ∀ v ∈ l, bsonLevels v ≤ m) ∧
    ∀ c ∈ (listLoop path index left right).further, c.RightNested n
  | [], [], _, _ => ⟨fun _ h => (nomatch h), fun _ h => (nomatch h), fun _ h => (nomatch h)⟩
  | [], r :: rs, _, h => ⟨fun _ h => (nomatch h), fun l e => by cases e; exact h, fun _ h => (nomatch h)⟩
  | _ :: _, [], _, _ => ⟨fun _ h => (nomatch h), fun _ h => (nomatch h), fun _ h => (nomatch h)⟩
  | l :: ls, r :: rs, index, h => by
    have ih := listLoop_nested (path := path) hm ls rs (index + 1) (fun v hv => h v (List.mem_cons_of_mem _ hv))
    have hr := h r List.mem_cons_self
    unfold listLoop
    dsimp only
    split
    · exact ih
    · split
      · refine ⟨ih.1, ih.2.1, fun c hc => (List.mem_cons.1 hc).elim (fun e => ?_) (ih.2.2 c)⟩
        subst e
        simp only [Comparison.RightNested, List.length_append, List.length_singleton]
        omega
      · refine ⟨ih.1, ih.2.1, fun c hc => (List.mem_cons.1 hc).elim (fun e => ?_) (ih.2.2 c)⟩
        subst e
        simp only [Comparison.RightNested, List.length_append, List.length_singleton]
        omega
      · exact ⟨fun c hc => (List.mem_cons.1 hc).elim (fun e => by subst e; exact hr) (ih.1 c), ih.2⟩

theorem compare_nested {n : Nat} {c : Comparison} (h : c.RightNested n) :
    (∀ o, c.compare.1 = some o → bsonLevels o.toBson ≤ n + 2) ∧ ∀ c' ∈ c.compare.2, c'.RightNested n := by
  cases c with
  | dict path left right =>
    have h : bsonLevels (.dict right) + path.length ≤ n := h
    have hl := dictLoop_nested (path := path) h left
    have hpos := levels_dict_pos right
    refine ⟨fun o ho => ?_, hl.2⟩
    obtain ⟨m, rfl⟩ : ∃ m, n = m + 1 := ⟨n - 1, by omega⟩
    have hr : ∀ kv ∈ right, bsonLevels kv.2 ≤ m := levels_dict_le.1 (by omega)
    simp only [Comparison.compare, dictCompare] at ho
    split at ho
    · cases ho
      refine diffOp_levels_le (by omega) (fun d hd => ?_) (fun d hd => ?_) (fun _ hd => (nomatch hd)) (fun _ hd => (nomatch hd))
      · rw [nonEmpty_some hd]; exact levels_dict_le.2 fun kv hk => hr kv (List.mem_filter.1 hk).1
      · rw [nonEmpty_some hd]; exact levels_dict_le.2 fun kv hk => hr kv (hl.1 kv hk)
    · cases ho
  | list path left right =>
    obtain ⟨h, hp⟩ : bsonLevels (.list right) + path.length ≤ n ∧ 1 ≤ path.length := h
    have hm : bsonLevels (.list right) = bsonLevelsList right + 1 := by rw [bsonLevels]
    have hl := listLoop_nested (n := n) (m := bsonLevelsList right) (path := path) (by omega) left right 0 (levelsList_le.1 (Nat.le_refl _))
    refine ⟨fun o ho => ?_, hl.2.2⟩
    simp only [Comparison.compare, listCompare] at ho
    split at ho
    · cases ho
      refine diffOp_levels_le (by omega) (fun _ hd => (nomatch hd)) (fun _ hd => (nomatch hd)) (fun l hd => ?_) (fun cs hd c hc => ?_)
      · obtain ⟨k, rfl⟩ : ∃ k, n = k + 1 := ⟨n - 1, by omega⟩
        refine levels_list_le.2 fun v hv => ?_
        have := hl.2.1 l hd v hv
        omega
      · dsimp only at hd
        rw [nonEmpty_some hd] at hc
        have := hl.1 c hc
        omega
    · cases ho

theorem bfs_nested {n : Nat} : ∀ (fuel : Nat) (q : List Comparison), (∀ c ∈ q, c.RightNested n) → ∀ o ∈ bfs fuel q, bsonLevels o.toBson ≤ n + 2
  | 0, _, _, _, h => by cases h
  | _ + 1, [], _, _, h => by cases h
  | fuel + 1, c :: q, hq, o, ho => by
    rw [bfs] at ho
    have hc := compare_nested (hq c (List.mem_cons_self ..))
    rcases List.mem_append.1 ho with h | h
    · exact hc.1 o (Option.mem_toList.1 h)
    · exact bfs_nested fuel _ (fun c' hc' => (List.mem_append.1 hc').elim (fun h => hq c' (List.mem_cons_of_mem _ h)) (hc.2 c')) o h

theorem diffDict_nested {n : Nat} {a b : Dict} {ops : List DiffOp} (hb : bsonLevels (.dict b) ≤ n) (h : diffDict a b = .ok ops) :
    ∀ o ∈ ops, bsonLevels o.toBson ≤ n + 2 := by
  unfold diffDict diff at h
  split at h
  · cases h; exact fun _ h => (nomatch h)
  · cases h
    exact bfs_nested _ _ (fun c hc => by
      rw [List.mem_singleton] at hc
      subst hc
      exact hb)

end Splitgill
