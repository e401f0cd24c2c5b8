import Verif.Spec.Bson
import Verif.Proof.Json3
/-!
# The values in diffs and in patched data are those of the data
-/

namespace Splitgill

variable {p : Value → Prop}

theorem AllLeavesDict.mem {d : Dict} (h : AllLeavesDict p d) {k v} (hm : (k, v) ∈ d) : AllLeaves p v := allLeavesDict_iff.1 h _ hm

theorem AllLeavesDict.of_get {d : Dict} (h : AllLeavesDict p d) {k v} (hg : Splitgill.aget k d = some v) : AllLeaves p v := h.mem (aget_mem hg)

theorem AllLeavesDict.filter {d : Dict} (h : AllLeavesDict p d) (f : PyStr × Value → Bool) : AllLeavesDict p (d.filter f) :=
  allLeavesDict_iff.2 fun kv hk => allLeavesDict_iff.1 h kv (List.mem_filter.1 hk).1

theorem mem_of_mem_aerase {κ α : Type} [DecidableEq κ] {k : κ} {x : κ × α} : ∀ {d : List (κ × α)}, x ∈ aerase k d → x ∈ d
  | [], h => h
  | (k', v) :: r, h => by
    rw [aerase] at h
    split at h
    · exact List.mem_cons_of_mem _ h
    · exact (List.mem_cons.1 h).elim (fun e => e ▸ List.mem_cons_self ..) (fun h => List.mem_cons_of_mem _ (mem_of_mem_aerase h))

theorem AllLeavesDict.aerase {d : Dict} (h : AllLeavesDict p d) (k : PyStr) : AllLeavesDict p (aerase k d) :=
  allLeavesDict_iff.2 fun kv hk => allLeavesDict_iff.1 h kv (mem_of_mem_aerase hk)

theorem AllLeavesDict.append {d e : Dict} (h : AllLeavesDict p d) (h' : AllLeavesDict p e) : AllLeavesDict p (d ++ e) :=
  allLeavesDict_iff.2 fun kv hk => (List.mem_append.1 hk).elim (allLeavesDict_iff.1 h kv) (allLeavesDict_iff.1 h' kv)

/-! ## `diff` -/

/-- What is compared: only the values on the right get into the diff. -/
def Comparison.RightLeaves (p : Value → Prop) : Comparison → Prop
  | .dict _ _ r => AllLeavesDict p r
  | .list _ _ r => AllLeavesList p r

theorem dictLoop_leaves {path : Path} {right : Dict} (hr : AllLeavesDict p right) : ∀ (left : Dict),
    AllLeavesDict p (dictLoop path right left).1 ∧ ∀ c ∈ (dictLoop path right left).2, c.RightLeaves p
  | [] => ⟨trivial, fun _ h => (nomatch h)⟩
  | (k, v) :: rest => by
    have ih := dictLoop_leaves (path := path) hr rest
    rw [dictLoop]
    cases hg : aget k right with
    | none => exact ih
    | some w =>
      have hw := hr.of_get hg
      dsimp only
      split
      · exact ih
      · split
        · rename_i l r _ _
          exact ⟨ih.1, fun c hc => (List.mem_cons.1 hc).elim (fun e => by subst e; exact hw) (ih.2 c)⟩
        · exact ⟨ih.1, fun c hc => (List.mem_cons.1 hc).elim (fun e => by subst e; exact hw) (ih.2 c)⟩
        · exact ⟨⟨hw, ih.1⟩, ih.2⟩

theorem listLoop_leaves {path : Path} : ∀ (left right : List Value) (index : Nat), AllLeavesList p right →
    (∀ c ∈ (listLoop path index left right).changes, AllLeaves p c.2) ∧
    (∀ l, (listLoop path index left right).ln = some l → AllLeavesList p l) ∧
    ∀ c ∈ (listLoop path index left right).further, c.RightLeaves p
  | [], [], _, _ => ⟨fun _ h => (nomatch h), fun _ h => (nomatch h), fun _ h => (nomatch h)⟩
  | [], r :: rs, _, h => ⟨fun _ h => (nomatch h), fun l e => by cases e; exact h, fun _ h => (nomatch h)⟩
  | _ :: _, [], _, _ => ⟨fun _ h => (nomatch h), fun _ h => (nomatch h), fun _ h => (nomatch h)⟩
  | l :: ls, r :: rs, index, h => by
    have ih := listLoop_leaves (path := path) ls rs (index + 1) h.2
    unfold listLoop
    dsimp only
    split
    · exact ih
    · split
      · exact ⟨ih.1, ih.2.1, fun c hc => (List.mem_cons.1 hc).elim (fun e => by subst e; exact h.1) (ih.2.2 c)⟩
      · exact ⟨ih.1, ih.2.1, fun c hc => (List.mem_cons.1 hc).elim (fun e => by subst e; exact h.1) (ih.2.2 c)⟩
      · exact ⟨fun c hc => (List.mem_cons.1 hc).elim (fun e => by subst e; exact h.1) (ih.1 c), ih.2⟩

theorem compare_leaves {c : Comparison} (h : c.RightLeaves p) : (∀ o, c.compare.1 = some o → o.Leaves p) ∧ ∀ c' ∈ c.compare.2, c'.RightLeaves p := by
  cases c with
  | dict path left right =>
    have hl := dictLoop_leaves (path := path) h left
    refine ⟨fun o ho => ?_, hl.2⟩
    simp only [Comparison.compare, dictCompare] at ho
    split at ho
    · cases ho
      refine ⟨fun d hd => ?_, fun d hd => ?_, fun _ hd => (nomatch hd), fun _ hd => (nomatch hd)⟩
      · rw [nonEmpty_some hd]; exact AllLeavesDict.filter h _
      · rw [nonEmpty_some hd]; exact hl.1
    · cases ho
  | list path left right =>
    have hl := listLoop_leaves (path := path) left right 0 h
    refine ⟨fun o ho => ?_, hl.2.2⟩
    simp only [Comparison.compare, listCompare] at ho
    split at ho
    · cases ho
      refine ⟨fun _ hd => (nomatch hd), fun _ hd => (nomatch hd), fun cs hd => ?_, hl.2.1⟩
      rw [nonEmpty_some hd]; exact hl.1
    · cases ho

theorem bfs_leaves : ∀ (fuel : Nat) (q : List Comparison), (∀ c ∈ q, c.RightLeaves p) → ∀ o ∈ bfs fuel q, o.Leaves p
  | 0, _, _, _, h => by cases h
  | _ + 1, [], _, _, h => by cases h
  | fuel + 1, c :: q, hq, o, ho => by
    rw [bfs] at ho
    have hc := compare_leaves (hq c (List.mem_cons_self ..))
    rcases List.mem_append.1 ho with h | h
    · exact hc.1 o (Option.mem_toList.1 h)
    · exact bfs_leaves fuel _ (fun c' hc' => (List.mem_append.1 hc').elim (fun h => hq c' (List.mem_cons_of_mem _ h)) (hc.2 c')) o h

theorem diffDict_leaves {a b : Dict} {ops : List DiffOp} (hb : AllLeavesDict p b) (h : diffDict a b = .ok ops) : ∀ o ∈ ops, o.Leaves p := by
  unfold diffDict diff at h
  split at h
  · cases h; exact fun _ h => (nomatch h)
  · cases h
    exact bfs_leaves _ _ (fun c hc => by
      rw [List.mem_singleton] at hc
      subst hc
      exact hb)

/-! ## `patch` -/

theorem AllLeavesDict.delKeys : ∀ {ks : List PyStr} {d d' : Dict}, AllLeavesDict p d → Splitgill.delKeys ks d = .ok d' → AllLeavesDict p d'
  | [], d, d', h, e => by cases e; exact h
  | k :: ks, d, d', h, e => by
    rw [Splitgill.delKeys] at e
    split at e
    · exact (h.aerase k).delKeys e
    · cases e

theorem AllLeavesList.set {l : List Value} (h : AllLeavesList p l) {v : Value} (hv : AllLeaves p v) (i : Nat) : AllLeavesList p (l.set i v) :=
  allLeavesList_iff.2 fun w hw => (List.mem_or_eq_of_mem_set hw).elim (allLeavesList_iff.1 h w) (fun e => e ▸ hv)

theorem AllLeavesList.setIndexes : ∀ {cs : List (Nat × Value)} {l l' : List Value}, AllLeavesList p l → (∀ c ∈ cs, AllLeaves p c.2) →
    Splitgill.setIndexes cs l = .ok l' → AllLeavesList p l'
  | [], l, l', h, _, e => by cases e; exact h
  | (i, v) :: cs, l, l', h, hc, e => by
    rw [Splitgill.setIndexes] at e
    split at e
    · exact (h.set (hc (i, v) (List.mem_cons_self ..)) i).setIndexes (fun c hm => hc c (List.mem_cons_of_mem _ hm)) e
    · cases e

theorem applyOps_leaves {o : Ops} {path : Path} (ho : (DiffOp.mk path o).Leaves p) {v v' : Value} (hv : AllLeaves p v)
    (h : applyOps o v = .ok v') : AllLeaves p v' := by
  cases v with
  | dict d =>
    rw [applyOps] at h
    have h1 : AllLeavesDict p (updateIf d o.dc) := by
      cases hd : o.dc with
      | none => exact hv
      | some e => exact AllLeavesDict.aupdate (show AllLeavesDict p d from hv) (ho.dc e hd)
    have h2 : AllLeavesDict p (updateIf (updateIf d o.dc) o.dn) := by
      cases hd : o.dn with
      | none => exact h1
      | some e => exact h1.aupdate (ho.dn e hd)
    cases hk : delKeysIf (updateIf (updateIf d o.dc) o.dn) o.dd with
    | error e => simp only [hk, bind, Except.bind] at h; cases h
    | ok d' =>
      have h3 : AllLeavesDict p d' := by
        cases hd : o.dd with
        | none => rw [hd, delKeysIf] at hk; cases hk; exact h2
        | some ks => rw [hd, delKeysIf] at hk; exact h2.delKeys hk
      simp only [hk, bind, Except.bind] at h
      repeat' split at h
      all_goals first | cases h | skip
      exact h3
  | list l =>
    rw [applyOps] at h
    repeat' split at h
    all_goals first | cases h | skip
    cases hk : setIndexesIf l o.lc with
    | error e => simp only [hk, bind, Except.bind] at h; cases h
    | ok l' =>
      simp only [hk, bind, Except.bind] at h
      cases h
      have h3 : AllLeavesList p l' := by
        cases hd : o.lc with
        | none => rw [hd, setIndexesIf] at hk; cases hk; exact hv
        | some cs => rw [hd, setIndexesIf] at hk; exact AllLeavesList.setIndexes (show AllLeavesList p l from hv) (ho.lc cs hd) hk
      have h4 : AllLeavesList p (extendIf l' o.ln) := by
        cases hd : o.ln with
        | none => exact h3
        | some e =>
          exact allLeavesList_iff.2 fun w hw => (List.mem_append.1 hw).elim (allLeavesList_iff.1 h3 w) (allLeavesList_iff.1 (ho.ln e hd) w)
      show AllLeavesList p (truncIf _ _)
      cases o.ld with
      | none => exact h4
      | some n => exact allLeavesList_iff.2 fun w hw => allLeavesList_iff.1 h4 w (List.mem_of_mem_take hw)
  | _ => cases h

theorem applyAt_leaves {o : Ops} {pre : Path} (ho : (DiffOp.mk pre o).Leaves p) : ∀ (path : Path) {v v' : Value}, AllLeaves p v →
    applyAt o path v = .ok v' → AllLeaves p v'
  | [], v, v', hv, h => applyOps_leaves ho hv h
  | e :: path, v, v', hv, h => by
    cases v with
    | dict d =>
      cases e with
      | idx i => cases h
      | key k =>
        rw [applyAt] at h
        cases hg : aget k d with
        | none => rw [hg] at h; cases h
        | some w =>
          rw [hg] at h
          dsimp only at h
          cases ha : applyAt o path w with
          | error e => rw [ha] at h; cases h
          | ok w' =>
            rw [ha] at h
            cases h
            exact AllLeavesDict.aset (applyAt_leaves ho path (AllLeavesDict.of_get hv hg) ha) hv
    | list l =>
      cases e with
      | key k => cases h
      | idx i =>
        rw [applyAt] at h
        cases hg : l[i]? with
        | none => rw [hg] at h; cases h
        | some w =>
          rw [hg] at h
          dsimp only at h
          cases ha : applyAt o path w with
          | error e => rw [ha] at h; cases h
          | ok w' =>
            rw [ha] at h
            cases h
            exact AllLeavesList.set hv (applyAt_leaves ho path (allLeavesList_iff.1 hv w (List.mem_of_getElem? hg)) ha) i
    | _ => cases e <;> cases h

theorem patch_leaves : ∀ {ops : List DiffOp} {v v' : Value}, (∀ o ∈ ops, o.Leaves p) → AllLeaves p v → patch v ops = .ok v' → AllLeaves p v'
  | [], v, v', _, hv, h => by cases h; exact hv
  | o :: ops, v, v', ho, hv, h => by
    rw [patch, List.foldlM_cons] at h
    cases ha : applyAt o.ops o.path v with
    | error e => rw [ha] at h; cases h
    | ok w =>
      rw [ha] at h
      exact patch_leaves (fun o h => ho o (List.mem_cons_of_mem _ h)) (applyAt_leaves (ho o (List.mem_cons_self ..)) o.path hv ha) h

theorem patchDict_leaves {d d' : Dict} {ops : List DiffOp} (ho : ∀ o ∈ ops, o.Leaves p) (hd : AllLeavesDict p d)
    (h : patchDict d ops = .ok d') : AllLeavesDict p d' := by
  unfold patchDict at h
  split at h
  · cases h
    rename_i e
    exact patch_leaves (v := .dict d) ho hd e
  · cases h
  · cases h

theorem iterLoop_leaves {diffs : List (Int × List DiffOp)} (hd : ∀ vd ∈ diffs, ∀ o ∈ vd.2, o.Leaves p) : ∀ {vs : List Int} {base : Dict} {items},
    AllLeavesDict p base → iterLoop diffs base vs = .ok items → ∀ vd ∈ items, AllLeavesDict p vd.2
  | [], base, items, _, h => by cases h; exact fun _ h => (nomatch h)
  | v :: vs, base, items, hb, h => by
    rw [iterLoop] at h
    cases hg : aget v diffs with
    | none => rw [hg] at h; cases h
    | some ops =>
      rw [hg] at h
      dsimp only at h
      cases hp : patchDict base ops with
      | error e => rw [hp] at h; cases h
      | ok data =>
        rw [hp] at h
        dsimp only at h
        have h1 := patchDict_leaves (hd (v, ops) (aget_mem hg)) hb hp
        cases hi : iterLoop diffs data vs with
        | error e => rw [hi] at h; cases h
        | ok rest =>
          rw [hi] at h
          cases h
          exact fun vd hm => (List.mem_cons.1 hm).elim (fun e => by subst e; exact h1) (iterLoop_leaves hd h1 hi vd)

/-- The data of all versions has the values of what is stored. -/
theorem iter_leaves {r : MongoRecord} (hr : r.Leaves p) {items} (h : r.iter = .ok items) : ∀ vd ∈ items, AllLeavesDict p vd.2 := by
  unfold MongoRecord.iter at h
  cases hi : iterLoop r.diffs r.data (sortDesc (akeys r.diffs)) with
  | error e => rw [hi] at h; cases h
  | ok rest =>
    rw [hi] at h
    cases h
    exact fun vd hm => (List.mem_cons.1 hm).elim (fun e => by subst e; exact hr.data) (iterLoop_leaves hr.diffs hr.data hi vd)

end Splitgill
