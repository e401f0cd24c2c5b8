import Verif.Spec.BsonBytes
import Verif.Proof.Bson2
import Verif.Proof.JsonFloat3
import Verif.Proof.Prepare
/-!
# Names in what is stored are names of the data that was given

As `Verif.Proof.Bson` and `Verif.Proof.Bson2` for the values.
-/

namespace Splitgill

variable {p : PyStr → Prop}

theorem namesAllDict_iff {p : PyStr → Prop} : ∀ {d : Dict}, NamesAllDict p d ↔ ∀ kv ∈ d, p kv.1 ∧ NamesAll p kv.2
  | [] => by simp [NamesAllDict]
  | (k, v) :: r => by rw [NamesAllDict, namesAllDict_iff, List.forall_mem_cons]

theorem namesAllList_iff {p : PyStr → Prop} : ∀ {l : List Value}, NamesAllList p l ↔ ∀ v ∈ l, NamesAll p v
  | [] => by simp [NamesAllList]
  | v :: r => by rw [NamesAllList, namesAllList_iff, List.forall_mem_cons]

theorem NamesAllDict.aset {k : PyStr} {v : Value} (hv : p k ∧ NamesAll p v) : ∀ {d : Dict}, NamesAllDict p d →
    NamesAllDict p (aset k v d)
  | [], _ => ⟨hv, trivial⟩
  | (k', v') :: r, h => by
    rw [Splitgill.aset]
    split
    · exact ⟨⟨by first | exact hv.1 | exact h.1.1, hv.2⟩, h.2⟩
    · exact ⟨h.1, NamesAllDict.aset hv h.2⟩

theorem NamesAllDict.aupdate {a b : Dict} (ha : NamesAllDict p a) (hb : NamesAllDict p b) : NamesAllDict p (aupdate a b) := by
  rw [namesAllDict_iff] at *
  intro kv h
  rcases mem_aupdate h with h | h
  · exact hb kv h
  · exact ha kv h

theorem NamesAllDict.mem {d : Dict} (h : NamesAllDict p d) {k v} (hm : (k, v) ∈ d) : p k ∧ NamesAll p v := namesAllDict_iff.1 h _ hm

theorem NamesAllDict.of_get {d : Dict} (h : NamesAllDict p d) {k v} (hg : Splitgill.aget k d = some v) : p k ∧ NamesAll p v := h.mem (aget_mem hg)

theorem NamesAllDict.filter {d : Dict} (h : NamesAllDict p d) (f : PyStr × Value → Bool) : NamesAllDict p (d.filter f) :=
  namesAllDict_iff.2 fun kv hk => namesAllDict_iff.1 h kv (List.mem_filter.1 hk).1

theorem NamesAllDict.aerase {d : Dict} (h : NamesAllDict p d) (k : PyStr) : NamesAllDict p (aerase k d) :=
  namesAllDict_iff.2 fun kv hk => namesAllDict_iff.1 h kv (mem_of_mem_aerase hk)

theorem NamesAllDict.append {d e : Dict} (h : NamesAllDict p d) (h' : NamesAllDict p e) : NamesAllDict p (d ++ e) :=
  namesAllDict_iff.2 fun kv hk => (List.mem_append.1 hk).elim (namesAllDict_iff.1 h kv) (namesAllDict_iff.1 h' kv)

/-- What is compared: only the values on the right get into the diff. -/
def Comparison.RightNames (p : PyStr → Prop) : Comparison → Prop
  | .dict _ _ r => NamesAllDict p r
  | .list _ _ r => NamesAllList p r

theorem dictLoop_names {path : Path} {right : Dict} (hr : NamesAllDict p right) : ∀ (left : Dict),
    NamesAllDict p (dictLoop path right left).1 ∧ ∀ c ∈ (dictLoop path right left).2, c.RightNames p
  | [] => ⟨trivial, fun _ h => (nomatch h)⟩
  | (k, v) :: rest => by
    have ih := dictLoop_names (path := path) hr rest
    rw [dictLoop]
    cases hg : aget k right with
    | none => exact ih
    | some w =>
      have hw := hr.of_get hg
      dsimp only
      split
      · exact ih
      · split
        · rename_i l r _ _
          exact ⟨ih.1, fun c hc => (List.mem_cons.1 hc).elim (fun e => by subst e; exact hw.2) (ih.2 c)⟩
        · exact ⟨ih.1, fun c hc => (List.mem_cons.1 hc).elim (fun e => by subst e; exact hw.2) (ih.2 c)⟩
        · exact ⟨⟨hw, ih.1⟩, ih.2⟩

theorem listLoop_names {path : Path} : ∀ (left right : List Value) (index : Nat), NamesAllList p right →
    (∀ c ∈ (listLoop path index left right).changes, NamesAll p c.2) ∧
    (∀ l, (listLoop path index left right).ln = some l → NamesAllList p l) ∧
    ∀ c ∈ (listLoop path index left right).further, c.RightNames p
  | [], [], _, _ => ⟨fun _ h => (nomatch h), fun _ h => (nomatch h), fun _ h => (nomatch h)⟩
  | [], r :: rs, _, h => ⟨fun _ h => (nomatch h), fun l e => by cases e; exact h, fun _ h => (nomatch h)⟩
  | _ :: _, [], _, _ => ⟨fun _ h => (nomatch h), fun _ h => (nomatch h), fun _ h => (nomatch h)⟩
  | l :: ls, r :: rs, index, h => by
    have ih := listLoop_names (path := path) ls rs (index + 1) h.2
    unfold listLoop
    dsimp only
    split
    · exact ih
    · split
      · exact ⟨ih.1, ih.2.1, fun c hc => (List.mem_cons.1 hc).elim (fun e => by subst e; exact h.1) (ih.2.2 c)⟩
      · exact ⟨ih.1, ih.2.1, fun c hc => (List.mem_cons.1 hc).elim (fun e => by subst e; exact h.1) (ih.2.2 c)⟩
      · exact ⟨fun c hc => (List.mem_cons.1 hc).elim (fun e => by subst e; exact h.1) (ih.1 c), ih.2⟩

theorem compare_names {c : Comparison} (h : c.RightNames p) : (∀ o, c.compare.1 = some o → o.Names p) ∧ ∀ c' ∈ c.compare.2, c'.RightNames p := by
  cases c with
  | dict path left right =>
    have hl := dictLoop_names (path := path) h left
    refine ⟨fun o ho => ?_, hl.2⟩
    simp only [Comparison.compare, dictCompare] at ho
    split at ho
    · cases ho
      refine ⟨fun d hd => ?_, fun d hd => ?_, fun _ hd => (nomatch hd), fun _ hd => (nomatch hd)⟩
      · rw [nonEmpty_some hd]; exact NamesAllDict.filter h _
      · rw [nonEmpty_some hd]; exact hl.1
    · cases ho
  | list path left right =>
    have hl := listLoop_names (path := path) left right 0 h
    refine ⟨fun o ho => ?_, hl.2.2⟩
    simp only [Comparison.compare, listCompare] at ho
    split at ho
    · cases ho
      refine ⟨fun _ hd => (nomatch hd), fun _ hd => (nomatch hd), fun cs hd => ?_, hl.2.1⟩
      rw [nonEmpty_some hd]; exact hl.1
    · cases ho

theorem bfs_names : ∀ (fuel : Nat) (q : List Comparison), (∀ c ∈ q, c.RightNames p) → ∀ o ∈ bfs fuel q, o.Names p
  | 0, _, _, _, h => by cases h
  | _ + 1, [], _, _, h => by cases h
  | fuel + 1, c :: q, hq, o, ho => by
    rw [bfs] at ho
    have hc := compare_names (hq c (List.mem_cons_self ..))
    rcases List.mem_append.1 ho with h | h
    · exact hc.1 o (Option.mem_toList.1 h)
    · exact bfs_names fuel _ (fun c' hc' => (List.mem_append.1 hc').elim (fun h => hq c' (List.mem_cons_of_mem _ h)) (hc.2 c')) o h

theorem diffDict_names {a b : Dict} {ops : List DiffOp} (hb : NamesAllDict p b) (h : diffDict a b = .ok ops) : ∀ o ∈ ops, o.Names p := by
  unfold diffDict diff at h
  split at h
  · cases h; exact fun _ h => (nomatch h)
  · cases h
    exact bfs_names _ _ (fun c hc => by
      rw [List.mem_singleton] at hc
      subst hc
      exact hb)

theorem NamesAllDict.delKeys : ∀ {ks : List PyStr} {d d' : Dict}, NamesAllDict p d → Splitgill.delKeys ks d = .ok d' → NamesAllDict p d'
  | [], d, d', h, e => by cases e; exact h
  | k :: ks, d, d', h, e => by
    rw [Splitgill.delKeys] at e
    split at e
    · exact (h.aerase k).delKeys e
    · cases e

theorem NamesAllList.set {l : List Value} (h : NamesAllList p l) {v : Value} (hv : NamesAll p v) (i : Nat) : NamesAllList p (l.set i v) :=
  namesAllList_iff.2 fun w hw => (List.mem_or_eq_of_mem_set hw).elim (namesAllList_iff.1 h w) (fun e => e ▸ hv)

theorem NamesAllList.setIndexes : ∀ {cs : List (Nat × Value)} {l l' : List Value}, NamesAllList p l → (∀ c ∈ cs, NamesAll p c.2) →
    Splitgill.setIndexes cs l = .ok l' → NamesAllList p l'
  | [], l, l', h, _, e => by cases e; exact h
  | (i, v) :: cs, l, l', h, hc, e => by
    rw [Splitgill.setIndexes] at e
    split at e
    · exact (h.set (hc (i, v) (List.mem_cons_self ..)) i).setIndexes (fun c hm => hc c (List.mem_cons_of_mem _ hm)) e
    · cases e

theorem applyOps_names {o : Ops} {path : Path} (ho : (DiffOp.mk path o).Names p) {v v' : Value} (hv : NamesAll p v)
    (h : applyOps o v = .ok v') : NamesAll p v' := by
  cases v with
  | dict d =>
    rw [applyOps] at h
    have h1 : NamesAllDict p (updateIf d o.dc) := by
      cases hd : o.dc with
      | none => exact hv
      | some e => exact NamesAllDict.aupdate (show NamesAllDict p d from hv) (ho.dc e hd)
    have h2 : NamesAllDict p (updateIf (updateIf d o.dc) o.dn) := by
      cases hd : o.dn with
      | none => exact h1
      | some e => exact h1.aupdate (ho.dn e hd)
    cases hk : delKeysIf (updateIf (updateIf d o.dc) o.dn) o.dd with
    | error e => simp only [hk, bind, Except.bind] at h; cases h
    | ok d' =>
      have h3 : NamesAllDict p d' := by
        cases hd : o.dd with
        | none => rw [hd, delKeysIf] at hk; cases hk; exact h2
        | some ks => rw [hd, delKeysIf] at hk; exact h2.delKeys hk
      simp only [hk, bind, Except.bind] at h
      repeat' split at h
      all_goals first | cases h | skip
      exact h3
  | list l =>
    rw [applyOps] at h
    repeat' split at h
    all_goals first | cases h | skip
    cases hk : setIndexesIf l o.lc with
    | error e => simp only [hk, bind, Except.bind] at h; cases h
    | ok l' =>
      simp only [hk, bind, Except.bind] at h
      cases h
      have h3 : NamesAllList p l' := by
        cases hd : o.lc with
        | none => rw [hd, setIndexesIf] at hk; cases hk; exact hv
        | some cs => rw [hd, setIndexesIf] at hk; exact NamesAllList.setIndexes (show NamesAllList p l from hv) (ho.lc cs hd) hk
      have h4 : NamesAllList p (extendIf l' o.ln) := by
        cases hd : o.ln with
        | none => exact h3
        | some e =>
          exact namesAllList_iff.2 fun w hw => (List.mem_append.1 hw).elim (namesAllList_iff.1 h3 w) (namesAllList_iff.1 (ho.ln e hd) w)
      show NamesAllList p (truncIf _ _)
      cases o.ld with
      | none => exact h4
      | some n => exact namesAllList_iff.2 fun w hw => namesAllList_iff.1 h4 w (List.mem_of_mem_take hw)
  | _ => cases h

theorem applyAt_names {o : Ops} {pre : Path} (ho : (DiffOp.mk pre o).Names p) : ∀ (path : Path) {v v' : Value}, NamesAll p v →
    applyAt o path v = .ok v' → NamesAll p v'
  | [], v, v', hv, h => applyOps_names ho hv h
  | e :: path, v, v', hv, h => by
    cases v with
    | dict d =>
      cases e with
      | idx i => cases h
      | key k =>
        rw [applyAt] at h
        cases hg : aget k d with
        | none => rw [hg] at h; cases h
        | some w =>
          rw [hg] at h
          dsimp only at h
          cases ha : applyAt o path w with
          | error e => rw [ha] at h; cases h
          | ok w' =>
            rw [ha] at h
            cases h
            exact NamesAllDict.aset ⟨(NamesAllDict.of_get hv hg).1, applyAt_names ho path (NamesAllDict.of_get hv hg).2 ha⟩ hv
    | list l =>
      cases e with
      | key k => cases h
      | idx i =>
        rw [applyAt] at h
        cases hg : l[i]? with
        | none => rw [hg] at h; cases h
        | some w =>
          rw [hg] at h
          dsimp only at h
          cases ha : applyAt o path w with
          | error e => rw [ha] at h; cases h
          | ok w' =>
            rw [ha] at h
            cases h
            exact NamesAllList.set hv (applyAt_names ho path (namesAllList_iff.1 hv w (List.mem_of_getElem? hg)) ha) i
    | _ => cases e <;> cases h

theorem patch_names : ∀ {ops : List DiffOp} {v v' : Value}, (∀ o ∈ ops, o.Names p) → NamesAll p v → patch v ops = .ok v' → NamesAll p v'
  | [], v, v', _, hv, h => by cases h; exact hv
  | o :: ops, v, v', ho, hv, h => by
    rw [patch, List.foldlM_cons] at h
    cases ha : applyAt o.ops o.path v with
    | error e => rw [ha] at h; cases h
    | ok w =>
      rw [ha] at h
      exact patch_names (fun o h => ho o (List.mem_cons_of_mem _ h)) (applyAt_names (ho o (List.mem_cons_self ..)) o.path hv ha) h

theorem patchDict_names {d d' : Dict} {ops : List DiffOp} (ho : ∀ o ∈ ops, o.Names p) (hd : NamesAllDict p d)
    (h : patchDict d ops = .ok d') : NamesAllDict p d' := by
  unfold patchDict at h
  split at h
  · cases h
    rename_i e
    exact patch_names (v := .dict d) ho hd e
  · cases h
  · cases h

theorem iterLoop_names {diffs : List (Int × List DiffOp)} (hd : ∀ vd ∈ diffs, ∀ o ∈ vd.2, o.Names p) : ∀ {vs : List Int} {base : Dict} {items},
    NamesAllDict p base → iterLoop diffs base vs = .ok items → ∀ vd ∈ items, NamesAllDict p vd.2
  | [], base, items, _, h => by cases h; exact fun _ h => (nomatch h)
  | v :: vs, base, items, hb, h => by
    rw [iterLoop] at h
    cases hg : aget v diffs with
    | none => rw [hg] at h; cases h
    | some ops =>
      rw [hg] at h
      dsimp only at h
      cases hp : patchDict base ops with
      | error e => rw [hp] at h; cases h
      | ok data =>
        rw [hp] at h
        dsimp only at h
        have h1 := patchDict_names (hd (v, ops) (aget_mem hg)) hb hp
        cases hi : iterLoop diffs data vs with
        | error e => rw [hi] at h; cases h
        | ok rest =>
          rw [hi] at h
          cases h
          exact fun vd hm => (List.mem_cons.1 hm).elim (fun e => by subst e; exact h1) (iterLoop_names hd h1 hi vd)

/-- The data of all versions has the values of what is stored. -/
theorem iter_names {r : MongoRecord} (hr : r.Names p) {items} (h : r.iter = .ok items) : ∀ vd ∈ items, NamesAllDict p vd.2 := by
  unfold MongoRecord.iter at h
  cases hi : iterLoop r.diffs r.data (sortDesc (akeys r.diffs)) with
  | error e => rw [hi] at h; cases h
  | ok rest =>
    rw [hi] at h
    cases h
    exact fun vd hm => (List.mem_cons.1 hm).elim (fun e => by subst e; exact hr.data) (iterLoop_names hr.diffs hr.data hi vd)

/-- The values in a write operation. -/
def MongoOp.Names (p : PyStr → Prop) : MongoOp → Prop
  | .insert _ data => NamesAllDict p data
  | .setData _ data => NamesAllDict p data
  | .setDiff _ data _ changes => NamesAllDict p data ∧ ∀ o ∈ changes, o.Names p
  | .revert _ data _ _ => NamesAllDict p data
  | .delete _ => True

/-- All documents of a collection. -/
def CollNames (p : PyStr → Prop) (c : Coll) : Prop := ∀ r ∈ c, r.Names p

theorem CollNames.updateFirst {id : PyStr} {f : MongoRecord → MongoRecord} (hf : ∀ r, r.Names p → (f r).Names p) :
    ∀ {c : Coll}, CollNames p c → CollNames p (updateFirst id f c)
  | [], h => h
  | d :: r, h => by
    have hd := h d List.mem_cons_self
    have hr : CollNames p r := fun x hx => h x (List.mem_cons_of_mem _ hx)
    rw [Splitgill.updateFirst]
    split
    · exact fun x hx => (List.mem_cons.1 hx).elim (fun e => e ▸ hf d hd) (hr x)
    · exact fun x hx => (List.mem_cons.1 hx).elim (fun e => e ▸ hd) (hr.updateFirst hf x)

theorem CollNames.deleteFirst {id : PyStr} : ∀ {c : Coll}, CollNames p c → CollNames p (deleteFirst id c)
  | [], h => h
  | d :: r, h => by
    have hr : CollNames p r := fun x hx => h x (List.mem_cons_of_mem _ hx)
    rw [Splitgill.deleteFirst]
    split
    · exact hr
    · exact fun x hx => (List.mem_cons.1 hx).elim (fun e => e ▸ h d List.mem_cons_self) (hr.deleteFirst x)

theorem CollNames.applyOp {c : Coll} (h : CollNames p c) {o : MongoOp} (ho : o.Names p) : CollNames p (applyOp c o) := by
  cases o with
  | insert id data =>
    exact fun x hx => (List.mem_append.1 hx).elim (h x) (fun e => by
      rw [List.mem_singleton] at e
      subst e
      exact ⟨ho, fun _ hm => nomatch hm⟩)
  | setData id data =>
    refine h.updateFirst (fun r hr => ?_)
    exact ⟨ho, hr.diffs⟩
  | setDiff id data v changes =>
    refine h.updateFirst (fun r hr => ⟨ho.1, fun vd hm => ?_⟩)
    rcases mem_aset hm with e | hm
    · subst e; exact ho.2
    · exact hr.diffs vd hm
  | revert id data v all =>
    refine h.updateFirst (fun r hr => ?_)
    refine ⟨ho, fun vd hm => ?_⟩
    dsimp only at hm
    split at hm
    · cases hm
    · exact hr.diffs vd (mem_of_mem_aerase hm)
  | delete id => exact h.deleteFirst

theorem CollNames.bulkWrite : ∀ {ops : List MongoOp} {c : Coll}, CollNames p c → (∀ o ∈ ops, o.Names p) → CollNames p (bulkWrite c ops)
  | [], _, h, _ => h
  | o :: ops, c, h, ho => by
    rw [Splitgill.bulkWrite, List.foldl_cons]
    exact CollNames.bulkWrite (ops := ops) (h.applyOp (ho o List.mem_cons_self)) (fun o hm => ho o (List.mem_cons_of_mem _ hm))

theorem revertRecord_names {r r' : MongoRecord} {o : MongoOp} (h : r.Names p) (hr : revertRecord r = .ok (some (r', o))) :
    r'.Names p ∧ o.Names p := by
  unfold revertRecord at hr
  split at hr
  · cases hr
  · split at hr
    · cases hr
    · split at hr
      · cases hr
      · rename_i ops hg
        split at hr
        · cases hr
        · rename_i data hd
          have := patchDict_names (h.diffs _ (aget_mem hg)) h.data hd
          cases hr
          exact ⟨⟨this, fun vd hm => h.diffs vd (mem_of_mem_aerase hm)⟩, this⟩

theorem computeChanges_names {mf : Option PyStr} {a b a' : Dict} {ops : List DiffOp} (ha : NamesAllDict p a) (hb : NamesAllDict p b)
    (h : computeChanges mf a b = .ok (a', ops)) : NamesAllDict p a' ∧ ∀ o ∈ ops, o.Names p := by
  have plain : ∀ {a b a' : Dict} {ops}, NamesAllDict p a → NamesAllDict p b →
      (do .ok (a, ← diffDict a b) : Except PyErr (Dict × List DiffOp)) = .ok (a', ops) → NamesAllDict p a' ∧ ∀ o ∈ ops, o.Names p := by
    intro a b a' ops ha hb h
    cases hd : diffDict a b with
    | error e => rw [hd] at h; cases h
    | ok x => rw [hd] at h; cases h; exact ⟨ha, diffDict_names hb hd⟩
  unfold computeChanges at h
  cases mf with
  | none => exact plain ha hb h
  | some m =>
    dsimp only at h
    split at h
    · rename_i nv ev h1 h2
      have ha' : NamesAllDict p (aerase m a ++ [(m, nv)]) := (ha.aerase m).append ⟨ha.of_get h1, trivial⟩
      have hb' : NamesAllDict p (aerase m b ++ [(m, ev)]) := (hb.aerase m).append ⟨hb.of_get h2, trivial⟩
      cases hd : diffDict (aerase m a) (aerase m b) with
      | error e => simp only [hd, bind, Except.bind] at h; cases h
      | ok x =>
        simp only [hd, bind, Except.bind] at h
        split at h
        · cases h
          exact ⟨ha', fun _ hm => nomatch hm⟩
        · exact plain ha' hb' h
    · exact plain ha hb h

theorem putBack_names {mf : Option PyStr} {a b : Dict} (hb : NamesAllDict p b) : NamesAllDict p (putBack mf a b) := by
  unfold putBack
  split
  · exact hb
  · split
    · rename_i h2
      exact (hb.aerase _).append ⟨hb.of_get h2, trivial⟩
    · exact hb

theorem withData_names {op : MongoOp} {d : Dict} (ho : op.Names p) (hd : NamesAllDict p d) : (op.withData d).Names p := by
  cases op with
  | revert id x v all => exact hd
  | _ => exact ho

theorem opFor_names {U : Unicode} {mf : Option PyStr} {ex : Option MongoRecord} {r : Record} {o : MongoOp}
    (hex : ∀ d, ex = some d → d.Names p) (hr : NamesAllDict p (prepareRecordData U r)) (h : opFor U mf ex r = .ok (some o)) : o.Names p := by
  cases ex with
  | none =>
    simp only [opFor] at h
    split at h
    · cases h
    · cases h; exact hr
  | some d =>
    have hd := hex d rfl
    simp only [opFor, opForExisting] at h
    split at h
    · split at h
      · cases h; trivial
      · split at h
        · cases h
        · split at h
          · cases h
          · cases h; exact hr
    · split at h
      · cases h
      · rename_i e1 rop hrr
        have key : e1.Names p ∧ ∀ op, rop = some op → op.Names p := by
          unfold revertIfPending at hrr
          split at hrr
          · cases hrr
          · rename_i x
            cases hrr
            have := revertRecord_names hd x
            exact ⟨this.1, fun op e => by cases e; exact this.2⟩
          · cases hrr
            exact ⟨hd, fun op e => nomatch e⟩
        unfold opForCommitted at h
        split at h
        · cases h
        · rename_i nd changes hc
          have hx := computeChanges_names hr key.1.data hc
          split at h
          · obtain ⟨op, h1, rfl⟩ := Option.map_eq_some_iff.1 (Except.ok.inj h)
            exact withData_names (key.2 op h1) (putBack_names key.1.data)
          · split at h
            · cases h; exact hx
            · cases h

theorem chunkOps_names {U : Unicode} {mf : Option PyStr} {chunk : List Record} {c : Coll} {ops : List MongoOp} (hc : CollNames p c)
    (hr : ∀ r ∈ chunk, NamesAllDict p (prepareRecordData U r)) (h : chunkOps U mf c chunk = .ok ops) : ∀ o ∈ ops, o.Names p := by
  intro o ho
  obtain ⟨r, hm, e⟩ := collectOps_mem h o ho
  exact opFor_names (fun d hd => hc d (lookupExisting_sub hd)) (hr r (recordsById_mem hm)) e

/-- Everything in the pipeline. -/
structure StateNames (p : PyStr → Prop) (s : IngestState) : Prop where
  coll : CollNames p s.coll
  buf : ∀ o ∈ s.buf, o.Names p
  written : ∀ o ∈ s.written.flatten, o.Names p

theorem StateNames.flush {s : IngestState} (h : StateNames p s) : StateNames p s.flush :=
  ⟨h.coll.bulkWrite h.buf, fun _ hm => (nomatch hm), fun o ho => by
    simp only [IngestState.flush, List.flatten_append, List.flatten_cons, List.flatten_nil, List.append_nil, List.mem_append] at ho
    exact ho.elim (h.written o) (h.buf o)⟩

theorem StateNames.feed {size : Nat} : ∀ {ops : List MongoOp} {s : IngestState}, StateNames p s → (∀ o ∈ ops, o.Names p) →
    StateNames p (ops.foldl (feedOp size) s)
  | [], _, h, _ => h
  | o :: ops, s, h, ho => by
    rw [List.foldl_cons]
    refine StateNames.feed ?_ (fun o hm => ho o (List.mem_cons_of_mem _ hm))
    have h' : StateNames p { s with buf := s.buf ++ [o] } := ⟨h.coll, fun x hx => (List.mem_append.1 hx).elim (h.buf x) (fun e => by
      rw [List.mem_singleton] at e
      subst e
      exact ho x List.mem_cons_self), h.written⟩
    unfold feedOp
    dsimp only
    split
    · exact h'
    · exact h'.flush

theorem ingestLoop_names {U : Unicode} {mf : Option PyStr} {size : Nat} : ∀ {chunks : List (List Record)} {s s' : IngestState},
    StateNames p s → (∀ ch ∈ chunks, ∀ r ∈ ch, NamesAllDict p (prepareRecordData U r)) → ingestLoop U mf size s chunks = .ok s' →
    StateNames p s'
  | [], s, s', hs, _, h => by
    rw [ingestLoop] at h
    cases h
    split
    · exact hs
    · exact hs.flush
  | ch :: rest, s, s', hs, hr, h => by
    rw [ingestLoop] at h
    cases hc : chunkOps U mf s.coll ch with
    | error e => rw [hc] at h; cases h
    | ok ops =>
      rw [hc] at h
      exact ingestLoop_names (hs.feed (chunkOps_names hs.coll (hr ch List.mem_cons_self) hc)) (fun c hm => hr c (List.mem_cons_of_mem _ hm)) h

theorem ingestSized_names {U : Unicode} {mf : Option PyStr} {c : Coll} {rs : List Record} {s : IngestState} (hc : CollNames p c)
    (hr : ∀ r ∈ rs, NamesAllDict p (prepareRecordData U r)) (h : ingestSized U mf 200 c rs = .ok s) : ∀ o ∈ s.written.flatten, o.Names p :=
  (ingestLoop_names ⟨hc, by simp, by simp⟩ (fun _ hch r hm => hr r (mem_partition (by decide) hch hm)) h).written

theorem rollbackOps_names : ∀ {c : Coll} {ops : List MongoOp}, CollNames p c → rollbackOps c = .ok ops → ∀ o ∈ ops, o.Names p
  | [], ops, _, h => by cases h; exact fun _ hm => nomatch hm
  | d :: c, ops, hc, h => by
    rw [rollbackOps] at h
    cases h1 : rollbackOp d with
    | error e => rw [h1] at h; cases h
    | ok op =>
      cases h2 : rollbackOps c with
      | error e => rw [h1, h2] at h; cases h
      | ok os =>
        rw [h1, h2] at h
        cases h
        intro o ho
        rcases List.mem_append.1 ho with ho | ho
        · rw [Option.mem_toList] at ho
          cases ho
          unfold rollbackOp at h1
          split at h1
          · cases h1
          · split at h1
            · cases h1; trivial
            · cases hr : revertRecord d with
              | error e => rw [hr] at h1; cases h1
              | ok x =>
                rw [hr] at h1
                cases x with
                | none => cases h1
                | some y =>
                  cases h1
                  exact (revertRecord_names (hc d List.mem_cons_self) hr).2
        · exact rollbackOps_names (fun x hx => hc x (List.mem_cons_of_mem _ hx)) h2 o ho

theorem CollNames.commitColl {c : Coll} (h : CollNames p c) (v : Int) : CollNames p (commitColl v c) := by
  intro r hr
  obtain ⟨d, hd, e⟩ := List.mem_map.1 hr
  have := h d hd
  split at e <;> subst e
  · exact ⟨this.data, this.diffs⟩
  · exact this

theorem commit_names {db : PyStr} {clock : Int} {m : Mongo} (h : CollNames p (m.data db)) : CollNames p ((commit db clock m).2.data db) := by
  by_cases hl : db ∈ m.locks
  · rw [commit_locked hl]; exact h
  · rw [commit_eq hl]
    split
    · show CollNames p ((m.setData db _).data db)
      rw [setData_data]
      exact h.commitColl clock
    · exact h

/-- A call that does not write data. -/
theorem run_names {U : Unicode} {db : PyStr} {m : Mongo} {c : ApiCall} (hi : ∀ mf rs dc cl, c ≠ .ingest mf rs dc cl) (hr : c ≠ .rollbackRecords)
    (h : CollNames p (m.data db)) : CollNames p ((c.run U db m).2.data db) := by
  cases c with
  | ingest mf rs dc cl => exact absurd rfl (hi mf rs dc cl)
  | commit clock => exact commit_names h
  | updateOptions o dc clock =>
    have hu : CollNames p ((updateOptionsNoCommit db o m).data db) := by rw [updateOptionsNoCommit_data]; exact h
    simp only [ApiCall.run, updateOptions]
    split
    · exact hu
    · split
      · exact commit_names hu
      · exact hu
  | rollbackOptions => exact h
  | rollbackRecords => exact absurd rfl hr

theorem runCalls_names {p : PyStr → Prop} {U : Unicode} {db : PyStr} : ∀ (calls : List ApiCall) (m : Mongo), CollNames p (m.data db) →
    (∀ r ∈ calls.flatMap ApiCall.stream, NamesAllDict p (prepareRecordData U r)) →
    CollNames p ((runCalls U m (calls.map (fun c => (db, c)))).data db)
  | [], _, h, _ => h
  | c :: calls, m, h, hg => by
    have h2 := fun r (hr : r ∈ calls.flatMap ApiCall.stream) => hg r (by rw [List.flatMap_cons]; exact List.mem_append_right _ hr)
    refine runCalls_names calls ((c.run U db m).2) ?_ h2
    cases c with
    | ingest mf rs dc cl =>
      have h3 : ∀ r ∈ rs, NamesAllDict p (prepareRecordData U r) := fun r hr => hg r (by rw [List.flatMap_cons]; exact List.mem_append_left _ hr)
      have key : ∀ c', ingest U mf (m.data db) rs = .ok c' → CollNames p ((m.setData db c').data db) := by
        intro c' hc'
        have : (m.setData db c').data db = c' := by simp [Mongo.setData]
        rw [this]
        unfold ingest at hc'
        cases hs : ingestSized U mf 200 (m.data db) rs with
        | error e => rw [hs] at hc'; cases hc'
        | ok s =>
          rw [hs] at hc'
          cases hc'
          rw [ingestSized_coll hs]
          exact h.bulkWrite (ingestSized_names h h3 hs)
      simp only [ApiCall.run]
      split
      · exact h
      · rename_i c' hc'
        split
        · exact commit_names (key _ hc')
        · exact key _ hc'
    | rollbackRecords =>
      simp only [ApiCall.run]
      split
      · exact h
      · rename_i c' hc'
        have : (m.setData db c').data db = c' := by simp [Mongo.setData]
        rw [this]
        unfold rollbackRecords at hc'
        split at hc'
        · split at hc'
          · cases hc'
          · rename_i ops ho
            cases hc'
            rw [foldl_bulkWrite, partition_flatten (by decide)]
            exact h.bulkWrite (rollbackOps_names h ho)
        · cases hc'
          exact h
    | commit cl => exact run_names (by simp) (by simp) h
    | updateOptions o dc cl => exact run_names (by simp) (by simp) h
    | rollbackOptions => exact run_names (by simp) (by simp) h

/-! ## What is given -/

theorem fieldName_noNul {U : Unicode} (hU : U.Sane) (h0 : U.isC '\x00' = true) (k : RawKey) : NoNul (prepareFieldName U k) := by
  intro h
  have := (prepareFieldName_clean hU k).no_control _ h
  rw [h0] at this
  cases this

theorem prepareData_noNul {U : Unicode} (hU : U.Sane) (h0 : U.isC '\x00' = true) (v : Raw) : NamesAll NoNul (prepareData U v) := by
  induction v using Raw.ind with
  | hlist l ih =>
    rw [prepareData, prepareList_eq]
    exact namesAllList_iff.2 fun w hw => by
      obtain ⟨x, hx, rfl⟩ := List.mem_map.1 hw
      exact ih x hx
  | hdict d ih =>
    rw [prepareData]
    refine namesAllDict_iff.2 fun kv hk => ?_
    have := mem_aofList hk
    rw [prepareItems_eq, List.mem_map] at this
    obtain ⟨⟨k', v'⟩, hx, rfl⟩ := this
    exact ⟨fieldName_noNul hU h0 k', ih k' v' hx⟩
  | _ => trivial

theorem prepareRecordData_noNul {U : Unicode} (hU : U.Sane) (h0 : U.isC '\x00' = true) (r : Record) :
    NamesAllDict NoNul (prepareRecordData U r) := by
  unfold prepareRecordData
  split
  · trivial
  · have := prepareData_noNul hU h0 (.dict r.data)
    rw [prepareData] at this
    refine NamesAllDict.aset ⟨?_, ?_⟩ this
    · unfold NoNul dataIdField; decide
    · rw [prepareData]; trivial

end Splitgill
