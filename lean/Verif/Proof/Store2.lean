import Verif.Proof.Store
/-!
# Closed form of a bulk write, and its counts
-/

namespace Splitgill

theorem updateFirst_eq {id : PyStr} {f : MongoRecord → MongoRecord} : ∀ {c : Coll}, (ids c).Nodup →
    updateFirst id f c = c.filterMap (fun d => if id = d.id then some (f d) else some d)
  | [], _ => rfl
  | d :: c, hn => by
    rw [ids, List.map_cons, List.nodup_cons] at hn
    rw [updateFirst, List.filterMap_cons]
    by_cases h : d.id = id
    · rw [if_pos h, if_pos h.symm]
      simp only
      congr 1
      have : ∀ x ∈ c, (fun d : MongoRecord => if id = d.id then some (f d) else some d) x = some x := by
        intro x hx
        have : id ≠ x.id := by
          intro e; exact hn.1 (List.mem_map.2 ⟨x, hx, (h.trans e).symm⟩)
        simp [this]
      rw [List.filterMap_congr this]; simp
    · have h' : ¬ id = d.id := fun e => h e.symm
      rw [if_neg h, if_neg h', updateFirst_eq hn.2]

theorem deleteFirst_eq {id : PyStr} : ∀ {c : Coll}, (ids c).Nodup →
    deleteFirst id c = c.filterMap (fun d => if id = d.id then none else some d)
  | [], _ => rfl
  | d :: c, hn => by
    rw [ids, List.map_cons, List.nodup_cons] at hn
    rw [deleteFirst, List.filterMap_cons]
    by_cases h : d.id = id
    · rw [if_pos h, if_pos h.symm]
      have : ∀ x ∈ c, (fun d : MongoRecord => if id = d.id then none else some d) x = some x := by
        intro x hx
        have : id ≠ x.id := by
          intro e; exact hn.1 (List.mem_map.2 ⟨x, hx, (h.trans e).symm⟩)
        simp [this]
      rw [List.filterMap_congr this]; simp
    · have h' : ¬ id = d.id := fun e => h e.symm
      rw [if_neg h, if_neg h', deleteFirst_eq hn.2]

/-- The document inserted by an op. -/
def insDoc : MongoOp → Option MongoRecord
  | .insert id data => some { id := id, version := none, data := data }
  | _ => none

theorem applyOp_eq {c : Coll} (hn : (ids c).Nodup) {o : MongoOp} (ho : o.isInsert = false) :
    applyOp c o = c.filterMap (fun d => if o.id = d.id then docOp (some d) o else some d) := by
  cases o with
  | insert => cases ho
  | delete => exact deleteFirst_eq hn
  | setData => exact updateFirst_eq hn
  | setDiff => exact updateFirst_eq hn
  | revert => exact updateFirst_eq hn

theorem docOp_id {d d' : MongoRecord} {o : MongoOp} (ho : o.isInsert = false) (h : docOp (some d) o = some d') :
    d'.id = d.id := by
  cases o with
  | insert => cases ho
  | delete => cases h
  | setData => cases h; rfl
  | setDiff => cases h; rfl
  | revert => cases h; rfl

theorem opAt_eq_none {i : PyStr} {ops : List MongoOp} : opAt i ops = none ↔ ∀ o ∈ ops, o.id ≠ i := by
  simp [opAt, List.find?_eq_none]

theorem opAt_cons (i : PyStr) (o : MongoOp) (ops : List MongoOp) :
    opAt i (o :: ops) = if o.id = i then some o else opAt i ops := by
  simp only [opAt, List.find?_cons]; by_cases h : o.id = i <;> simp [h]

theorem bulkWrite_closed : ∀ {ops : List MongoOp} {c : Coll}, (ids c).Nodup → (ops.map MongoOp.id).Nodup →
    (∀ o ∈ ops, o.isInsert = true → findRecord o.id c = none) →
    bulkWrite c ops = c.filterMap (fun d => docOp? (some d) (opAt d.id ops)) ++ ops.filterMap insDoc
  | [], c, _, _, _ => by simp [bulkWrite, opAt, docOp?]
  | o :: ops, c, hn, hi, hins => by
    have hi' := hi
    rw [List.map_cons, List.nodup_cons] at hi
    obtain ⟨h1, h2⟩ := applyOp_spec hn (hins o (by simp))
    have hne : ∀ o' ∈ ops, o.id ≠ o'.id := fun o' ho' e => hi.1 (e ▸ List.mem_map_of_mem ho')
    have hnone : opAt o.id ops = none := opAt_eq_none.2 (fun o' ho' e => hne o' ho' e.symm)
    have ih := bulkWrite_closed (ops := ops) h1 hi.2 (by
      intro o' ho' h'
      rw [h2, if_neg (hne o' ho')]
      exact hins o' (List.mem_cons_of_mem _ ho') h')
    have e : bulkWrite c (o :: ops) = bulkWrite (applyOp c o) ops := rfl
    rw [e, ih]
    by_cases hio : o.isInsert = true
    · cases o with
      | insert id data =>
        have hid := findRecord_none.1 (hins _ (List.mem_cons_self) rfl)
        simp only [MongoOp.id] at hid hnone
        simp only [applyOp, List.filterMap_append, List.filterMap_cons, List.filterMap_nil, hnone, docOp?,
          insDoc, List.append_assoc, List.singleton_append]
        congr 1
        apply List.filterMap_congr
        intro d hd
        rw [opAt_cons, if_neg]
        intro e
        have e : id = d.id := e
        subst e; exact hid (List.mem_map_of_mem hd)
      | _ => cases hio
    · have hio : o.isInsert = false := by simpa using hio
      have hid : insDoc o = none := by cases o <;> first | rfl | cases hio
      rw [List.filterMap_cons, hid, applyOp_eq hn hio, List.filterMap_filterMap]
      simp only
      congr 1
      apply List.filterMap_congr
      intro d hd
      rw [opAt_cons]
      by_cases h : o.id = d.id
      · rw [if_pos h, if_pos h]
        cases hq : docOp (some d) o with
        | none => simp [docOp?, hq]
        | some d' =>
          have : opAt d'.id ops = none := by rw [docOp_id hio hq, ← h]; exact hnone
          simp [docOp?, this, hq]
      · rw [if_neg h, if_neg h]; rfl

/-! ## Rollback, exactly -/

/-- A document after a rollback. -/
def rolled (d : MongoRecord) : Option MongoRecord := docOp? (some d) (rbOp d)

theorem rolled_version {K : DataClass} {d d' : MongoRecord} {h : Hist} (hr : Rep K (some d) h) (he : rolled d = some d') :
    ∃ v, d'.version = some v := by
  have := (rollbackOp_spec hr).2.2.1
  rw [rolled] at he
  rw [he] at this
  obtain ⟨cs, p⟩ := h
  cases cs with
  | nil => exact this.elim
  | cons vd cs =>
    have this : DocRep K d' (some vd.1) vd.2 cs ∧ _ := this
    exact ⟨_, this.1.version⟩

theorem rbOp_committed {d : MongoRecord} {v} (h : d.version = some v) : rbOp d = none := by
  simp [rbOp, rollbackOp, h]

theorem opAt_mem {i : PyStr} {ops : List MongoOp} {o} (h : opAt i ops = some o) : o ∈ ops ∧ o.id = i := by
  refine ⟨List.mem_of_find?_eq_some h, ?_⟩
  have := List.find?_some h; simpa using this

theorem rollback_closed {K : PyStr → DataClass} {c : Coll} {s : Store} (hR : RColl K c s) (n : Nat) :
    ∃ ops, rollbackOps c = .ok ops ∧
      bulkWrite c (ops.take n) = c.filterMap (fun d => docOp? (some d) (opAt d.id (ops.take n))) ∧
      (∀ d ∈ c, opAt d.id ops = rbOp d) ∧
      (hasUncommittedData c = false → ops = []) := by
  have hid : ∀ d ∈ c, ∀ o, rbOp d = some o → o.id = d.id := fun d hd o ho =>
    ((rollbackOp_spec (hR.rep_mem hd)).2.1 o ho).1
  have hops := rollbackOps_eq (fun d hd => (rollbackOp_spec (hR.rep_mem hd)).1)
  obtain ⟨ops, h1, h2, h3, h4, h5⟩ := rollbackOps_spec hR
  rw [hops] at h1; cases h1
  refine ⟨_, hops, ?_, ?_, h5⟩
  · rw [bulkWrite_closed hR.nodup (h2.sublist ((List.take_sublist n _).map _))]
    · have : ((c.filterMap rbOp).take n).filterMap insDoc = [] := by
        rw [List.filterMap_eq_nil_iff]
        intro o ho
        have := h3 o (List.mem_of_mem_take ho)
        cases o <;> first | rfl | cases this
      rw [this, List.append_nil]
    · intro o ho hi; have := h3 o (List.mem_of_mem_take ho); simp [this] at hi
  · intro d hd
    rw [opAt_rb hR.nodup hid, findRecord_of_mem hR.nodup hd]; rfl

theorem rollbackRecords_closed {K : PyStr → DataClass} {c : Coll} {s : Store} (hR : RColl K c s) :
    rollbackRecords c = .ok (c.filterMap rolled) := by
  obtain ⟨ops, h0, _⟩ := rollback_closed hR 0
  obtain ⟨ops', h1, h2, h3, h4⟩ := rollback_closed hR ops.length
  rw [h0] at h1; cases h1
  rw [List.take_length] at h2
  have e : bulkWrite c ops = c.filterMap rolled := by
    rw [h2]; apply List.filterMap_congr; intro d hd; rw [h3 d hd]; rfl
  unfold rollbackRecords
  cases hu : hasUncommittedData c with
  | false => rw [h4 hu] at e; rw [← e]; simp [bulkWrite]
  | true =>
    simp only [if_true, h0]
    rw [bulkWrite_batches, partition_flatten (by omega), e]

theorem rollback_after_crash {K : PyStr → DataClass} {c : Coll} {s : Store} (hR : RColl K c s) (n : Nat) {c1 : Coll}
    (h : rollbackCrash c n = .ok c1) : rollbackRecords c1 = .ok (c.filterMap rolled) := by
  obtain ⟨c1', s1, e1, e2, hR1⟩ := rollbackCrash_spec hR n
  rw [h] at e1; cases e1
  rw [rollbackRecords_closed hR1]
  congr 1
  unfold rollbackCrash at h
  cases hu : hasUncommittedData c with
  | false => rw [hu] at h; cases h; rfl
  | true =>
    obtain ⟨ops, h1, h2, h3, h4⟩ := rollback_closed hR n
    rw [hu] at h
    simp only [if_true, h1] at h
    cases h
    rw [h2, List.filterMap_filterMap]
    apply List.filterMap_congr
    intro d hd
    rcases opAt_take d.id ops n with e | e
    · rw [e]; rfl
    · cases hq : opAt d.id (ops.take n) with
      | none => rfl
      | some o =>
        rw [hq] at e
        have e' : some o = rbOp d := e.trans (h3 d hd)
        rw [e']
        change (rolled d).bind rolled = rolled d
        cases hr : rolled d with
        | none => rfl
        | some d' =>
          obtain ⟨v, hv⟩ := rolled_version (hR.rep_mem hd) hr
          simp [rolled, rbOp_committed hv, docOp?]

/-! ## Counts -/

theorem Counts.ext' {a b : Counts} (h1 : a.inserted = b.inserted) (h2 : a.updated = b.updated)
    (h3 : a.deleted = b.deleted) : a = b := by
  cases a; cases b; simp_all

theorem Counts.zero_add (a : Counts) : Counts.add {} a = a := by simp [Counts.add]

theorem Counts.add_assoc (a b c : Counts) : (a.add b).add c = a.add (b.add c) := by
  simp [Counts.add, Nat.add_assoc]

theorem bulkCounts_append (a b : List MongoOp) (c : Coll) :
    bulkCounts c (a ++ b) = (bulkCounts c a).add (bulkCounts (bulkWrite c a) b) := by
  induction a generalizing c with
  | nil => exact (Counts.zero_add _).symm
  | cons o a ih =>
    rw [List.cons_append, bulkCounts, ih, bulkCounts, Counts.add_assoc]; rfl

theorem batchCounts_eq (l : List (List MongoOp)) (c : Coll) : batchCounts c l = bulkCounts c l.flatten := by
  induction l generalizing c with
  | nil => rfl
  | cons a l ih => rw [batchCounts, ih, List.flatten_cons, bulkCounts_append]

/-- The document is there and different. -/
def differs (d : MongoRecord) : Option MongoRecord → Bool
  | none => false
  | some d' => !decide (d' = d)

/-- An op that changes a document it finds. -/
def changes (p : MongoRecord × MongoOp) : Bool := !p.2.isInsert && differs p.1 (docOp (some p.1) p.2)

/-- An op that removes the document it finds. -/
def removes (p : MongoRecord × MongoOp) : Bool := !p.2.isInsert && (docOp (some p.1) p.2).isNone

/-- The ops with the document they find. -/
def foundBy (c : Coll) (ops : List MongoOp) : List (MongoRecord × MongoOp) :=
  ops.filterMap (fun o => (findRecord o.id c).map (fun d => (d, o)))

/-- The documents with their op. -/
def hitBy (c : Coll) (ops : List MongoOp) : List (MongoRecord × MongoOp) :=
  c.filterMap (fun d => (opAt d.id ops).map (fun o => (d, o)))

theorem opAt_of_mem {ops : List MongoOp} (hn : (ops.map MongoOp.id).Nodup) {o} (h : o ∈ ops) :
    opAt o.id ops = some o := by
  induction ops with
  | nil => cases h
  | cons x c ih =>
    rw [List.map_cons, List.nodup_cons] at hn
    rw [opAt_cons]
    rcases List.mem_cons.1 h with e | h
    · rw [e, if_pos rfl]
    · rw [if_neg, ih hn.2 h]
      intro e; exact hn.1 (List.mem_map.2 ⟨o, h, e.symm⟩)

theorem nodup_of_map {α β : Type} (f : α → β) : ∀ {l : List α}, (l.map f).Nodup → l.Nodup
  | [], _ => .nil
  | a :: l, h => by
    rw [List.map_cons, List.nodup_cons] at h
    rw [List.nodup_cons]
    exact ⟨fun h' => h.1 (List.mem_map_of_mem h'), nodup_of_map f h.2⟩

theorem found_perm_hit {c : Coll} {ops : List MongoOp} (hn : (ids c).Nodup) (hi : (ops.map MongoOp.id).Nodup) :
    (foundBy c ops).Perm (hitBy c ops) := by
  have n1 : (foundBy c ops).Nodup := by
    apply nodup_of_map (fun p => p.2.id)
    refine hi.sublist ?_
    unfold foundBy
    clear hi
    induction ops with
    | nil => exact .slnil
    | cons o ops ih =>
      rw [List.filterMap_cons]
      cases findRecord o.id c with
      | none => exact ih.cons _
      | some d => exact ih.cons_cons _
  have n2 : (hitBy c ops).Nodup := by
    apply nodup_of_map (fun p => p.1.id)
    refine hn.sublist ?_
    unfold hitBy
    clear n1 hn
    induction c with
    | nil => exact .slnil
    | cons d c ih =>
      rw [List.filterMap_cons]
      cases opAt d.id ops with
      | none => exact ih.cons _
      | some o => exact ih.cons_cons _
  rw [List.perm_ext_iff_of_nodup n1 n2]
  rintro ⟨d, o⟩
  simp only [foundBy, hitBy, List.mem_filterMap, Option.map_eq_some_iff, Prod.mk.injEq]
  constructor
  · rintro ⟨o', ho', d', hd', rfl, rfl⟩
    refine ⟨d', findRecord_mem hd', o', ?_, rfl, rfl⟩
    rw [findRecord_id hd']; exact opAt_of_mem hi ho'
  · rintro ⟨d', hd', o', ho', rfl, rfl⟩
    refine ⟨o', (opAt_mem ho').1, d', ?_, rfl, rfl⟩
    rw [(opAt_mem ho').2]; exact findRecord_of_mem hn hd'

theorem opCounts_eq (c : Coll) (o : MongoOp) (hins : o.isInsert = true → findRecord o.id c = none) :
    opCounts (findRecord o.id c) o =
      ⟨(insDoc o).toList.length, (foundBy c [o]).countP changes, (foundBy c [o]).countP removes⟩ := by
  have e : foundBy c [o] = ((findRecord o.id c).map (fun d => (d, o))).toList := by
    unfold foundBy; rw [List.filterMap_cons]; cases findRecord o.id c <;> rfl
  rw [e]
  cases hf : findRecord o.id c with
  | none => cases o <;> simp [opCounts, insDoc]
  | some d =>
    have hid := findRecord_id hf
    have hio : o.isInsert = false := by
      cases h : o.isInsert with
      | false => rfl
      | true => rw [hins h] at hf; cases hf
    cases o with
    | insert => cases hio
    | delete id => simp [opCounts, insDoc, removes, changes, differs, docOp, MongoOp.isInsert]
    | setData id data =>
      simp only [MongoOp.id] at hid
      simp only [opCounts, applyOp, updateFirst, hid, insDoc, removes, changes, differs, docOp, MongoOp.isInsert, if_true, Option.map, Option.toList,
        List.countP_cons, List.countP_nil, List.cons.injEq, and_true]
      split <;> rename_i h <;> simp [hid, h]
    | setDiff id data v ch =>
      simp only [MongoOp.id] at hid
      simp only [opCounts, applyOp, updateFirst, hid, insDoc, removes, changes, differs, docOp, MongoOp.isInsert, if_true, Option.map, Option.toList,
        List.countP_cons, List.countP_nil, List.cons.injEq, and_true]
      split <;> rename_i h <;> simp [hid, h]
    | revert id data v all =>
      simp only [MongoOp.id] at hid
      simp only [opCounts, applyOp, updateFirst, hid, insDoc, removes, changes, differs, docOp, MongoOp.isInsert, if_true, Option.map, Option.toList,
        List.countP_cons, List.countP_nil, List.cons.injEq, and_true]
      split <;> rename_i h <;> simp [hid, h]

theorem bulkCounts_eq : ∀ {ops : List MongoOp} {c : Coll}, (ids c).Nodup → (ops.map MongoOp.id).Nodup →
    (∀ o ∈ ops, o.isInsert = true → findRecord o.id c = none) →
    bulkCounts c ops =
      ⟨(ops.filterMap insDoc).length, (foundBy c ops).countP changes, (foundBy c ops).countP removes⟩
  | [], c, _, _, _ => rfl
  | o :: ops, c, hn, hi, hins => by
    rw [List.map_cons, List.nodup_cons] at hi
    obtain ⟨h1, h2⟩ := applyOp_spec hn (hins o (by simp))
    have hne : ∀ o' ∈ ops, o.id ≠ o'.id := fun o' ho' e => hi.1 (e ▸ List.mem_map_of_mem ho')
    have ih := bulkCounts_eq (ops := ops) h1 hi.2 (by
      intro o' ho' h'
      rw [h2, if_neg (hne o' ho')]
      exact hins o' (List.mem_cons_of_mem _ ho') h')
    have ef : foundBy (applyOp c o) ops = foundBy c ops := by
      apply List.filterMap_congr
      intro o' ho'
      rw [h2, if_neg (hne o' ho')]
    rw [ef] at ih
    have e1 : foundBy c (o :: ops) = foundBy c [o] ++ foundBy c ops := by
      unfold foundBy; rw [← List.filterMap_append]; rfl
    rw [bulkCounts, ih]
    have := opCounts_eq c o (hins o (by simp))
    rw [findRecord] at this
    rw [this, e1, List.countP_append, List.countP_append]
    apply Counts.ext'
    · simp only [Counts.add, List.filterMap_cons]
      cases insDoc o <;> simp [Nat.add_comm]
    · rfl
    · rfl

theorem bulkCounts_spec {ops : List MongoOp} {c : Coll} (hn : (ids c).Nodup) (hi : (ops.map MongoOp.id).Nodup)
    (hins : ∀ o ∈ ops, o.isInsert = true → findRecord o.id c = none) :
    bulkCounts c ops =
      ⟨((bulkWrite c ops).filter (fun d => (findRecord d.id c).isNone)).length,
       (c.filter (fun d => differs d (findRecord d.id (bulkWrite c ops)))).length,
       (c.filter (fun d => (findRecord d.id (bulkWrite c ops)).isNone)).length⟩ := by
  obtain ⟨b1, b2⟩ := bulkWrite_spec hn hi hins
  have hp := found_perm_hit (c := c) (ops := ops) hn hi
  rw [bulkCounts_eq hn hi hins, hp.countP_eq, hp.countP_eq]
  have hnins : ∀ d ∈ c, ∀ o, opAt d.id ops = some o → o.isInsert = false := by
    intro d hd o ho
    cases h : o.isInsert with
    | false => rfl
    | true =>
      have := hins o (opAt_mem ho).1 h
      rw [(opAt_mem ho).2, findRecord_of_mem hn hd] at this; cases this
  have hcount : ∀ (f : MongoRecord × MongoOp → Bool) (g : MongoRecord → Bool),
      (∀ d ∈ c, g d = match opAt d.id ops with | none => false | some o => f (d, o)) →
      (hitBy c ops).countP f = (c.filter g).length := by
    intro f g hfg
    unfold hitBy
    rw [← List.countP_eq_length_filter]
    clear hp b1 b2 hnins hins hn
    induction c with
    | nil => rfl
    | cons d c ih =>
      have ih := ih (fun x hx => hfg x (List.mem_cons_of_mem _ hx))
      have hd := hfg d (by simp)
      rw [List.filterMap_cons, List.countP_cons, hd]
      cases ho : opAt d.id ops with
      | none => simpa using ih
      | some o => simp only [Option.map_some]; rw [List.countP_cons, ih]
  congr 1
  · rw [bulkWrite_closed hn hi hins, List.filter_append, List.length_append]
    have e1 : (c.filterMap (fun d => docOp? (some d) (opAt d.id ops))).filter
        (fun d => (findRecord d.id c).isNone) = [] := by
      rw [List.filter_eq_nil_iff]
      intro d' hd'
      rw [List.mem_filterMap] at hd'
      obtain ⟨d, hd, hd'⟩ := hd'
      have : d'.id = d.id := by
        cases ho : opAt d.id ops with
        | none => rw [ho] at hd'; cases hd'; rfl
        | some o => rw [ho] at hd'; exact docOp_id (hnins d hd o ho) hd'
      rw [this, findRecord_of_mem hn hd]; simp
    have e2 : (ops.filterMap insDoc).filter (fun d => (findRecord d.id c).isNone) = ops.filterMap insDoc := by
      rw [List.filter_eq_self]
      intro d hd
      rw [List.mem_filterMap] at hd
      obtain ⟨o, ho, hd⟩ := hd
      cases o with
      | insert id data => cases hd; have := hins _ ho rfl; simp only [MongoOp.id] at this; simp [this]
      | _ => cases hd
    rw [e1, e2]; simp
  · apply hcount
    intro d hd
    rw [b2, findRecord_of_mem hn hd]
    cases ho : opAt d.id ops with
    | none => simp [docOp?, differs]
    | some o => simp [docOp?, changes, hnins d hd o ho]
  · apply hcount
    intro d hd
    rw [b2, findRecord_of_mem hn hd]
    cases ho : opAt d.id ops with
    | none => simp [docOp?]
    | some o => simp [docOp?, removes, hnins d hd o ho]

end Splitgill
