import Verif.Proof.Resync
import Verif.Spec.Bulk
/-!
# Lemmas: the order of operations does not matter
-/

namespace Splitgill

section
variable {P : Type}

/-- What an op makes of the latest document. -/
def BulkOp.latestDoc : BulkOp P → Option (Doc P)
  | .index _ _ d => some d
  | .delete _ _ => none

/-- What an op adds to an archive. -/
def BulkOp.arcDoc (k : Nat) : BulkOp P → Option (Option PyStr × Doc P)
  | .index (.arc n) docId d => if n = k then some (docId, d) else none
  | _ => none

theorem LatestOk.apply {es : ES P} (h : LatestOk es) {op : BulkOp P} (hop : GenOp op) : LatestOk (op.apply es) := by
  cases op with
  | index ix docId d =>
    cases ix with
    | latest =>
      cases docId with
      | none => cases hop
      | some id => exact h.apply_put id d
    | arc n =>
      cases docId with
      | none => exact h.apply_arc n d
      | some id => cases hop
  | delete ix id => cases hop; exact h.apply_delete id

theorem LatestOk.applyOps {es : ES P} (h : LatestOk es) {ops : List (BulkOp P)} (hops : ∀ op ∈ ops, GenOp op) :
    LatestOk (es.applyOps ops) := by
  induction ops generalizing es with
  | nil => exact h
  | cons op ops ih =>
    rw [applyOps_cons]
    exact ih (h.apply (hops op List.mem_cons_self)) (fun op' h' => hops op' (List.mem_cons_of_mem _ h'))

theorem apply_latestOf {es : ES P} (h : LatestOk es) {op : BulkOp P} (hop : GenOp op) (id : PyStr) :
    (op.apply es).latestOf id = if op.latestId = some id then op.latestDoc else es.latestOf id := by
  cases op with
  | index ix docId d =>
    cases ix with
    | latest =>
      cases docId with
      | none => cases hop
      | some id' =>
        have := latestOf_put es id' id d
        rw [this]
        by_cases e : id = id'
        · subst e; simp [BulkOp.latestId, BulkOp.latestDoc]
        · have : ¬ id' = id := fun e' => e e'.symm
          simp [BulkOp.latestId, e, this]
    | arc n =>
      cases docId with
      | none => rw [latestOf_arc]; simp [BulkOp.latestId]
      | some id => cases hop
  | delete ix id' =>
    cases hop
    rw [latestOf_delete h]
    by_cases e : id = id'
    · subst e; simp [BulkOp.latestId, BulkOp.latestDoc]
    · have : ¬ id' = id := fun e' => e e'.symm
      simp [BulkOp.latestId, e, this]

/-- Ops that say the same about each record: what they say is what happens. -/
theorem applyOps_latestOf : ∀ {ops : List (BulkOp P)} {es : ES P}, LatestOk es → (∀ op ∈ ops, GenOp op) → Consistent ops → ∀ id,
    (∀ op ∈ ops, op.latestId = some id → (es.applyOps ops).latestOf id = op.latestDoc) ∧
    ((∀ op ∈ ops, op.latestId ≠ some id) → (es.applyOps ops).latestOf id = es.latestOf id)
  | [], es, _, _, _, id => ⟨by simp, fun _ => rfl⟩
  | op :: ops, es, h, hg, hc, id => by
    have ih := applyOps_latestOf (h.apply (hg op List.mem_cons_self)) (fun o ho => hg o (List.mem_cons_of_mem _ ho))
      (fun a ha b hb => hc a (List.mem_cons_of_mem _ ha) b (List.mem_cons_of_mem _ hb)) id
    have h1 := apply_latestOf h (hg op List.mem_cons_self) id
    rw [applyOps_cons]
    refine ⟨fun o ho hid => ?_, fun hno => ?_⟩
    · by_cases hex : ∃ o' ∈ ops, o'.latestId = some id
      · obtain ⟨o', ho', hid'⟩ := hex
        rw [ih.1 o' ho' hid']
        rw [hc o ho o' (List.mem_cons_of_mem _ ho') (by rw [hid, hid']) (by rw [hid]; simp)]
      · have hno : ∀ o' ∈ ops, o'.latestId ≠ some id := fun o' ho' e => hex ⟨o', ho', e⟩
        have : o = op := by
          rcases List.mem_cons.1 ho with ho | ho
          · exact ho
          · exact absurd hid (hno o ho)
        subst this
        rw [ih.2 hno, h1, if_pos hid]
    · rw [ih.2 (fun o ho => hno o (List.mem_cons_of_mem _ ho)), h1, if_neg (hno op List.mem_cons_self)]

theorem apply_arcDocs (es : ES P) {op : BulkOp P} (hop : GenOp op) (k : Nat) :
    ES.docs (op.apply es) (.arc k) = ES.docs es (.arc k) ++ (op.arcDoc k).toList := by
  cases op with
  | index ix docId d =>
    cases ix with
    | latest => simp [BulkOp.apply, docs_aset, BulkOp.arcDoc]
    | arc n =>
      cases docId with
      | none =>
        simp only [BulkOp.apply, docs_aset, BulkOp.arcDoc, indexDoc, Ix.arc.injEq]
        by_cases e : k = n
        · subst e; simp
        · have : ¬ n = k := fun e' => e e'.symm
          simp [e, this]
      | some id => cases hop
  | delete ix id' => cases hop; simp [BulkOp.apply, docs_aset, BulkOp.arcDoc]

theorem applyOps_arcDocs : ∀ {ops : List (BulkOp P)} {es : ES P}, (∀ op ∈ ops, GenOp op) → ∀ k,
    ES.docs (es.applyOps ops) (.arc k) = ES.docs es (.arc k) ++ ops.filterMap (BulkOp.arcDoc k)
  | [], es, _, k => by simp [ES.applyOps]
  | op :: ops, es, hg, k => by
    rw [applyOps_cons, applyOps_arcDocs (fun o ho => hg o (List.mem_cons_of_mem _ ho)) k,
      apply_arcDocs es (hg op List.mem_cons_self) k, List.append_assoc]
    congr 1
    rw [List.filterMap_cons]
    cases BulkOp.arcDoc k op <;> rfl

theorem apply_keys (es : ES P) (op : BulkOp P) (ix : Ix) : ix ∈ akeys (op.apply es) ↔ ix ∈ akeys es ∨ op.ix = ix := by
  cases op <;> simp only [BulkOp.apply, BulkOp.ix, mem_akeys_aset] <;> constructor
  all_goals
    rintro (h | h)
    · first | exact .inr h.symm | exact .inr h
    · first | exact .inl h | exact .inl h.symm

theorem applyOps_keys : ∀ {ops : List (BulkOp P)} {es : ES P} (ix : Ix),
    ix ∈ akeys (es.applyOps ops) ↔ ix ∈ akeys es ∨ ∃ op ∈ ops, op.ix = ix
  | [], es, ix => by simp [ES.applyOps]
  | op :: ops, es, ix => by
    rw [applyOps_cons, applyOps_keys, apply_keys]
    simp only [List.mem_cons, exists_eq_or_imp, or_assoc]

theorem latest_mem_iff {es : ES P} (h : LatestOk es) (x : Option PyStr × Doc P) :
    x ∈ es.docs .latest ↔ ∃ id, x.1 = some id ∧ es.latestOf id = some x.2 := by
  obtain ⟨k, d⟩ := x
  cases k with
  | none => simp only [reduceCtorEq, false_and, exists_false, iff_false]; exact fun hm => h.hasId (List.mem_map_of_mem hm)
  | some id =>
    simp only [Option.some.injEq, exists_eq_left', ES.latestOf]
    exact (aget_iff_mem h.nodup).symm

/-- Same latest documents for each record. -/
theorem latest_perm {es es' : ES P} (h : LatestOk es) (h' : LatestOk es') (he : ∀ id, es.latestOf id = es'.latestOf id) :
    (es.docs .latest).Perm (es'.docs .latest) := by
  rw [List.perm_ext_iff_of_nodup (nodup_of_map Prod.fst h.nodup) (nodup_of_map Prod.fst h'.nodup)]
  intro x
  rw [latest_mem_iff h, latest_mem_iff h']
  simp only [he]

/-- Doing ops twice, in another order, changes nothing in the latest index. -/
theorem applyOps_latest_same {es : ES P} (h : LatestOk es) {ops ops' : List (BulkOp P)} (hg : ∀ op ∈ ops, GenOp op)
    (hc : Consistent ops) (hsub : ∀ op, op ∈ ops' ↔ op ∈ ops) :
    ((es.applyOps ops').docs .latest).Perm ((es.applyOps ops).docs .latest) := by
  have hg' : ∀ op ∈ ops', GenOp op := fun op hop => hg op ((hsub op).1 hop)
  have hc' : Consistent ops' := fun a ha b hb => hc a ((hsub a).1 ha) b ((hsub b).1 hb)
  refine latest_perm (h.applyOps hg') (h.applyOps hg) (fun id => ?_)
  have h1 := applyOps_latestOf h hg hc id
  have h2 := applyOps_latestOf h hg' hc' id
  by_cases hex : ∃ op ∈ ops, op.latestId = some id
  · obtain ⟨op, hop, hid⟩ := hex
    rw [h1.1 op hop hid, h2.1 op ((hsub op).2 hop) hid]
  · rw [h1.2 (fun op hop e => hex ⟨op, hop, e⟩), h2.2 (fun op hop e => hex ⟨op, (hsub op).1 hop, e⟩)]

theorem applyOps_perm {es : ES P} (h : LatestOk es) {ops ops' : List (BulkOp P)} (hg : ∀ op ∈ ops, GenOp op)
    (hc : Consistent ops) (hp : ops'.Perm ops) : SameDocs (es.applyOps ops') (es.applyOps ops) := by
  refine ⟨fun ix => ?_, fun ix => ?_⟩
  · rw [applyOps_keys, applyOps_keys]
    simp only [hp.mem_iff]
  · cases ix with
    | latest => exact applyOps_latest_same h hg hc (fun op => hp.mem_iff)
    | arc k =>
      rw [applyOps_arcDocs hg, applyOps_arcDocs (fun op hop => hg op (hp.mem_iff.1 hop))]
      exact (hp.filterMap _).append_left _

/-! ## The ops of a sync -/

theorem rvOps_latest {maxDocs : Nat} (after : Option Int) (id : PyStr) :
    ∀ (rvs : List (RecordVersion P)) (arc : Nat × Nat), (∀ op ∈ (rvOps maxDocs after id arc rvs).1, GenOp op ∧
      (op.latestId ≠ none → op.latestId = some id)) ∧
      ((rvOps maxDocs after id arc rvs).1.filter (fun op => op.latestId.isSome)).length ≤ 1 ∧
      (rvs.length ≤ 0 → (rvOps maxDocs after id arc rvs).1 = [])
  | [], arc => by simp [rvOps]
  | rv :: rest, arc => by
    have ih := rvOps_latest (maxDocs := maxDocs) after id rest arc
    have ih' := rvOps_latest (maxDocs := maxDocs) after id rest (nextArc maxDocs arc)
    have hc : ∀ (d : Doc P), (∀ op ∈ (.index (.arc (nextArc maxDocs arc).1) none d ::
        (rvOps maxDocs after id (nextArc maxDocs arc) rest).1 : List (BulkOp P)), GenOp op ∧
        (op.latestId ≠ none → op.latestId = some id)) ∧
        ((.index (.arc (nextArc maxDocs arc).1) none d ::
        (rvOps maxDocs after id (nextArc maxDocs arc) rest).1 : List (BulkOp P)).filter (fun op => op.latestId.isSome)).length ≤ 1 := by
      intro d
      refine ⟨fun op hop => ?_, ?_⟩
      · rcases List.mem_cons.1 hop with rfl | hop
        · exact ⟨rfl, fun h => absurd rfl h⟩
        · exact ih'.1 op hop
      · rw [List.filter_cons_of_neg (by simp [BulkOp.latestId])]
        exact ih'.2.1
    refine ⟨?_, ?_, by simp⟩ <;> simp only [rvOps]
    · split
      · intro op hop
        rcases List.mem_cons.1 hop with rfl | hop
        · exact ⟨rfl, fun _ => rfl⟩
        · exact ih.1 op hop
      · split
        · exact (hc _).1
        · split
          · split
            · split
              · intro op hop
                rcases List.mem_append.1 hop with hop | hop
                · rw [List.mem_singleton] at hop; subst hop; exact ⟨rfl, fun _ => rfl⟩
                · exact (hc _).1 op hop
              · exact (hc _).1
            · exact ih.1
          · exact ih.1
    · split
      · rename_i hcond
        have hr : rest = [] := by
          cases rest with
          | nil => rfl
          | cons x l => simp at hcond
        subst hr
        simp [rvOps, BulkOp.latestId]
      · split
        · exact (hc _).2
        · split
          · split
            · split
              · rename_i hcond
                have hr : rest = [] := by
                  cases rest with
                  | nil => rfl
                  | cons x l => simp at hcond
                subst hr
                simp [rvOps, BulkOp.latestId]
              · exact (hc _).2
            · exact ih.2.1
          · exact ih.2.1

theorem generateOps_latest {X : Parser P} {maxDocs : Nat} {opts : List (Int × ParsingOptions)}
    {after : Option Int} : ∀ {rs : List MongoRecord} {arc : Nat × Nat} {ops arc'}, (rs.map MongoRecord.id).Nodup →
      generateOps X maxDocs opts after arc rs = .ok (ops, arc') →
      (∀ op ∈ ops, GenOp op ∧ (op.latestId ≠ none → ∃ r ∈ rs, op.latestId = some r.id)) ∧
      (ops.filterMap BulkOp.latestId).Nodup
  | [], arc, ops, arc', _, hg => by cases hg; simp
  | r :: rs, arc, ops, arc', hn, hg => by
    simp only [List.map_cons, List.nodup_cons] at hn
    simp only [generateOps] at hg
    split at hg
    · cases hg
    · cases hg
    · rename_i rvs hne hb
      split at hg
      · cases hg
      · rename_i ops2 arc2 hg2
        cases hg
        have h1 := rvOps_latest (maxDocs := maxDocs) after r.id rvs arc
        have h2 := generateOps_latest hn.2 hg2
        refine ⟨fun op hop => ?_, ?_⟩
        · rcases List.mem_append.1 hop with hop | hop
          · exact ⟨(h1.1 op hop).1, fun h => ⟨r, List.mem_cons_self, (h1.1 op hop).2 h⟩⟩
          · refine ⟨(h2.1 op hop).1, fun h => ?_⟩
            obtain ⟨r', hr', e⟩ := (h2.1 op hop).2 h
            exact ⟨r', List.mem_cons_of_mem _ hr', e⟩
        · rw [List.filterMap_append, List.nodup_append]
          refine ⟨?_, h2.2, ?_⟩
          · have e : ∀ l : List (BulkOp P), (l.filterMap BulkOp.latestId).length =
                (l.filter (fun op => op.latestId.isSome)).length := by
              intro l
              induction l with
              | nil => rfl
              | cons x l ih =>
                rw [List.filterMap_cons, List.filter_cons]
                cases x.latestId <;> simp [ih]
            have := h1.2.1
            rw [← e] at this
            generalize List.filterMap BulkOp.latestId _ = l at this
            cases l with
            | nil => simp
            | cons x l =>
              cases l with
              | nil => simp
              | cons y l => simp at this
          · intro a ha b hb e
            subst e
            obtain ⟨op, hop, hid⟩ := List.mem_filterMap.1 ha
            obtain ⟨op', hop', hid'⟩ := List.mem_filterMap.1 hb
            have e1 := (h1.1 op hop).2 (by rw [hid]; simp)
            obtain ⟨r', hr', e2⟩ := (h2.1 op' hop').2 (by rw [hid']; simp)
            rw [hid] at e1
            rw [hid'] at e2
            rw [e1] at e2
            exact hn.1 (by rw [Option.some.inj e2]; exact List.mem_map_of_mem hr')

theorem consistent_of_nodup : ∀ {ops : List (BulkOp P)}, (ops.filterMap BulkOp.latestId).Nodup → Consistent ops
  | [], _ => by intro a ha; cases ha
  | op :: ops, h => by
    have hn : (ops.filterMap BulkOp.latestId).Nodup := by
      rw [List.filterMap_cons] at h
      split at h
      · exact h
      · exact (List.nodup_cons.1 h).2
    have hop : ∀ b ∈ ops, op.latestId = b.latestId → op.latestId ≠ none → False := by
      intro b hb e hne
      obtain ⟨id, hid⟩ := Option.ne_none_iff_exists'.1 hne
      rw [List.filterMap_cons, hid] at h
      exact (List.nodup_cons.1 h).1 (List.mem_filterMap.2 ⟨b, hb, by rw [← e, hid]⟩)
    intro a ha b hb e hne
    rcases List.mem_cons.1 ha with ha' | ha' <;> rcases List.mem_cons.1 hb with hb' | hb'
    · rw [ha', hb']
    · subst ha'; exact (hop b hb' e hne).elim
    · subst hb'; exact (hop a ha' e.symm (by rw [← e]; exact hne)).elim
    · exact consistent_of_nodup hn a ha' b hb' e hne

theorem syncOps_latest {X : Parser P} {maxDocs : Nat} {db : PyStr} {resync : Bool} {m : Mongo} {es es0 : ES P}
    {ops : List (BulkOp P)} (hn : ((m.data db).map MongoRecord.id).Nodup)
    (h : syncOps X maxDocs db resync m es = .ok (es0, ops)) :
    (∀ op ∈ ops, GenOp op) ∧ Consistent ops ∧ (LatestOk es → LatestOk es0) := by
  unfold syncOps at h
  split at h
  · cases h; exact ⟨by simp, (fun a ha => by cases ha), id⟩
  · split at h
    · cases h
    · cases h; exact ⟨by simp, (fun a ha => by cases ha), id⟩
    · rename_i sel lastSync hsc
      dsimp only at h
      split at h
      · cases h
      · rename_i ops' arc' hg
        cases h
        have := generateOps_latest (hn.sublist (List.filter_sublist.map _)) hg
        refine ⟨fun op hop => (this.1 op hop).1, consistent_of_nodup this.2, fun hok => ?_⟩
        split
        · exact hok.deleteArcs
        · exact hok

theorem syncOps_es0 {X : Parser P} {maxDocs : Nat} {db : PyStr} {m : Mongo} {es es0 : ES P}
    {ops : List (BulkOp P)} (h : syncOps X maxDocs db false m es = .ok (es0, ops)) : es0 = es := by
  unfold syncOps at h
  split at h
  · cases h; rfl
  · split at h
    · cases h
    · cases h; rfl
    · dsimp only at h
      split at h
      · cases h
      · cases h; rfl

end
end Splitgill
