import Verif.Proof.Arcs
/-!
# Lemmas: syncing everything again
-/

namespace Splitgill

section
variable {P : Type} {X : Parser P} {db : PyStr} {m : Mongo}

theorem latestAct_none : ∀ (D : List (Doc P)), latestAct none D ≠ .remove
  | [] => by simp [latestAct]
  | [d] => by cases hlt : d.lt <;> simp [latestAct, hlt, gtAfter]
  | _ :: d :: rest => by rw [latestAct]; exact latestAct_none (d :: rest)

/-- The effect of the operations for all records, on indices with no archives. -/
theorem generate_all (hm : DbOk db m) (X : Parser P) (maxDocs : Nat) {es : ES P} (hok : LatestOk es)
    (ha : es.archived = []) (arc : Nat × Nat) {es0 : ES P}
    (h0 : Holds es0 ((m.data db).filter (fun r => r.version.isSome)) (dbDocs X db m)) :
    ∃ ops arc', generateOps X maxDocs (committedOptionsOf db m) none arc
        ((m.data db).filter (fun r => r.version.isSome)) = .ok (ops, arc') ∧ LatestOk (es.applyOps ops) ∧
      (es.applyOps ops).archived.Perm es0.archived ∧
      ∀ id, (es.applyOps ops).latestOf id = (es0.latestOf id).or (es.latestOf id) := by
  have hmem : ∀ {r}, r ∈ (m.data db).filter (fun r => r.version.isSome) ↔ r ∈ m.data db ∧ r.version.isSome = true :=
    fun {r} => List.mem_filter
  have hnod : (((m.data db).filter (fun r => r.version.isSome)).map MongoRecord.id).Nodup :=
    (List.Sublist.map _ List.filter_sublist).nodup hm.nodup
  obtain ⟨ops, arc', h1, h2, h3, h4, h5⟩ := generateOps_effect X maxDocs (committedOptionsOf db m) none
    ((m.data db).filter (fun r => r.version.isSome)) arc es hok hnod (fun r hr => by
      obtain ⟨rvs, ha, hb, _⟩ := hm.build X (hmem.1 hr).1 (hmem.1 hr).2
      exact ⟨rvs, ha, hb⟩)
  have hd : ∀ r ∈ (m.data db).filter (fun r => r.version.isSome), docsOf X (committedOptionsOf db m) r = dbDocs X db m r := by
    intro r hr
    obtain ⟨rvs, ha, _, hc⟩ := hm.build X (hmem.1 hr).1 (hmem.1 hr).2
    simp [docsOf, ha, hc]
  refine ⟨ops, arc', h1, h2, ?_, ?_⟩
  · obtain ⟨ops', arc'', g1, g2⟩ := generate_first hm X maxDocs (es := []) latestOk_nil rfl arc
      (fun id h => absurd (latestOf_nil id) h)
    obtain ⟨ops3, arc3, k1, _, k3, _⟩ := generateOps_effect X maxDocs (committedOptionsOf db m) none
      ((m.data db).filter (fun r => r.version.isSome)) arc [] latestOk_nil hnod (fun r hr => by
        obtain ⟨rvs, ha, hb, _⟩ := hm.build X (hmem.1 hr).1 (hmem.1 hr).2
        exact ⟨rvs, ha, hb⟩)
    rw [k1] at g1
    cases g1
    refine h3.trans ?_
    rw [ha]
    exact k3.symm.trans (g2.archived.trans h0.archived.symm)
  · intro id
    by_cases hid : id ∈ ((m.data db).filter (fun r => r.version.isSome)).map MongoRecord.id
    · obtain ⟨r, hr, rfl⟩ := List.mem_map.1 hid
      rw [h4 r hr, hd r hr, h0.latest r hr]
      have hs := latest_step none (dbDocs X db m r) (hm.good X r.id) (by
        intro h; rw [trunc_none] at h; exact absurd rfl h)
      rw [trunc_none] at hs
      cases hact : latestAct none (dbDocs X db m r) with
      | put d =>
        rw [hact] at hs
        rw [← hs]; rfl
      | remove => exact absurd hact (latestAct_none _)
      | leave =>
        rw [hact] at hs
        rw [← hs]; rfl
    · rw [h5 id hid, h0.others id hid]; rfl

/-- `sync(resync=True)` when there is data. -/
theorem resync_effect (hm : DbOk db m) (X : Parser P) (maxDocs : Nat) (hd : hasData db m = true) {es : ES P}
    (hok : LatestOk es) {es0 : ES P} (h0 : Holds es0 ((m.data db).filter (fun r => r.version.isSome)) (dbDocs X db m)) :
    ∃ es', sync X maxDocs db true m es = .ok es' ∧ LatestOk es' ∧ es'.archived.Perm es0.archived ∧
      ∀ id, es'.latestOf id = (es0.latestOf id).or (es.latestOf id) := by
  obtain ⟨ops, arc', h1, h2, h3, h4⟩ := generate_all hm X maxDocs hok.deleteArcs (deleteArcs_archived es)
    es.deleteArcs.arcStatus h0
  refine ⟨es.deleteArcs.applyOps ops, ?_, h2, h3, fun id => by rw [h4 id, deleteArcs_latestOf]⟩
  unfold sync syncOps
  have : syncScope db true m es = .ok (some (fun r => r.version.isSome, none)) := rfl
  simp only [hd, Bool.not_true, Bool.false_eq_true, if_false, this, if_true, h1]

/-- `resync_arcs()` -/
theorem resyncArcs_effect (hm : DbOk db m) (X : Parser P) (maxDocs : Nat) (es : ES P) {es0 : ES P}
    (h0 : Holds es0 ((m.data db).filter (fun r => r.version.isSome)) (dbDocs X db m)) :
    ∃ es', resyncArcs X maxDocs db m es = .ok es' ∧ es'.docs .latest = es.docs .latest ∧
      es'.archived.Perm es0.archived := by
  obtain ⟨ops, arc', h1, h2, h3, h4⟩ := generate_all hm X maxDocs (es := []) latestOk_nil rfl
    es.deleteArcs.arcStatus h0
  refine ⟨es.deleteArcs.applyOps (ops.filter (fun op => decide (op.ix ≠ .latest))), ?_, ?_, ?_⟩
  · simp only [resyncArcs, h1]
  · rw [applyOps_arcs_latest _ _ (fun op hop => by simpa using (List.mem_filter.1 hop).2), deleteArcs_docs]
  · have e : ES.archived (es.deleteArcs.applyOps (ops.filter (fun op => decide (op.ix ≠ .latest)))) =
        ES.archived (ES.applyOps ([] : ES P) ops) := by
      rw [archived_onlyArcs, archived_onlyArcs (ES.applyOps _ ops), applyOps_onlyArcs, applyOps_onlyArcs,
        List.filter_filter]
      have : ES.onlyArcs es.deleteArcs = [] := by
        unfold ES.onlyArcs ES.deleteArcs
        rw [List.filter_filter, List.filter_eq_nil_iff]
        simp
      rw [this]
      simp [ES.onlyArcs]
    rw [e]; exact h3

/-! ## Archives in the indices -/

theorem arcs_of_docs {es : ES P} {k : Nat} (h : (es.docs (.arc k)) ≠ []) : k ∈ es.arcs := by
  rw [mem_arcs]
  by_contra hn
  apply h
  unfold ES.docs
  rw [aget_eq_none_iff.2 hn]; rfl

theorem arcs_docs {es : ES P} {k : Nat} (h : k ∉ es.arcs) : es.docs (.arc k) = [] := by
  by_contra hn; exact h (arcs_of_docs hn)

theorem ArcsFilled.applyOps {maxDocs : Nat} (h1 : 1 ≤ maxDocs) {es : ES P} (h : ArcsFilled maxDocs es)
    {ops : List (BulkOp P)} (hp : Plain ops) {arc' : Nat × Nat} (hf : Filled maxDocs es.arcStatus (arcsUsed ops) arc') :
    ArcsFilled maxDocs (es.applyOps ops) := by
  -- the length of an archive before, in terms of the status
  have hst : ∀ k, es.arcStatus.1 ≤ k → (es.docs (.arc k)).length = if k = es.arcStatus.1 then es.arcStatus.2 else 0 := by
    intro k hk
    unfold ES.arcStatus at hk ⊢
    cases hmx : es.arcs.max? with
    | none =>
      rw [List.max?_eq_none_iff] at hmx
      rw [arcs_docs (k := k) (by rw [hmx]; simp)]
      simp
    | some n =>
      rw [hmx] at hk
      obtain ⟨h2, h3⟩ := List.max?_eq_some_iff.1 hmx
      simp only at hk ⊢
      by_cases he : k = n
      · rw [if_pos he, he]
      · rw [if_neg he, arcs_docs (k := k) (fun hm => he (Nat.le_antisymm (h3 k hm) hk))]; rfl
  have hlow : ∀ j, j < es.arcStatus.1 → j ∈ es.arcs ∧ (es.docs (.arc j)).length = maxDocs := by
    intro j hj
    unfold ES.arcStatus at hj
    cases hmx : es.arcs.max? with
    | none => rw [hmx] at hj; simp at hj
    | some n =>
      rw [hmx] at hj
      exact h.full n (List.max?_eq_some_iff.1 hmx).1 j hj
  have hcnt0 : ∀ j, j < es.arcStatus.1 → (arcsUsed ops).count j = 0 := by
    intro j hj
    rw [List.count_eq_zero]
    intro hm
    have := (hf.range j hm).1; omega
  have hmax : ∀ k ∈ es.arcs, k ≤ es.arcStatus.1 := by
    intro k hk
    unfold ES.arcStatus
    cases hmx : es.arcs.max? with
    | none => rw [List.max?_eq_none_iff] at hmx; rw [hmx] at hk; cases hk
    | some n => exact (List.max?_eq_some_iff.1 hmx).2 k hk
  constructor
  · intro k hk
    rw [applyOps_length ops es hp]
    rw [applyOps_arcs ops es hp] at hk
    constructor
    · rcases hk with hk | hk
      · have := (h.bound k hk).1; omega
      · have := List.count_pos_iff.2 hk; omega
    · by_cases hkl : k < es.arcStatus.1
      · rw [(hlow k hkl).2, hcnt0 k hkl]; omega
      · rw [hst k (by omega)]
        exact hf.max k
  · intro k hk j hj
    rw [applyOps_arcs ops es hp] at hk ⊢
    rw [applyOps_length ops es hp]
    by_cases hjl : j < es.arcStatus.1
    · exact ⟨.inl (hlow j hjl).1, by rw [(hlow j hjl).2, hcnt0 j hjl]; omega⟩
    · have hkle : k ≤ arc'.1 := by
        rcases hk with hk | hk
        · exact Nat.le_trans (hmax k hk) hf.le
        · exact (hf.range k hk).2
      have hfull := hf.full j (by omega) (by omega)
      rw [← hst j (by omega)] at hfull
      refine ⟨?_, hfull⟩
      by_cases hc : (arcsUsed ops).count j = 0
      · left
        apply arcs_of_docs
        intro he
        rw [he] at hfull; simp at hfull; omega
      · right
        exact List.count_pos_iff.1 (by omega)

theorem ArcsFilled.deleteArcs {maxDocs : Nat} (es : ES P) : ArcsFilled maxDocs es.deleteArcs := by
  have : es.deleteArcs.arcs = [] := by
    unfold ES.arcs ES.deleteArcs
    rw [List.filterMap_eq_nil_iff]
    rintro ⟨ix, docs⟩ hx
    have := (List.mem_filter.1 hx).2
    simp only [decide_eq_true_eq] at this
    subst this; rfl
  constructor <;> rw [this] <;> simp

theorem ArcsFilled.status {maxDocs : Nat} {es : ES P} (h : ArcsFilled maxDocs es) : es.arcStatus.2 ≤ maxDocs := by
  unfold ES.arcStatus
  cases hmx : es.arcs.max? with
  | none => simp
  | some n => exact (h.bound n (List.max?_eq_some_iff.1 hmx).1).2

theorem ArcsFilled.sync {maxDocs : Nat} (h1 : 1 ≤ maxDocs) {resync : Bool} {es es' : ES P} (h : ArcsFilled maxDocs es)
    (hs : sync X maxDocs db resync m es = .ok es') : ArcsFilled maxDocs es' := by
  unfold Splitgill.sync syncOps at hs
  by_cases hd : (!hasData db m) = true
  · rw [if_pos hd] at hs
    cases hs; exact h
  · rw [if_neg hd] at hs
    cases hsc : syncScope db resync m es with
    | error e => rw [hsc] at hs; cases hs
    | ok x =>
      rw [hsc] at hs
      cases x with
      | none => cases hs; exact h
      | some x =>
        obtain ⟨sel, last⟩ := x
        have h' : ArcsFilled maxDocs (if resync then es.deleteArcs else es) := by
          cases resync
          · exact h
          · exact ArcsFilled.deleteArcs es
        simp only at hs
        generalize hgen : generateOps X maxDocs (committedOptionsOf db m) last
          (ES.arcStatus (if resync = true then es.deleteArcs else es)) ((m.data db).filter sel) = g at hs
        cases g with
        | error e => cases hs
        | ok r =>
          obtain ⟨ops, arc'⟩ := r
          cases hs
          exact h'.applyOps h1 (generateOps_plain hgen) (generateOps_filled h1 h'.status hgen)

theorem ArcsFilled.resyncArcs {maxDocs : Nat} (h1 : 1 ≤ maxDocs) {es es' : ES P}
    (hs : resyncArcs X maxDocs db m es = .ok es') : ArcsFilled maxDocs es' := by
  unfold Splitgill.resyncArcs at hs
  simp only at hs
  generalize hgen : generateOps X maxDocs (committedOptionsOf db m) none es.deleteArcs.arcStatus
    ((m.data db).filter (fun r => r.version.isSome)) = g at hs
  cases g with
  | error e => cases hs
  | ok r =>
    obtain ⟨ops, arc'⟩ := r
    cases hs
    have h' := ArcsFilled.deleteArcs (maxDocs := maxDocs) es
    refine h'.applyOps h1 ?_ (arc' := arc') ?_
    · exact fun op hop => generateOps_plain hgen op (List.mem_filter.1 hop).1
    · rw [arcsUsed_filter]; exact generateOps_filled h1 h'.status hgen

end
end Splitgill
