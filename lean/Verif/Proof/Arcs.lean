import Verif.Proof.Sync5
/-!
# Lemmas: how the archives are filled
-/

namespace Splitgill

section
variable {P : Type}

/-- The archives that operations write to, in order. -/
def arcsUsed (ops : List (BulkOp P)) : List Nat :=
  ops.filterMap (fun op => match op with | .index (.arc n) _ _ => some n | _ => none)

/-- Archives used one after another, from status `arc` to status `arc'`. -/
structure Filled (maxDocs : Nat) (arc : Nat × Nat) (used : List Nat) (arc' : Nat × Nat) : Prop where
  le : arc.1 ≤ arc'.1
  bound : arc'.2 ≤ maxDocs
  range : ∀ k ∈ used, arc.1 ≤ k ∧ k ≤ arc'.1
  ordered : used.Pairwise (· ≤ ·)
  max : ∀ k, (if k = arc.1 then arc.2 else 0) + used.count k ≤ maxDocs
  full : ∀ k, arc.1 ≤ k → k < arc'.1 → (if k = arc.1 then arc.2 else 0) + used.count k = maxDocs
  last : (if arc'.1 = arc.1 then arc.2 else 0) + used.count arc'.1 = arc'.2
  used : (used = [] ∧ arc' = arc) ∨ used.getLast? = some arc'.1

theorem Filled.nil {maxDocs : Nat} {arc : Nat × Nat} (h : arc.2 ≤ maxDocs) : Filled maxDocs arc [] arc := by
  refine ⟨Nat.le_refl _, h, by simp, .nil, fun k => ?_, fun k h1 h2 => by omega, by simp, .inl ⟨rfl, rfl⟩⟩
  split <;> simp_all

theorem Filled.cons {maxDocs : Nat} (h1 : 1 ≤ maxDocs) {arc : Nat × Nat} (h : arc.2 ≤ maxDocs) {used : List Nat}
    {arc' : Nat × Nat} (hf : Filled maxDocs (nextArc maxDocs arc) used arc') :
    Filled maxDocs arc ((nextArc maxDocs arc).1 :: used) arc' := by
  obtain ⟨n, c⟩ := arc
  have hcount : ∀ k, ((nextArc maxDocs (n, c)).1 :: used).count k =
      used.count k + if k = (nextArc maxDocs (n, c)).1 then 1 else 0 := by
    intro k
    rw [List.count_cons]
    congr 1
    by_cases hk : k = (nextArc maxDocs (n, c)).1
    · simp [hk]
    · have : ¬ (nextArc maxDocs (n, c)).1 = k := fun e => hk e.symm
      simp [hk, this]
  have hcases : (maxDocs = c ∧ nextArc maxDocs (n, c) = (n + 1, 1)) ∨ (c < maxDocs ∧ nextArc maxDocs (n, c) = (n, c + 1)) := by
    by_cases hc : maxDocs ≤ c
    · exact .inl ⟨by simp only at h; omega, by simp [nextArc, hc]⟩
    · exact .inr ⟨by omega, by simp [nextArc, hc]⟩
  have hle := hf.le
  have hrange := hf.range
  have hord := hf.ordered
  have hmax := hf.max
  have hfull := hf.full
  have hlast := hf.last
  have hused := hf.used
  refine ⟨?_, hf.bound, ?_, ?_, ?_, ?_, ?_, ?_⟩
  · rcases hcases with ⟨h2, h3⟩ | ⟨h2, h3⟩ <;> rw [h3] at hle <;> simp only at hle ⊢ <;> omega
  · intro k hk
    rcases List.mem_cons.1 hk with rfl | hk
    · rcases hcases with ⟨h2, h3⟩ | ⟨h2, h3⟩ <;> rw [h3] at hle ⊢ <;> simp only at hle ⊢ <;> omega
    · have := hrange k hk
      rcases hcases with ⟨h2, h3⟩ | ⟨h2, h3⟩ <;> rw [h3] at this <;> simp only at this ⊢ <;> omega
  · exact List.pairwise_cons.2 ⟨fun k hk => (hrange k hk).1, hord⟩
  · intro k
    rw [hcount]
    have hm := hmax k
    rcases hcases with ⟨h2, h3⟩ | ⟨h2, h3⟩
    · rw [h3] at hm ⊢
      simp only at hm ⊢
      by_cases hk : k = n
      · subst hk
        have : used.count k = 0 := by
          rw [List.count_eq_zero]
          intro hmem
          have := (hrange k hmem).1
          rw [h3] at this; simp only at this; omega
        simp [this, h2]
      · rw [if_neg hk]; omega
    · rw [h3] at hm ⊢
      simp only at hm ⊢
      by_cases hk : k = n
      · simp only [hk, if_true] at hm ⊢; omega
      · simp only [hk, if_false] at hm ⊢; omega
  · intro k hk1 hk2
    rw [hcount]
    rcases hcases with ⟨h2, h3⟩ | ⟨h2, h3⟩
    · rw [h3] at hfull ⊢
      simp only at hfull hk1 ⊢
      by_cases hk : k = n
      · subst hk
        have : used.count k = 0 := by
          rw [List.count_eq_zero]
          intro hmem
          have := (hrange k hmem).1
          rw [h3] at this; simp only at this; omega
        simp [this, h2]
      · have := hfull k (by omega) hk2
        rw [if_neg hk]; omega
    · rw [h3] at hfull ⊢
      simp only at hfull hk1 ⊢
      have := hfull k (by omega) hk2
      by_cases hk : k = n
      · simp only [hk, if_true] at this ⊢; omega
      · simp only [hk, if_false] at this ⊢; omega
  · rw [hcount]
    rcases hcases with ⟨h2, h3⟩ | ⟨h2, h3⟩
    · rw [h3] at hlast hle ⊢
      simp only at hlast hle ⊢
      rw [if_neg (by omega)]
      omega
    · rw [h3] at hlast ⊢
      simp only at hlast ⊢
      by_cases hk : arc'.1 = n
      · simp only [hk, if_true] at hlast ⊢; omega
      · simp only [hk, if_false] at hlast ⊢; omega
  · refine .inr ?_
    rcases hused with ⟨rfl, he⟩ | hu
    · simp [he]
    · rw [List.getLast?_cons, hu]; rfl

theorem Filled.append {maxDocs : Nat} {arc arc1 arc2 : Nat × Nat} {u1 u2 : List Nat}
    (h1 : Filled maxDocs arc u1 arc1) (h2 : Filled maxDocs arc1 u2 arc2) : Filled maxDocs arc (u1 ++ u2) arc2 := by
  have hz1 : ∀ k, arc1.1 < k → u1.count k = 0 := by
    intro k hk
    rw [List.count_eq_zero]
    intro hm
    have := (h1.range k hm).2
    omega
  have hz2 : ∀ k, k < arc1.1 → u2.count k = 0 := by
    intro k hk
    rw [List.count_eq_zero]
    intro hm
    have := (h2.range k hm).1
    omega
  have hle1 := h1.le
  have hle2 := h2.le
  have key : ∀ k, (if k = arc.1 then arc.2 else 0) + (u1 ++ u2).count k =
      if k < arc1.1 then (if k = arc.1 then arc.2 else 0) + u1.count k
      else (if k = arc1.1 then arc1.2 else 0) + u2.count k := by
    intro k
    rw [List.count_append]
    by_cases hk : k < arc1.1
    · rw [if_pos hk, hz2 k hk]; omega
    · rw [if_neg hk]
      by_cases hk2 : k = arc1.1
      · subst hk2
        have := h1.last
        rw [if_pos rfl, ← this]; omega
      · rw [if_neg hk2, hz1 k (by omega), if_neg (by omega)]; omega
  refine ⟨by omega, h2.bound, ?_, ?_, ?_, ?_, ?_, ?_⟩
  · intro k hk
    rcases List.mem_append.1 hk with hk | hk
    · have := h1.range k hk; omega
    · have := h2.range k hk; omega
  · rw [List.pairwise_append]
    refine ⟨h1.ordered, h2.ordered, fun a ha b hb => ?_⟩
    have := (h1.range a ha).2
    have := (h2.range b hb).1
    omega
  · intro k
    rw [key]
    split
    · exact h1.max k
    · exact h2.max k
  · intro k hk1 hk2
    rw [key]
    split
    · rename_i hk; exact h1.full k hk1 hk
    · rename_i hk; exact h2.full k (by omega) hk2
  · rw [key, if_neg (by omega)]
    exact h2.last
  · rcases h2.used with ⟨rfl, rfl⟩ | hu
    · rw [List.append_nil]; exact h1.used
    · refine .inr ?_
      rw [List.getLast?_append, hu]; rfl

theorem arcsUsed_append (a b : List (BulkOp P)) : arcsUsed (a ++ b) = arcsUsed a ++ arcsUsed b := List.filterMap_append

theorem rvOps_filled {maxDocs : Nat} (h1 : 1 ≤ maxDocs) (after : Option Int) (id : PyStr) :
    ∀ (rvs : List (RecordVersion P)) (arc : Nat × Nat), arc.2 ≤ maxDocs →
      Filled maxDocs arc (arcsUsed (rvOps maxDocs after id arc rvs).1) (rvOps maxDocs after id arc rvs).2
  | [], arc, h => .nil h
  | rv :: rest, arc, h => by
    have harc : (nextArc maxDocs arc).2 ≤ maxDocs := by
      unfold nextArc; split <;> simp only <;> omega
    have ih := rvOps_filled h1 after id rest arc h
    have ih' := rvOps_filled h1 after id rest (nextArc maxDocs arc) harc
    have hc := ih'.cons h1 h
    have hdel : arcsUsed ([BulkOp.delete Ix.latest id] : List (BulkOp P)) = [] := rfl
    have hcons : ∀ (d : Doc P) ops, arcsUsed (.index (.arc (nextArc maxDocs arc).1) none d :: ops) =
        (nextArc maxDocs arc).1 :: arcsUsed ops := fun _ _ => rfl
    have hlat : ∀ (d : Doc P) ops, arcsUsed (.index .latest (some id) d :: ops) = arcsUsed ops := fun _ _ => rfl
    simp only [rvOps]
    split
    · simp only [hlat]; exact ih
    · split
      · simp only [List.nil_append, hcons]; exact hc
      · split
        · split
          · split
            · simp only [arcsUsed_append, hdel, List.nil_append, hcons]; exact hc
            · simp only [List.nil_append, hcons]; exact hc
          · exact ih
        · exact ih

theorem generateOps_filled {X : Parser P} {maxDocs : Nat} (h1 : 1 ≤ maxDocs) {opts : List (Int × ParsingOptions)}
    {after : Option Int} : ∀ {rs : List MongoRecord} {arc : Nat × Nat} {ops arc'}, arc.2 ≤ maxDocs →
      generateOps X maxDocs opts after arc rs = .ok (ops, arc') → Filled maxDocs arc (arcsUsed ops) arc'
  | [], arc, ops, arc', h, hg => by cases hg; exact .nil h
  | r :: rs, arc, ops, arc', h, hg => by
    simp only [generateOps] at hg
    split at hg
    · cases hg
    · cases hg
    · rename_i rvs hne hb
      have hr := rvOps_filled (P := P) h1 after r.id rvs arc h
      split at hg
      · cases hg
      · rename_i ops2 arc2 hg2
        cases hg
        rw [arcsUsed_append]
        exact hr.append (generateOps_filled h1 hr.bound hg2)

/-! ## The indices -/

/-- Operations as they are generated. -/
def Plain (ops : List (BulkOp P)) : Prop := ∀ op ∈ ops, match op with
  | .index (.arc _) docId _ => docId = none
  | .index .latest _ _ => True
  | .delete ix _ => ix = .latest

theorem rvOps_plain {maxDocs : Nat} (after : Option Int) (id : PyStr) :
    ∀ (rvs : List (RecordVersion P)) (arc : Nat × Nat), Plain (rvOps maxDocs after id arc rvs).1
  | [], arc => by intro op h; cases h
  | rv :: rest, arc => by
    have ih := rvOps_plain (maxDocs := maxDocs) after id rest arc
    have ih' := rvOps_plain (maxDocs := maxDocs) after id rest (nextArc maxDocs arc)
    have hc : ∀ (d : Doc P), Plain (.index (.arc (nextArc maxDocs arc).1) none d ::
        (rvOps maxDocs after id (nextArc maxDocs arc) rest).1) := by
      intro d op hop
      rcases List.mem_cons.1 hop with rfl | hop
      · rfl
      · exact ih' op hop
    simp only [rvOps]
    split
    · intro op hop
      rcases List.mem_cons.1 hop with rfl | hop
      · trivial
      · exact ih op hop
    · split
      · exact hc _
      · split
        · split
          · split
            · intro op hop
              rcases List.mem_append.1 hop with hop | hop
              · rw [List.mem_singleton] at hop; subst hop; rfl
              · exact hc _ op hop
            · exact hc _
          · exact ih
        · exact ih

theorem generateOps_plain {X : Parser P} {maxDocs : Nat} {opts : List (Int × ParsingOptions)}
    {after : Option Int} : ∀ {rs : List MongoRecord} {arc : Nat × Nat} {ops arc'},
      generateOps X maxDocs opts after arc rs = .ok (ops, arc') → Plain ops
  | [], arc, ops, arc', hg => by cases hg; intro op h; cases h
  | r :: rs, arc, ops, arc', hg => by
    simp only [generateOps] at hg
    split at hg
    · cases hg
    · cases hg
    · rename_i rvs hne hb
      split at hg
      · cases hg
      · rename_i ops2 arc2 hg2
        cases hg
        intro op hop
        rcases List.mem_append.1 hop with hop | hop
        · exact rvOps_plain after r.id rvs arc op hop
        · exact generateOps_plain hg2 op hop

theorem arcsUsed_filter (ops : List (BulkOp P)) :
    arcsUsed (ops.filter (fun op => decide (op.ix ≠ .latest))) = arcsUsed ops := by
  induction ops with
  | nil => rfl
  | cons op ops ih =>
    cases op with
    | index ix docId d =>
      cases ix with
      | latest => simpa [arcsUsed, BulkOp.ix] using ih
      | arc n =>
        rw [List.filter_cons_of_pos (by simp [BulkOp.ix])]
        show n :: arcsUsed _ = n :: arcsUsed _
        rw [ih]
    | delete ix docId =>
      cases ix with
      | latest => simpa [arcsUsed, BulkOp.ix] using ih
      | arc n =>
        rw [List.filter_cons_of_pos (by simp [BulkOp.ix])]
        exact ih

theorem applyOps_length : ∀ (ops : List (BulkOp P)) (es : ES P), Plain ops → ∀ k,
    (ES.docs (es.applyOps ops) (.arc k)).length = (es.docs (.arc k)).length + (arcsUsed ops).count k
  | [], es, _, k => by simp [ES.applyOps, arcsUsed]
  | op :: ops, es, h, k => by
    rw [applyOps_cons, applyOps_length ops _ (fun o ho => h o (List.mem_cons_of_mem _ ho)) k]
    have h0 := h op List.mem_cons_self
    cases op with
    | index ix docId d =>
      cases ix with
      | latest => simp [BulkOp.apply, docs_aset, arcsUsed]
      | arc n =>
        have h0 : docId = none := h0
        subst h0
        have : arcsUsed (.index (.arc n) none d :: ops) = n :: arcsUsed ops := rfl
        rw [this, List.count_cons]
        simp only [BulkOp.apply, docs_aset, Ix.arc.injEq, indexDoc]
        by_cases hk : k = n
        · subst hk; simp; omega
        · have : ¬ n = k := fun e => hk e.symm
          simp [hk, this]
    | delete ix docId =>
      have h0 : ix = .latest := h0
      subst h0
      simp [BulkOp.apply, docs_aset, arcsUsed]

theorem mem_arcs {es : ES P} {n : Nat} : n ∈ es.arcs ↔ Ix.arc n ∈ akeys es := by
  unfold ES.arcs akeys
  rw [List.mem_filterMap, List.mem_map]
  constructor
  · rintro ⟨⟨ix, docs⟩, h1, h2⟩
    cases ix with
    | latest => cases h2
    | arc k => cases h2; exact ⟨_, h1, rfl⟩
  · rintro ⟨⟨ix, docs⟩, h1, h2⟩
    cases h2
    exact ⟨_, h1, rfl⟩

theorem applyOps_arcs : ∀ (ops : List (BulkOp P)) (es : ES P), Plain ops → ∀ k,
    k ∈ (es.applyOps ops).arcs ↔ k ∈ es.arcs ∨ k ∈ arcsUsed ops
  | [], es, _, k => by simp [ES.applyOps, arcsUsed]
  | op :: ops, es, h, k => by
    rw [applyOps_cons, applyOps_arcs ops _ (fun o ho => h o (List.mem_cons_of_mem _ ho)) k]
    have h0 := h op List.mem_cons_self
    rw [mem_arcs, mem_arcs]
    cases op with
    | index ix docId d =>
      cases ix with
      | latest => simp [BulkOp.apply, mem_akeys_aset, arcsUsed]
      | arc n =>
        have : arcsUsed (.index (.arc n) docId d :: ops) = n :: arcsUsed ops := rfl
        rw [this, List.mem_cons]
        simp only [BulkOp.apply, mem_akeys_aset, Ix.arc.injEq]
        tauto
    | delete ix docId =>
      have h0 : ix = .latest := h0
      subst h0
      simp [BulkOp.apply, mem_akeys_aset, arcsUsed]

end
end Splitgill
