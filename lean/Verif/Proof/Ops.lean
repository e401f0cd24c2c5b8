import Verif.Proof.Index2
/-!
# Lemmas about the operations and their effect on the indices
-/

namespace Splitgill

section
variable {P : Type}

/-! ## What the operations of a record are -/

/-- The documents of a record that go to the archive. -/
def toArchive (after : Option Int) : List (Doc P) → List (Doc P)
  | [] => []
  | d :: rest =>
    if gtAfter after d.gte && rest.isEmpty && d.lt.isNone then toArchive after rest
    else if gtAfter after d.gte || (match d.lt with | some e => gtAfter after e | none => false) then
      d :: toArchive after rest
    else toArchive after rest

/-- What happens to the latest index. -/
inductive LatestAct (P : Type)
  | put (d : Doc P)
  | remove
  | leave

def latestAct (after : Option Int) : List (Doc P) → LatestAct P
  | [] => .leave
  | [d] =>
    match d.lt with
    | none => if gtAfter after d.gte then .put d else .leave
    | some e => if !gtAfter after d.gte && gtAfter after e then .remove else .leave
  | _ :: d :: rest => latestAct after (d :: rest)

/-! ## The indices -/

/-- The document of a record in the latest index. -/
def ES.latestOf (es : ES P) (id : PyStr) : Option (Doc P) := aget (some id) (es.docs .latest)

theorem docs_aset (es : ES P) (ix ix' : Ix) (docs : Index P) :
    ES.docs (aset ix docs es) ix' = if ix' = ix then docs else es.docs ix' := by
  unfold ES.docs
  rw [aget_aset]
  split <;> simp

theorem archived_aset (n : Nat) (d : Option PyStr × Doc P) : ∀ es : ES P,
    (ES.archived (aset (.arc n) (es.docs (.arc n) ++ [d]) es)).Perm (es.archived ++ [d.2])
  | [] => by simp [ES.docs, aset, ES.archived]
  | (ix, docs) :: es => by
    by_cases h : Ix.arc n = ix
    · subst h
      simp only [ES.docs, aset, aget_cons, if_true, Option.getD_some, ES.archived, List.flatMap_cons, List.map_append,
        List.map_cons, List.map_nil, List.append_assoc]
      exact (List.Perm.append_left _ List.perm_append_comm)
    · have hd : ES.docs ((ix, docs) :: es) (.arc n) = ES.docs es (.arc n) := by
        simp [ES.docs, aget_cons, h]
      rw [hd, aset, if_neg h]
      have := archived_aset n d es
      simp only [ES.archived, List.flatMap_cons, List.append_assoc] at this ⊢
      exact List.Perm.append_left _ this

theorem archived_aset_latest (docs : Index P) : ∀ es : ES P, ES.archived (aset .latest docs es) = es.archived
  | [] => by simp [aset, ES.archived]
  | (ix, docs') :: es => by
    rw [aset]
    split
    · rename_i h; subst h; simp [ES.archived]
    · have := archived_aset_latest docs es
      simp only [ES.archived, List.flatMap_cons] at this ⊢
      rw [this]

theorem LatestOk.apply_put {es : ES P} (h : LatestOk es) (id : PyStr) (d : Doc P) :
    LatestOk (BulkOp.apply es (.index .latest (some id) d)) := by
  constructor
  · exact nodup_aset h.indices
  · simp only [BulkOp.apply, docs_aset, if_true, indexDoc]
    exact nodup_aset h.nodup
  · simp only [BulkOp.apply, docs_aset, if_true, indexDoc, mem_akeys_aset]
    have := h.hasId
    simp_all

theorem LatestOk.apply_delete {es : ES P} (h : LatestOk es) (id : PyStr) :
    LatestOk (BulkOp.apply es (.delete .latest id)) := by
  constructor
  · exact nodup_aset h.indices
  · simp only [BulkOp.apply, docs_aset, if_true]
    exact nodup_aerase h.nodup
  · simp only [BulkOp.apply, docs_aset, if_true, mem_akeys_aerase h.nodup]
    have := h.hasId
    simp_all

theorem LatestOk.apply_arc {es : ES P} (h : LatestOk es) (n : Nat) (d : Doc P) :
    LatestOk (BulkOp.apply es (.index (.arc n) none d)) := by
  have : ES.docs (BulkOp.apply es (.index (.arc n) none d)) .latest = es.docs .latest := by
    simp [BulkOp.apply, docs_aset]
  exact ⟨nodup_aset h.indices, by rw [this]; exact h.nodup, by rw [this]; exact h.hasId⟩

theorem latestOf_put (es : ES P) (id id' : PyStr) (d : Doc P) :
    (BulkOp.apply es (.index .latest (some id) d)).latestOf id' = if id' = id then some d else es.latestOf id' := by
  simp only [ES.latestOf, BulkOp.apply, docs_aset, if_true, indexDoc, aget_aset, Option.some.injEq]

theorem latestOf_delete {es : ES P} (h : LatestOk es) (id id' : PyStr) :
    (BulkOp.apply es (.delete .latest id)).latestOf id' = if id' = id then none else es.latestOf id' := by
  simp only [ES.latestOf, BulkOp.apply, docs_aset, if_true, aget_aerase _ _ h.nodup, Option.some.injEq]

theorem latestOf_arc (es : ES P) (n : Nat) (id' : PyStr) (d : Doc P) :
    (BulkOp.apply es (.index (.arc n) none d)).latestOf id' = es.latestOf id' := by
  simp [ES.latestOf, BulkOp.apply, docs_aset]

theorem applyOps_append (es : ES P) (a b : List (BulkOp P)) : es.applyOps (a ++ b) = (es.applyOps a).applyOps b :=
  List.foldl_append ..

theorem applyOps_cons (es : ES P) (o : BulkOp P) (b : List (BulkOp P)) :
    es.applyOps (o :: b) = (o.apply es).applyOps b := rfl

/-- The effect of a list of operations of a record. -/
structure Effect (es es' : ES P) (id : PyStr) (act : LatestAct P) (arch : List (Doc P)) : Prop where
  ok : LatestOk es'
  archived : es'.archived.Perm (es.archived ++ arch)
  other : ∀ id', id' ≠ id → es'.latestOf id' = es.latestOf id'
  this : es'.latestOf id = match act with | .put d => some d | .remove => none | .leave => es.latestOf id

theorem Effect.arc {es es' : ES P} {id : PyStr} {act : LatestAct P} {arch : List (Doc P)} {n : Nat} {d : Doc P}
    (h : Effect (BulkOp.apply es (.index (.arc n) none d)) es' id act arch) : Effect es es' id act (d :: arch) := by
  refine ⟨h.ok, ?_, fun id' hn => by rw [h.other id' hn, latestOf_arc], by rw [h.this, latestOf_arc]⟩
  refine h.archived.trans ?_
  have := archived_aset n (none, d) es
  refine (List.Perm.append_right arch this).trans ?_
  simp

/-- The inner loop in terms of documents. -/
theorem rvOps_effect (maxDocs : Nat) (after : Option Int) (id : PyStr) : ∀ (rvs : List (RecordVersion P)) (arc : Nat × Nat)
    (es : ES P), LatestOk es →
    Effect es (es.applyOps (rvOps maxDocs after id arc rvs).1) id (latestAct after (createDocs rvs))
      (toArchive after (createDocs rvs))
  | [], arc, es, h => ⟨h, by simp [rvOps, ES.applyOps, toArchive, createDocs], fun _ _ => rfl, rfl⟩
  | [rv], arc, es, h => by
    have hlt : (rv.createDoc none).lt = rv.deletedAt := by
      cases hd : rv.deletedAt <;> simp [RecordVersion.createDoc, RecordVersion.versionEnd, hd]
    have hgte : (rv.createDoc none).gte = rv.version := rfl
    have hve : rv.versionEnd none = rv.deletedAt := by
      cases hd : rv.deletedAt <;> simp [RecordVersion.versionEnd, hd]
    simp only [rvOps, createDocs, List.head?_nil, latestAct, toArchive, hlt, hgte, hve, Option.isNone_none, List.isEmpty_nil,
      Bool.and_true]
    cases hd : rv.deletedAt with
    | none =>
      by_cases hg : gtAfter after rv.version = true
      · simp only [hg, Option.isNone_none, Bool.and_true, if_true]
        refine ⟨h.apply_put id _, ?_, fun id' hn => ?_, ?_⟩
        · simp only [ES.applyOps, List.foldl_cons, List.foldl_nil, BulkOp.apply]
          rw [archived_aset_latest]; simp
        · simp only [ES.applyOps, List.foldl_cons, List.foldl_nil, latestOf_put, if_neg hn]
        · simp only [ES.applyOps, List.foldl_cons, List.foldl_nil, latestOf_put, if_true]
      · simp only [hg, Option.isNone_none, Bool.and_true, Bool.false_or, if_false]
        exact ⟨h, by simp [ES.applyOps], fun _ _ => rfl, rfl⟩
    | some e =>
      by_cases hg : gtAfter after rv.version = true
      · simp only [hg, Option.isNone_some, Bool.and_false, Bool.false_eq_true, if_false, if_true, Bool.true_or, Bool.not_true,
          Bool.false_and, List.nil_append]
        apply Effect.arc (n := (nextArc maxDocs arc).1)
        exact ⟨h.apply_arc _ _, by simp [ES.applyOps], fun _ _ => rfl, rfl⟩
      · by_cases hg' : gtAfter after e = true
        · simp only [hg, hg', Option.isNone_some, Bool.and_false, Bool.false_eq_true, if_false, if_true, Bool.false_or,
            Bool.not_false, Bool.true_and, List.singleton_append, List.cons_append, List.nil_append, applyOps_cons]
          have h2 : Effect (BulkOp.apply es (.delete .latest id))
              ((BulkOp.apply (BulkOp.apply es (.delete .latest id))
                (.index (.arc (nextArc maxDocs arc).1) none (rv.createDoc none))).applyOps []) id .leave
              [rv.createDoc none] := by
            apply Effect.arc (n := (nextArc maxDocs arc).1)
            exact ⟨(h.apply_delete id).apply_arc _ _, by simp [ES.applyOps], fun _ _ => rfl, rfl⟩
          refine ⟨h2.ok, ?_, fun id' hn => ?_, ?_⟩
          · refine h2.archived.trans ?_
            simp only [BulkOp.apply]
            rw [archived_aset_latest]
          · rw [h2.other id' hn, latestOf_delete h, if_neg hn]
          · rw [h2.this]
            simp only [latestOf_delete h, if_true]
        · simp only [hg, hg', Option.isNone_some, Bool.and_false, Bool.false_eq_true, if_false, Bool.false_or]
          exact ⟨h, by simp [ES.applyOps], fun _ _ => rfl, rfl⟩
  | rv :: rv' :: rest, arc, es, h => by
    have ih := rvOps_effect maxDocs after id (rv' :: rest)
    have hlt : (rv.createDoc (some rv')).lt = rv.versionEnd (some rv') := rfl
    have hgte : (rv.createDoc (some rv')).gte = rv.version := rfl
    have hla : latestAct after (createDocs (rv :: rv' :: rest)) = latestAct after (createDocs (rv' :: rest)) := rfl
    rw [hla]
    have hcd : createDocs (rv :: rv' :: rest) = rv.createDoc (some rv') :: createDocs (rv' :: rest) := rfl
    rw [hcd]
    rw [rvOps]
    simp only [List.head?_cons, Option.isNone_some, Bool.and_false, Bool.false_and, Bool.false_eq_true, if_false]
    conv => rhs; rw [toArchive]
    have hne : (createDocs (rv' :: rest)).isEmpty = false := rfl
    simp only [hne, Bool.and_false, Bool.false_and, Bool.false_eq_true, if_false, hlt, hgte]
    by_cases hg : gtAfter after rv.version = true
    · simp only [hg, if_true, Bool.true_or, List.nil_append, applyOps_cons]
      exact Effect.arc (ih _ _ (h.apply_arc _ _))
    · simp only [hg, Bool.false_eq_true, if_false, Bool.false_or]
      cases he : rv.versionEnd (some rv') with
      | some e =>
        by_cases hg' : gtAfter after e = true
        · simp only [hg', if_true, List.nil_append, applyOps_cons]
          exact Effect.arc (ih _ _ (h.apply_arc _ _))
        · simp only [hg', Bool.false_eq_true, if_false]
          exact ih _ _ h
      | none =>
        simp only [Bool.false_eq_true, if_false]
        exact ih _ _ h

end
end Splitgill
