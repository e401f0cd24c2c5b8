import Verif.Proof.Ops
/-!
# Lemmas: an incremental sync completes the indices
-/

namespace Splitgill

section
variable {P : Type}

/-! ## The documents of one record -/

/-- Documents of a record, oldest first. -/
structure GoodDocs (D : List (Doc P)) : Prop where
  pair : D.Pairwise (fun a b => ∃ e, a.lt = some e ∧ e ≤ b.gte)
  range : ∀ d ∈ D, ∀ e, d.lt = some e → d.gte < e
  fields : ∀ d ∈ D, d.version = d.gte ∧ d.next = d.lt

theorem GoodDocs.nil : GoodDocs ([] : List (Doc P)) := ⟨.nil, by simp, by simp⟩

theorem GoodDocs.tail {d : Doc P} {D : List (Doc P)} (h : GoodDocs (d :: D)) : GoodDocs D :=
  ⟨(List.pairwise_cons.1 h.pair).2, fun x hx => h.range x (List.mem_cons_of_mem _ hx),
    fun x hx => h.fields x (List.mem_cons_of_mem _ hx)⟩

/-- The open document. -/
def openOf (D : List (Doc P)) : Option (Doc P) := D.find? (fun d => d.lt.isNone)

/-- The closed documents. -/
def closedOf (D : List (Doc P)) : List (Doc P) := D.filter (fun d => d.lt.isSome)

/-- A document as it was at version `after`. -/
def truncDoc (after : Option Int) (d : Doc P) : Option (Doc P) :=
  if gtAfter after d.gte then none
  else some (match d.lt with
    | some e => if gtAfter after e then { d with lt := none, next := none } else d
    | none => d)

/-- The documents as they were at version `after`. -/
def trunc (after : Option Int) (D : List (Doc P)) : List (Doc P) := D.filterMap (truncDoc after)

theorem trunc_none (D : List (Doc P)) : trunc none D = [] := by
  simp [trunc, truncDoc, gtAfter]

theorem trunc_cons (after : Option Int) (d : Doc P) (D : List (Doc P)) :
    trunc after (d :: D) = (truncDoc after d).toList ++ trunc after D := by
  simp only [trunc, List.filterMap_cons]
  cases truncDoc after d <;> rfl

theorem trunc_append (after : Option Int) (D D' : List (Doc P)) :
    trunc after (D ++ D') = trunc after D ++ trunc after D' := List.filterMap_append

def LatestAct.on (act : LatestAct P) (l : Option (Doc P)) : Option (Doc P) :=
  match act with
  | .put d => some d
  | .remove => none
  | .leave => l

/-- If the record existed at `after` and is deleted, its last document is not newer. -/
def LastNotNew (after : Option Int) (D : List (Doc P)) : Prop :=
  openOf (trunc after D) ≠ none → openOf D = none → ∀ last, D.getLast? = some last → gtAfter after last.gte = false

theorem gtAfter_mono {after : Option Int} {a b : Int} (h : gtAfter after a = true) (hab : a ≤ b) :
    gtAfter after b = true := by
  cases after with
  | none => rfl
  | some x => simp only [gtAfter, decide_eq_true_eq] at h ⊢; omega

theorem latest_step (after : Option Int) : ∀ (D : List (Doc P)), GoodDocs D → LastNotNew after D →
    (latestAct after D).on (openOf (trunc after D)) = openOf D
  | [], _, _ => rfl
  | [d], h, hl => by
    simp only [latestAct, trunc, List.filterMap_cons, List.filterMap_nil, truncDoc, openOf]
    cases hlt : d.lt with
    | none =>
      by_cases hg : gtAfter after d.gte = true <;> simp [hg, hlt, LatestAct.on]
    | some e =>
      by_cases hg : gtAfter after d.gte = true
      · simp [hg, hlt, LatestAct.on]
      · by_cases he : gtAfter after e = true <;> simp [hg, he, hlt, LatestAct.on]
  | d :: d' :: rest, h, hl => by
    obtain ⟨e, he, hle⟩ := (List.pairwise_cons.1 h.pair).1 d' List.mem_cons_self
    have hact : latestAct after (d :: d' :: rest) = latestAct after (d' :: rest) := rfl
    have hopen : openOf (d :: d' :: rest) = openOf (d' :: rest) := by
      simp [openOf, List.find?_cons, he]
    rw [hact, hopen]
    have hlast : (d :: d' :: rest).getLast? = (d' :: rest).getLast? := by simp [List.getLast?_cons_cons]
    by_cases hg : gtAfter after d.gte = true
    · have ht : trunc after (d :: d' :: rest) = trunc after (d' :: rest) := by
        rw [trunc_cons]; simp [truncDoc, hg]
      rw [ht]
      refine latest_step after (d' :: rest) h.tail ?_
      intro h1 h2 last h3
      exact hl (by rw [ht]; exact h1) (by rw [hopen]; exact h2) last (by rw [hlast]; exact h3)
    · by_cases he' : gtAfter after e = true
      · have hall : ∀ x ∈ d' :: rest, gtAfter after x.gte = true := by
          intro x hx
          obtain ⟨e', h1, h2⟩ := (List.pairwise_cons.1 h.pair).1 x hx
          rw [he] at h1; cases h1
          exact gtAfter_mono he' h2
        have hnil : trunc after (d' :: rest) = [] := by
          simp only [trunc, List.filterMap_eq_nil_iff]
          intro x hx
          simp [truncDoc, hall x hx]
        have ih := latest_step after (d' :: rest) h.tail (by
          intro h1; rw [hnil] at h1; exact absurd rfl h1)
        rw [hnil] at ih
        cases hact' : latestAct after (d' :: rest) with
        | put x => rw [hact'] at ih; exact ih
        | remove => rw [hact'] at ih; exact ih
        | leave =>
          exfalso
          rw [hact'] at ih
          have ho : openOf (d' :: rest) = none := ih.symm
          obtain ⟨last, hlast'⟩ : ∃ last, (d' :: rest).getLast? = some last := by
            rw [List.getLast?_eq_some_getLast (by simp)]; exact ⟨_, rfl⟩
          have := hl (by
            rw [trunc_cons]
            simp [truncDoc, hg, he, he', openOf]) (by rw [hopen]; exact ho) last (by rw [hlast]; exact hlast')
          rw [hall last (List.mem_of_getLast? hlast')] at this
          cases this
      · have ht : trunc after (d :: d' :: rest) = d :: trunc after (d' :: rest) := by
          rw [trunc_cons]; simp [truncDoc, hg, he, he']
        have ho : openOf (d :: trunc after (d' :: rest)) = openOf (trunc after (d' :: rest)) := by
          simp [openOf, List.find?_cons, he]
        rw [ht, ho]
        refine latest_step after (d' :: rest) h.tail ?_
        intro h1 h2 last h3
        exact hl (by rw [ht, ho]; exact h1) (by rw [hopen]; exact h2) last (by rw [hlast]; exact h3)

theorem archive_step (after : Option Int) : ∀ (D : List (Doc P)), GoodDocs D →
    (closedOf (trunc after D) ++ toArchive after D).Perm (closedOf D)
  | [], _ => by simp [closedOf, trunc, toArchive]
  | d :: rest, h => by
    have ih := archive_step after rest h.tail
    have hcl : rest ≠ [] → ∃ e, d.lt = some e := by
      intro hne
      cases rest with
      | nil => exact absurd rfl hne
      | cons d' r =>
        obtain ⟨e, he, _⟩ := (List.pairwise_cons.1 h.pair).1 d' List.mem_cons_self
        exact ⟨e, he⟩
    rw [trunc_cons, toArchive]
    by_cases hg : gtAfter after d.gte = true
    · simp only [truncDoc, hg, if_true, Option.toList_none, List.nil_append, Bool.true_and, Bool.true_or]
      cases hlt : d.lt with
      | none =>
        have hr : rest = [] := by
          by_contra hne
          obtain ⟨e, he⟩ := hcl hne
          rw [hlt] at he; cases he
        subst hr
        simp [closedOf, hlt, toArchive, trunc]
      | some e =>
        simp only [Option.isNone_some, Bool.and_false, Bool.false_eq_true, if_false]
        have : closedOf (d :: rest) = d :: closedOf rest := by simp [closedOf, hlt]
        rw [this]
        exact List.perm_middle.trans (ih.cons d)
    · cases hlt : d.lt with
      | none =>
        simp only [truncDoc, hg, hlt, Bool.false_eq_true, if_false, Bool.false_and, Bool.or_false, Option.toList_some]
        have h1 : closedOf (d :: rest) = closedOf rest := by simp [closedOf, hlt]
        have h2 : closedOf ([d] ++ trunc after rest) = closedOf (trunc after rest) := by simp [closedOf, hlt]
        rw [h1, h2]; exact ih
      | some e =>
        have h1 : closedOf (d :: rest) = d :: closedOf rest := by simp [closedOf, hlt]
        rw [h1]
        by_cases he : gtAfter after e = true
        · simp only [truncDoc, hg, hlt, he, Bool.false_eq_true, if_false, if_true, Bool.false_and, Bool.or_true,
            Option.toList_some]
          have h2 : closedOf ([{ d with lt := none, next := none }] ++ trunc after rest) = closedOf (trunc after rest) := by
            simp [closedOf]
          rw [h2]
          exact List.perm_middle.trans (ih.cons d)
        · simp only [truncDoc, hg, hlt, he, Bool.false_eq_true, if_false, Bool.false_and, Bool.or_false,
            Option.toList_some]
          have h2 : closedOf ([d] ++ trunc after rest) = d :: closedOf (trunc after rest) := by simp [closedOf, hlt]
          rw [h2]
          exact ih.cons d

theorem toArchive_of_trunc {after : Option Int} {D : List (Doc P)} (h : GoodDocs D) (ht : trunc after D = D) :
    toArchive after D = [] := by
  have := (archive_step after D h).length_eq
  rw [ht, List.length_append] at this
  exact List.eq_nil_of_length_eq_zero (by omega)

/-- Nothing is newer than `after`. -/
theorem trunc_self {after : Option Int} {D : List (Doc P)} (h1 : ∀ d ∈ D, gtAfter after d.gte = false)
    (h2 : ∀ d ∈ D, ∀ e, d.lt = some e → gtAfter after e = false) : trunc after D = D := by
  induction D with
  | nil => rfl
  | cons d D ih =>
    rw [trunc_cons, ih (fun x hx => h1 x (List.mem_cons_of_mem _ hx)) (fun x hx => h2 x (List.mem_cons_of_mem _ hx))]
    have hd := h1 d List.mem_cons_self
    have he := h2 d List.mem_cons_self
    simp only [truncDoc, hd, Bool.false_eq_true, if_false, Option.toList_some, List.singleton_append, List.cons.injEq, and_true]
    split
    · rename_i e hlt
      rw [if_neg (by simp [he e hlt])]
    · rfl

/-! ## All records -/

/-- The documents of a record. -/
def docsOf (X : Parser P) (opts : List (Int × ParsingOptions)) (r : MongoRecord) : List (Doc P) :=
  match build X r opts with
  | .ok rvs => createDocs rvs
  | .error _ => []

theorem generateOps_effect (X : Parser P) (maxDocs : Nat) (opts : List (Int × ParsingOptions)) (after : Option Int) :
    ∀ (rs : List MongoRecord) (arc : Nat × Nat) (es : ES P), LatestOk es → (rs.map MongoRecord.id).Nodup →
      (∀ r ∈ rs, ∃ rvs, build X r opts = .ok rvs ∧ rvs ≠ []) →
      ∃ ops arc', generateOps X maxDocs opts after arc rs = .ok (ops, arc') ∧ LatestOk (es.applyOps ops) ∧
        (es.applyOps ops).archived.Perm (es.archived ++ rs.flatMap (fun r => toArchive after (docsOf X opts r))) ∧
        (∀ r ∈ rs, (es.applyOps ops).latestOf r.id = (latestAct after (docsOf X opts r)).on (es.latestOf r.id)) ∧
        (∀ id, id ∉ rs.map MongoRecord.id → (es.applyOps ops).latestOf id = es.latestOf id)
  | [], arc, es, h, _, _ => ⟨[], arc, rfl, h, by simp [ES.applyOps], by simp, fun _ _ => rfl⟩
  | r :: rs, arc, es, h, hn, hb => by
    obtain ⟨rvs, h1, h2⟩ := hb r List.mem_cons_self
    have hn' := List.nodup_cons.1 (by simpa using hn : (r.id :: rs.map MongoRecord.id).Nodup)
    have heff := rvOps_effect maxDocs after r.id rvs arc es h
    have hd : docsOf X opts r = createDocs rvs := by simp [docsOf, h1]
    obtain ⟨ops, arc', h3, h4, h5, h6, h7⟩ := generateOps_effect X maxDocs opts after rs (rvOps maxDocs after r.id arc rvs).2
      _ heff.ok hn'.2 (fun r' hr' => hb r' (List.mem_cons_of_mem _ hr'))
    refine ⟨(rvOps maxDocs after r.id arc rvs).1 ++ ops, arc', ?_, ?_, ?_, ?_, ?_⟩
    · simp only [generateOps, h1]
      cases rvs with
      | nil => exact absurd rfl h2
      | cons rv rvs => simp only [h3]
    · rw [applyOps_append]; exact h4
    · rw [applyOps_append, List.flatMap_cons, hd, ← List.append_assoc]
      exact h5.trans (List.Perm.append_right _ heff.archived)
    · intro r' hr'
      rw [applyOps_append]
      rcases List.mem_cons.1 hr' with rfl | hr'
      · rw [h7 _ hn'.1, heff.this, hd]; rfl
      · have hne : r'.id ≠ r.id := by
          intro he; exact hn'.1 (he ▸ List.mem_map_of_mem hr')
        rw [h6 r' hr', heff.other _ hne]
    · intro id hid
      rw [applyOps_append]
      simp only [List.map_cons, List.mem_cons, not_or] at hid
      rw [h7 id hid.2, heff.other id hid.1]

/-- What is in the indices, given the documents of each record. -/
structure Holds (es : ES P) (rs : List MongoRecord) (D : MongoRecord → List (Doc P)) : Prop where
  ok : LatestOk es
  latest : ∀ r ∈ rs, es.latestOf r.id = openOf (D r)
  others : ∀ id, id ∉ rs.map MongoRecord.id → es.latestOf id = none
  archived : es.archived.Perm (rs.flatMap (fun r => closedOf (D r)))

/-- Syncing the selected records completes the indices, if nothing is missing of the others. -/
theorem generateOps_holds (X : Parser P) (maxDocs : Nat) (opts : List (Int × ParsingOptions)) (after : Option Int)
    (rs : List MongoRecord) (D : MongoRecord → List (Doc P)) (sel : MongoRecord → Bool) (arc : Nat × Nat) (es : ES P)
    (h : Holds es rs (fun r => trunc after (D r))) (hn : (rs.map MongoRecord.id).Nodup)
    (hb : ∀ r ∈ rs, sel r = true → ∃ rvs, build X r opts = .ok rvs ∧ rvs ≠ [] ∧ D r = createDocs rvs)
    (hg : ∀ r ∈ rs, GoodDocs (D r)) (hl : ∀ r ∈ rs, sel r = true → LastNotNew after (D r))
    (hu : ∀ r ∈ rs, sel r = false → trunc after (D r) = D r) :
    ∃ ops arc', generateOps X maxDocs opts after arc (rs.filter sel) = .ok (ops, arc') ∧ Holds (es.applyOps ops) rs D := by
  have hmem : ∀ {r}, r ∈ rs.filter sel ↔ r ∈ rs ∧ sel r = true := fun {r} => List.mem_filter
  obtain ⟨ops, arc', h1, h2, h3, h4, h5⟩ := generateOps_effect X maxDocs opts after (rs.filter sel) arc es h.ok
    ((List.Sublist.map _ List.filter_sublist).nodup hn) (fun r hr => by
      obtain ⟨rvs, ha, hb, _⟩ := hb r (hmem.1 hr).1 (hmem.1 hr).2
      exact ⟨rvs, ha, hb⟩)
  have hd : ∀ r ∈ rs, sel r = true → docsOf X opts r = D r := by
    intro r hr hs
    obtain ⟨rvs, ha, _, hc⟩ := hb r hr hs
    simp [docsOf, ha, hc]
  refine ⟨ops, arc', h1, h2, fun r hr => ?_, fun id hid => ?_, ?_⟩
  · cases hs : sel r with
    | true =>
      rw [h4 r (hmem.2 ⟨hr, hs⟩), h.latest r hr, hd r hr hs]
      exact latest_step after (D r) (hg r hr) (hl r hr hs)
    | false =>
      rw [h5, h.latest r hr, hu r hr hs]
      intro hm
      obtain ⟨r', hr', he⟩ := List.mem_map.1 hm
      have h1 := findRecord_of_mem (c := rs) hn (hmem.1 hr').1
      have h2 := findRecord_of_mem (c := rs) hn hr
      rw [he, h2] at h1
      cases h1
      have := (hmem.1 hr').2
      rw [hs] at this; cases this
  · rw [h5, h.others id hid]
    intro hm
    obtain ⟨r', hr', he⟩ := List.mem_map.1 hm
    exact hid (he ▸ List.mem_map_of_mem (hmem.1 hr').1)
  · refine h3.trans ((List.Perm.append_right _ h.archived).trans ?_)
    clear h1 h2 h3 h4 h5 h hn
    induction rs with
    | nil => simp
    | cons r rs ih =>
      have ih := ih (fun r hr => hb r (List.mem_cons_of_mem _ hr)) (fun r hr => hg r (List.mem_cons_of_mem _ hr))
        (fun r hr => hl r (List.mem_cons_of_mem _ hr)) (fun r hr => hu r (List.mem_cons_of_mem _ hr))
        (fun {r} => List.mem_filter) (fun r hr => hd r (List.mem_cons_of_mem _ hr))
      simp only [List.flatMap_cons]
      cases hs : sel r with
      | true =>
        rw [List.filter_cons_of_pos hs, List.flatMap_cons, hd r List.mem_cons_self hs]
        have := archive_step after (D r) (hg r List.mem_cons_self)
        refine List.Perm.trans ?_ (this.append ih)
        simp only [List.append_assoc]
        refine List.Perm.append_left _ ?_
        rw [← List.append_assoc, ← List.append_assoc]
        exact List.Perm.append_right _ List.perm_append_comm
      | false =>
        rw [List.filter_cons_of_neg (by simp [hs]), hu r List.mem_cons_self hs, List.append_assoc]
        exact List.Perm.append_left _ ih

/-! ## The version of the indices -/

theorem mem_all {es : ES P} (h : LatestOk es) {d : Doc P} :
    d ∈ es.all ↔ (∃ id, es.latestOf id = some d) ∨ d ∈ es.archived := by
  have key : ∀ es : ES P, (akeys es).Nodup →
      (d ∈ es.all ↔ (∃ k, (k, d) ∈ es.docs .latest) ∨ d ∈ es.archived) := by
    intro es
    induction es with
    | nil => simp [ES.all, ES.docs, ES.archived]
    | cons x es ih =>
      obtain ⟨ix, docs⟩ := x
      intro hn
      have hn' := List.nodup_cons.1 (by simpa [akeys] using hn : (ix :: akeys es).Nodup)
      have ih := ih hn'.2
      simp only [ES.all, ES.archived, List.flatMap_cons, List.mem_append] at ih ⊢
      rw [ih]
      cases ix with
      | latest =>
        have : ES.docs es .latest = [] := by
          simp [ES.docs, aget_eq_none_iff.2 hn'.1]
        rw [this]
        simp [ES.docs, aget_cons]
      | arc n =>
        have : ES.docs ((.arc n, docs) :: es) .latest = ES.docs es .latest := by
          simp [ES.docs, aget_cons]
        rw [this]
        tauto
  rw [key es h.indices]
  apply or_congr_left
  constructor
  · rintro ⟨k, hk⟩
    cases k with
    | none => exact absurd (List.mem_map_of_mem hk) h.hasId
    | some id => exact ⟨id, aget_of_mem h.nodup hk⟩
  · rintro ⟨id, hid⟩; exact ⟨some id, aget_mem hid⟩

theorem version_none {es : ES P} : es.version = none ↔ es.all = [] := by
  simp only [ES.version, List.max?_eq_none_iff, List.append_eq_nil_iff, List.map_eq_nil_iff]
  constructor
  · exact fun h => h.1
  · intro h; simp [h]

theorem version_some {es : ES P} {e : Int} (h : es.version = some e) :
    (∀ d ∈ es.all, d.version ≤ e ∧ ∀ n, d.next = some n → n ≤ e) ∧
    ∃ d ∈ es.all, d.version = e ∨ d.next = some e := by
  obtain ⟨h1, h2⟩ := List.max?_eq_some_iff.1 h
  refine ⟨fun d hd => ⟨h2 _ (List.mem_append_left _ (List.mem_map_of_mem hd)), fun n hn => h2 _ (List.mem_append_right _ ?_)⟩, ?_⟩
  · exact List.mem_filterMap.2 ⟨d, hd, hn⟩
  · rcases List.mem_append.1 h1 with h1 | h1
    · obtain ⟨d, hd, he⟩ := List.mem_map.1 h1
      exact ⟨d, hd, .inl he⟩
    · obtain ⟨d, hd, he⟩ := List.mem_filterMap.1 h1
      exact ⟨d, hd, .inr he⟩

/-- The documents in the indices are those of the records. -/
theorem Holds.mem_all {es : ES P} {rs : List MongoRecord} {D : MongoRecord → List (Doc P)} (h : Holds es rs D)
    (hg : ∀ r ∈ rs, GoodDocs (D r)) {d : Doc P} : d ∈ es.all ↔ ∃ r ∈ rs, d ∈ D r := by
  rw [Splitgill.mem_all h.ok, h.archived.mem_iff]
  simp only [List.mem_flatMap]
  constructor
  · rintro (⟨id, hid⟩ | ⟨r, hr, hd⟩)
    · by_cases hm : id ∈ rs.map MongoRecord.id
      · obtain ⟨r, hr, rfl⟩ := List.mem_map.1 hm
        rw [h.latest r hr] at hid
        exact ⟨r, hr, List.mem_of_find?_eq_some hid⟩
      · rw [h.others id hm] at hid; cases hid
    · exact ⟨r, hr, (List.mem_filter.1 hd).1⟩
  · rintro ⟨r, hr, hd⟩
    cases hlt : d.lt with
    | some e => exact .inr ⟨r, hr, List.mem_filter.2 ⟨hd, by simp [hlt]⟩⟩
    | none =>
      refine .inl ⟨r.id, ?_⟩
      rw [h.latest r hr]
      have hgd := hg r hr
      generalize D r = l at hd hgd
      clear hr
      induction l with
      | nil => cases hd
      | cons x l ih =>
        rcases List.mem_cons.1 hd with rfl | hd'
        · simp [openOf, hlt]
        · obtain ⟨e, he, _⟩ := (List.pairwise_cons.1 hgd.pair).1 d hd'
          have : openOf (x :: l) = openOf l := by simp [openOf, List.find?_cons, he]
          rw [this]
          exact ih hd' hgd.tail

end
end Splitgill
