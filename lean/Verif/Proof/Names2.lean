import Verif.Proof.Names
import Mathlib.Order.Defs.LinearOrder
/-!
# Lemmas about several databases in one Elasticsearch
-/

namespace Splitgill

variable {P : Type}

theorem Cluster.of_nil (db : PyStr) : Cluster.of (P := P) db [] = [] := rfl

theorem Cluster.of_cons (db : PyStr) (x : (PyStr × Ix) × Index P) (c : Cluster P) :
    Cluster.of db (x :: c) = if x.1.1 = db then (x.1.2, x.2) :: Cluster.of db c else Cluster.of db c := by
  unfold Cluster.of
  rw [List.filterMap_cons]
  by_cases h : x.1.1 = db
  · rw [if_pos h, if_pos h]
  · rw [if_neg h, if_neg h]

theorem Cluster.mem_of {db : PyStr} {c : Cluster P} {x : Ix × Index P} :
    x ∈ Cluster.of db c ↔ ((db, x.1), x.2) ∈ c := by
  induction c with
  | nil => simp [Cluster.of_nil]
  | cons y c ih =>
    obtain ⟨⟨d, ix⟩, docs⟩ := y
    obtain ⟨ix', docs'⟩ := x
    rw [Cluster.of_cons]
    dsimp only at ih ⊢
    by_cases h : d = db
    · subst h
      rw [if_pos rfl, List.mem_cons, List.mem_cons, ih]
      simp
    · rw [if_neg h, ih, List.mem_cons]
      simp only [Prod.mk.injEq, Ne.symm h, false_and, false_or]

theorem Cluster.aget_of (db : PyStr) (ix : Ix) (c : Cluster P) : aget (db, ix) c = aget ix (Cluster.of db c) := by
  induction c with
  | nil => rfl
  | cons y c ih =>
    obtain ⟨⟨d, ix'⟩, docs⟩ := y
    rw [Cluster.of_cons]
    dsimp only
    by_cases h : d = db
    · subst h
      rw [if_pos rfl, aget_cons, aget_cons, ih]
      simp
    · rw [if_neg h, aget_cons, ih, if_neg]
      simp [Ne.symm h]

theorem Cluster.docs_of (db : PyStr) (ix : Ix) (c : Cluster P) : c.docs db ix = ES.docs (Cluster.of db c) ix := by
  unfold Cluster.docs ES.docs
  rw [Cluster.aget_of]

theorem Cluster.of_aset_self (db : PyStr) (ix : Ix) (v : Index P) (c : Cluster P) :
    Cluster.of db (aset (db, ix) v c) = aset ix v (Cluster.of db c) := by
  induction c with
  | nil => simp [aset, Cluster.of]
  | cons y c ih =>
    obtain ⟨⟨d, ix'⟩, docs⟩ := y
    by_cases h : d = db
    · subst h
      by_cases hi : ix = ix'
      · subst hi
        simp [aset, Cluster.of_cons]
      · have : ¬ ((d, ix) = (d, ix')) := by simp [hi]
        simp only [aset, if_neg this, Cluster.of_cons, if_true, ih, if_neg hi]
    · have : ¬ ((db, ix) = (d, ix')) := by simp [Ne.symm h]
      simp only [aset, if_neg this, Cluster.of_cons, if_neg h, ih]

theorem Cluster.of_aset_other {db d : PyStr} (hd : d ≠ db) (ix : Ix) (v : Index P) (c : Cluster P) :
    Cluster.of d (aset (db, ix) v c) = Cluster.of d c := by
  induction c with
  | nil => simp [aset, Cluster.of, hd.symm]
  | cons y c ih =>
    obtain ⟨⟨e, ix'⟩, docs⟩ := y
    by_cases h : (db, ix) = (e, ix')
    · simp only [Prod.mk.injEq] at h
      obtain ⟨rfl, rfl⟩ := h
      simp only [aset, if_true, Cluster.of_cons, if_neg hd.symm]
    · simp only [aset, if_neg h, Cluster.of_cons, ih]

theorem BulkOp.applyIn_self (db : PyStr) (c : Cluster P) (op : BulkOp P) :
    Cluster.of db (op.applyIn db c) = op.apply (Cluster.of db c) := by
  cases op with
  | index ix docId doc => unfold BulkOp.applyIn BulkOp.apply; dsimp only; rw [Cluster.of_aset_self, Cluster.docs_of]
  | delete ix docId => unfold BulkOp.applyIn BulkOp.apply; dsimp only; rw [Cluster.of_aset_self, Cluster.docs_of]

theorem BulkOp.applyIn_other {db d : PyStr} (hd : d ≠ db) (c : Cluster P) (op : BulkOp P) :
    Cluster.of d (op.applyIn db c) = Cluster.of d c := by
  cases op with
  | index ix docId doc => exact Cluster.of_aset_other hd ..
  | delete ix docId => exact Cluster.of_aset_other hd ..

theorem applyAll_self (db : PyStr) (ops : List (BulkOp P)) : ∀ c : Cluster P,
    Cluster.of db (ops.foldl (BulkOp.applyIn db) c) = ES.applyOps (Cluster.of db c) ops := by
  induction ops with
  | nil => intro c; rfl
  | cons op ops ih =>
    intro c
    rw [List.foldl_cons, ih, BulkOp.applyIn_self]
    rfl

theorem applyAll_other {db d : PyStr} (hd : d ≠ db) (ops : List (BulkOp P)) : ∀ c : Cluster P,
    Cluster.of d (ops.foldl (BulkOp.applyIn db) c) = Cluster.of d c := by
  induction ops with
  | nil => intro c; rfl
  | cons op ops ih =>
    intro c
    rw [List.foldl_cons, ih, BulkOp.applyIn_other hd]

/-! ## Isolated databases -/

theorem Isolated.sub {db : PyStr} {c c' : Cluster P} (h : Isolated db c) (hsub : ∀ x ∈ c', x ∈ c) : Isolated db c' := by
  intro k hk
  unfold akeys at hk
  obtain ⟨x, hx, rfl⟩ := List.mem_map.1 hk
  exact h _ (List.mem_map.2 ⟨x, hsub x hx, rfl⟩)

theorem Isolated.tail {db : PyStr} {x : (PyStr × Ix) × Index P} {c : Cluster P} (h : Isolated db (x :: c)) :
    Isolated db c := h.sub (fun _ hx => List.mem_cons_of_mem _ hx)

theorem Isolated.seen {db : PyStr} (hdb : '*' ∉ db) : ∀ {c : Cluster P}, Isolated db c →
    c.seen (wildcardName db) = Cluster.of db c
  | [], _ => rfl
  | ⟨⟨d, ix⟩, docs⟩ :: c, h => by
    have ih := Isolated.seen hdb h.tail
    unfold Cluster.seen Cluster.matching at ih ⊢
    rw [Cluster.of_cons, List.filter_cons]
    dsimp only
    by_cases hd : d = db
    · rw [if_pos ((wildcard_match hdb d ix).2 (.inl hd)), if_pos hd, List.map_cons, ih]
    · have hk := h (d, ix) List.mem_cons_self hd
      rw [if_neg, if_neg hd, ih]
      intro hm
      rcases (wildcard_match hdb d ix).1 hm with h1 | h1 | h1
      · exact hd h1
      · exact hk.1 h1
      · exact hk.2 h1.1

theorem Isolated.arc_match {db : PyStr} (hdb : '*' ∉ db) {c : Cluster P} (h : Isolated db c)
    {x : (PyStr × Ix) × Index P} (hx : x ∈ c) :
    glob (arcWildcardName db) (indexName x.1.1 x.1.2) = true ↔ (x.1.1 = db ∧ ∃ n, x.1.2 = .arc n) := by
  rw [arcWildcard_match hdb]
  constructor
  · rintro (h1 | h1 | ⟨t, ht⟩)
    · exact h1
    · exfalso
      refine (h x.1 (List.mem_map.2 ⟨x, hx, rfl⟩) ?_).1 ⟨"arc".toList, ?_⟩
      · rw [h1]; intro e
        have := congrArg List.length e
        rw [List.length_append] at this
        have : "-arc".toList.length = 4 := rfl
        omega
      · rw [h1, List.append_assoc]; rfl
    · exfalso
      refine (h x.1 (List.mem_map.2 ⟨x, hx, rfl⟩) ?_).1 ⟨"arc-".toList ++ t, ?_⟩
      · rw [← ht]; intro e
        have := congrArg List.length e
        rw [List.length_append, List.length_append] at this
        have : "-arc-".toList.length = 5 := rfl
        omega
      · rw [← ht, List.append_assoc, List.append_assoc]; rfl
  · exact .inl

theorem isArc_iff (ix : Ix) : (∃ n, ix = .arc n) ↔ ix ≠ .latest := by
  cases ix <;> simp

theorem Isolated.deleteArcs_self {db : PyStr} (hdb : '*' ∉ db) : ∀ {c : Cluster P}, Isolated db c →
    Cluster.of db (c.deleteArcs db) = ES.deleteArcs (Cluster.of db c)
  | [], _ => rfl
  | ⟨⟨d, ix⟩, docs⟩ :: c, h => by
    have ih := Isolated.deleteArcs_self hdb h.tail
    have hm := h.arc_match hdb List.mem_cons_self
    unfold Cluster.deleteArcs ES.deleteArcs at ih ⊢
    dsimp only at hm
    rw [isArc_iff] at hm
    rw [Cluster.of_cons, List.filter_cons]
    dsimp only
    by_cases hd : d = db
    · subst hd
      by_cases hi : ix = .latest
      · rw [if_pos, Cluster.of_cons, if_pos rfl, if_pos rfl, List.filter_cons, if_pos (by simp [hi]), ih]
        rw [Bool.not_eq_true', Bool.eq_false_iff]
        intro e
        exact (hm.1 e).2 hi
      · rw [if_neg, if_pos rfl, List.filter_cons, if_neg (by simp [hi]), ih]
        rw [hm.2 ⟨rfl, hi⟩]
        decide
    · rw [if_pos, Cluster.of_cons, if_neg hd, if_neg hd, ih]
      rw [Bool.not_eq_true', Bool.eq_false_iff]
      intro e
      exact hd (hm.1 e).1

theorem Isolated.deleteArcs_other {db d' : PyStr} (hdb : '*' ∉ db) (hd' : d' ≠ db) : ∀ {c : Cluster P}, Isolated db c →
    Cluster.of d' (c.deleteArcs db) = Cluster.of d' c
  | [], _ => rfl
  | ⟨⟨d, ix⟩, docs⟩ :: c, h => by
    have ih := Isolated.deleteArcs_other hdb hd' h.tail
    have hm := h.arc_match hdb List.mem_cons_self
    unfold Cluster.deleteArcs at ih ⊢
    dsimp only at hm
    rw [Cluster.of_cons, List.filter_cons]
    dsimp only
    by_cases hg : glob (arcWildcardName db) (indexName d ix) = true
    · rw [hg, if_neg (by decide), ih, if_neg]
      rw [(hm.1 hg).1]
      exact hd'.symm
    · rw [if_pos (by rw [Bool.not_eq_true', Bool.eq_false_iff]; exact hg), Cluster.of_cons, ih]

theorem Cluster.deleteArcs_sub (db : PyStr) (c : Cluster P) : ∀ x ∈ c.deleteArcs db, x ∈ c := by
  intro x hx
  exact (List.mem_filter.1 hx).1

theorem Isolated.arcParts {db : PyStr} (hdb : '*' ∉ db) : ∀ {c : Cluster P}, Isolated db c →
    pyInts ((c.matching (arcWildcardName db)).map (fun x => lastPart (indexName x.1.1 x.1.2)))
      = some (ES.arcs (Cluster.of db c))
  | [], _ => rfl
  | ⟨⟨d, ix⟩, docs⟩ :: c, h => by
    have ih := Isolated.arcParts hdb h.tail
    have hm := h.arc_match hdb List.mem_cons_self
    unfold Cluster.matching ES.arcs at ih ⊢
    dsimp only at hm
    rw [Cluster.of_cons, List.filter_cons]
    dsimp only
    by_cases hg : glob (arcWildcardName db) (indexName d ix) = true
    · obtain ⟨rfl, n, rfl⟩ := hm.1 hg
      rw [if_pos hg, List.map_cons, if_pos rfl, List.filterMap_cons]
      dsimp only
      rw [pyInts, lastPart_arc, pyInt_digits, ih]
    · rw [if_neg hg]
      by_cases hd : d = db
      · rw [if_pos hd, List.filterMap_cons]
        cases ix with
        | latest => exact ih
        | arc n => exact absurd (hm.2 ⟨hd, n, rfl⟩) hg
      · rw [if_neg hd]
        exact ih

theorem Isolated.arcStatus {db : PyStr} (hdb : '*' ∉ db) {c : Cluster P} (h : Isolated db c) :
    c.arcStatus db = .ok (ES.arcStatus (Cluster.of db c)) := by
  unfold Cluster.arcStatus ES.arcStatus
  rw [h.arcParts hdb]
  dsimp only
  cases hmax : (ES.arcs (Cluster.of db c)).max? with
  | none => rfl
  | some n =>
    dsimp only
    have hn : n ∈ ES.arcs (Cluster.of db c) := List.max?_mem hmax
    unfold ES.arcs at hn
    obtain ⟨x, hx, he⟩ := List.mem_filterMap.1 hn
    obtain ⟨ix, docs⟩ := x
    cases ix with
    | latest => simp at he
    | arc n' =>
      simp only [Option.some.injEq] at he
      subst he
      have hsome : (aget (Ix.arc n') (Cluster.of db c)).isSome = true :=
        aget_isSome_iff.2 (List.mem_map.2 ⟨_, hx, rfl⟩)
      rw [Cluster.aget_of]
      unfold ES.docs
      obtain ⟨v, hv⟩ := Option.isSome_iff_exists.1 hsome
      rw [hv]
      rfl

end Splitgill
