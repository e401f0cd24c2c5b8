import Verif.Spec.Fields
import Verif.Proof.Parse4
import Verif.Proof.Terms
import Mathlib.Algebra.BigOperators.Group.Finset.Basic
import Mathlib.Algebra.BigOperators.Ring.Finset
/-!
# Lemmas on the listing of fields
-/

namespace Splitgill

/-! ## Sorting -/

section
variable {α : Type} {le : α → α → Bool}

theorem mem_insertBy' {x z : α} {l : List α} : z ∈ insertBy le x l ↔ z = x ∨ z ∈ l := by
  rw [(insertBy_perm le x l).mem_iff, List.mem_cons]

theorem sortBy_stable (htot : ∀ a b, le a b = false → le b a = true)
    (htrans : ∀ a b c, le a b = true → le b c = true → le a c = true) {R : α → α → Prop} :
    ∀ {l : List α}, l.Pairwise R → (sortBy le l).Pairwise (fun a b => le a b = true ∧ (le b a = true → R a b))
  | [], _ => .nil
  | x :: xs, h => by
    rw [List.pairwise_cons] at h
    have ih := sortBy_stable htot htrans h.2
    have hx : ∀ y ∈ sortBy le xs, R x y := fun y hy => h.1 y ((sortBy_perm le xs).mem_iff.1 hy)
    rw [sortBy]
    generalize sortBy le xs = S at ih hx
    induction S with
    | nil => simp [insertBy]
    | cons y ys ihS =>
      rw [List.pairwise_cons] at ih
      rw [insertBy]
      split
      · rename_i hxy
        rw [List.pairwise_cons]
        refine ⟨?_, List.pairwise_cons.2 ih⟩
        intro z hz
        refine ⟨?_, fun _ => hx z hz⟩
        rcases List.mem_cons.1 hz with rfl | hz'
        · exact hxy
        · exact htrans _ _ _ hxy (ih.1 z hz').1
      · rename_i hxy
        rw [Bool.not_eq_true] at hxy
        rw [List.pairwise_cons]
        refine ⟨?_, ihS ih.2 (fun z hz => hx z (List.mem_cons_of_mem _ hz))⟩
        intro z hz
        rcases mem_insertBy'.1 hz with rfl | hz
        · exact ⟨htot _ _ hxy, fun e => by rw [hxy] at e; cases e⟩
        · exact ih.1 z hz
end

theorem strLe_iff_le : ∀ {s t : PyStr}, strLe s t = true ↔ s ≤ t
  | [], t => by
    simp only [strLe, true_iff]
    rw [← not_lt]
    exact List.not_lt_nil t
  | a :: s, [] => by simp [strLe]
  | a :: s, b :: t => by
    have ih := strLe_iff_le (s := s) (t := t)
    rw [strLe]
    have hlt : a < b ↔ a.toNat < b.toNat := Iff.rfl
    by_cases h1 : a.toNat < b.toNat
    · rw [if_pos h1]
      simp only [true_iff]
      exact le_of_lt (List.Lex.rel (hlt.2 h1))
    · rw [if_neg h1]
      by_cases h2 : a.toNat = b.toNat
      · rw [if_pos h2, ih]
        have : a = b := toNat_inj h2
        subst this
        rw [← not_lt, ← not_lt, List.cons_lt_cons_iff]
        simp
      · rw [if_neg h2]
        simp only [Bool.false_eq_true, false_iff, not_le]
        exact List.Lex.rel (show b.toNat < a.toNat by omega)

section
variable {T : Type} [DecidableEq T]

theorem sortFields_perm (l : List (FieldCounts T)) : (sortFields l).Perm l :=
  (sortBy_perm _ _).trans ((sortBy_perm _ _).trans (sortBy_perm _ _))

theorem sortFields_order {l : List (FieldCounts T)} (hn : (l.map FieldCounts.path).Nodup) :
    (sortFields l).Pairwise (fun a b => b.count < a.count ∨ (a.count = b.count ∧ a.path < b.path)) := by
  unfold sortFields
  have h1 := (sortBy_perm (fun a b : FieldCounts T => decide (dotCount b.path ≤ dotCount a.path)) l)
  generalize sortBy (fun a b : FieldCounts T => decide (dotCount b.path ≤ dotCount a.path)) l = l1 at h1
  have hn1 : (l1.map FieldCounts.path).Nodup := (h1.map _).nodup_iff.2 hn
  have h2 : (sortBy (fun a b : FieldCounts T => strLe a.path b.path) l1).Pairwise (fun a b => a.path < b.path) := by
    have hp := sortBy_pairwise (le := fun a b : FieldCounts T => strLe a.path b.path)
      (fun a b h => by
        rcases strLe_total a.path b.path with h' | h'
        · rw [h] at h'; cases h'
        · exact h')
      (fun a b c => strLe_trans) l1
    have hn2 : ((sortBy (fun a b : FieldCounts T => strLe a.path b.path) l1).map FieldCounts.path).Nodup :=
      ((sortBy_perm _ l1).map _).nodup_iff.2 hn1
    rw [List.Nodup, List.pairwise_map] at hn2
    refine (hp.and hn2).imp ?_
    intro a b h
    exact lt_of_le_of_ne (strLe_iff_le.1 h.1) h.2
  refine (sortBy_stable ?_ ?_ h2).imp ?_
  · intro a b h
    simp only [decide_eq_false_iff_not, decide_eq_true_eq] at h ⊢
    omega
  · intro a b c h1 h2
    simp only [decide_eq_true_eq] at h1 h2 ⊢
    omega
  · intro a b h
    simp only [decide_eq_true_eq] at h
    by_cases e : b.count < a.count
    · exact .inl e
    · exact .inr ⟨by omega, h.2 (by omega)⟩

/-! ## Collecting -/

theorem pySplit_comma : ∀ s : PyStr, pySplit ',' s = splitComma s
  | [] => rfl
  | c :: s => by
    rw [pySplit, splitComma, pySplit_comma s]
    cases h : splitComma s with
    | nil =>
      exfalso
      revert h
      cases s with
      | nil => simp [splitComma]
      | cons a s =>
        rw [splitComma]
        split
        · simp
        · split <;> simp
    | cons w r => rfl

variable {ofName : PyStr → Except PyErr T} {name : T → PyStr}

theorem addTypes_ok (hof : ∀ t, ofName (name t) = .ok t) (n : Nat) : ∀ (l : List PyStr) (f : FieldCounts T),
    (∀ s ∈ l, ∃ t, s = name t) → ∃ f', addTypes ofName n l f = .ok f' ∧ f'.path = f.path ∧ f'.count = f.count ∧
      ∀ t, f'.countOf t = f.countOf t + l.count (name t) * n
  | [], f, _ => ⟨f, rfl, rfl, rfl, by simp⟩
  | s :: r, f, h => by
    obtain ⟨t0, rfl⟩ := h s List.mem_cons_self
    have hinj : ∀ {a b : T}, name a = name b → a = b := by
      intro a b e
      have := hof a
      rw [e, hof b] at this
      exact (Except.ok.inj this).symm
    rw [addTypes, hof t0]
    obtain ⟨f', h1, h2, h3, h4⟩ := addTypes_ok hof n r
      { f with typeCounts := aset t0 (f.countOf t0 + n) f.typeCounts } (fun s hs => h s (List.mem_cons_of_mem _ hs))
    refine ⟨f', h1, h2, h3, fun t => ?_⟩
    rw [h4 t, List.count_cons]
    have hc : FieldCounts.countOf { f with typeCounts := aset t0 (f.countOf t0 + n) f.typeCounts } t =
        if t = t0 then f.countOf t0 + n else f.countOf t := by
      unfold FieldCounts.countOf
      dsimp only
      rw [aget_aset]
      by_cases e : t = t0
      · simp [e]
      · simp [e]
    rw [hc]
    by_cases e : t = t0
    · subst e
      rw [if_pos rfl, if_pos (by simp), Nat.add_mul, Nat.one_mul]
      omega
    · rw [if_neg e, if_neg (by simpa using fun e' => e (hinj e').symm)]
      simp

/-- The number of documents for the path in the terms. -/
def pathSum (terms : List (PyStr × Nat)) (p : PyStr) : Nat :=
  (terms.map (fun x => (if entryPath x.1 = p then 1 else 0) * x.2)).sum

/-- The number of documents for the path and the type in the terms. -/
def typeSum (terms : List (PyStr × Nat)) (p s : PyStr) : Nat :=
  (terms.map (fun x => (if entryPath x.1 = p then (entryTypes x.1).count s else 0) * x.2)).sum

def countAt (fields : List (PyStr × FieldCounts T)) (p : PyStr) : Nat := ((aget p fields).map FieldCounts.count).getD 0
def typeAt (fields : List (PyStr × FieldCounts T)) (p : PyStr) (t : T) : Nat :=
  ((aget p fields).map (fun f => f.countOf t)).getD 0

theorem collect_ok (hof : ∀ t, ofName (name t) = .ok t) : ∀ (terms : List (PyStr × Nat))
    (fields : List (PyStr × FieldCounts T)),
    (∀ x ∈ terms, (∃ y, rsplitDot x.1 = some y) ∧ ∀ s ∈ entryTypes x.1, ∃ t, s = name t) →
    (akeys fields).Nodup → (∀ p f, aget p fields = some f → f.path = p) →
    ∃ r, collectFields ofName terms fields = .ok r ∧ (akeys r).Nodup ∧ (∀ p f, aget p r = some f → f.path = p) ∧
      (∀ p, p ∈ akeys r ↔ p ∈ akeys fields ∨ ∃ x ∈ terms, entryPath x.1 = p) ∧
      (∀ p, countAt r p = countAt fields p + pathSum terms p) ∧
      ∀ p t, typeAt r p t = typeAt fields p t + typeSum terms p (name t)
  | [], fields, _, hn, hp => ⟨fields, rfl, hn, hp, by simp, by simp [pathSum], by simp [typeSum]⟩
  | (e, n) :: r, fields, h, hn, hp => by
    obtain ⟨⟨⟨path, raw⟩, hr⟩, hty⟩ := h (e, n) List.mem_cons_self
    have hpath : entryPath e = path := by rw [entryPath, hr]; rfl
    have htypes : entryTypes e = pySplit ',' raw := by rw [entryTypes, hr, pySplit_comma]; rfl
    rw [collectFields, hr]
    dsimp only at hty ⊢
    generalize hf0 : (aget path fields).getD { path := path } = f0
    have hf0p : f0.path = path := by
      cases hg : aget path fields with
      | none => rw [hg] at hf0; rw [← hf0]; rfl
      | some f => rw [hg] at hf0; rw [← hf0]; exact hp _ _ hg
    obtain ⟨f', h1, h2, h3, h4⟩ := addTypes_ok hof n (pySplit ',' raw) { f0 with count := f0.count + n }
      (fun s hs => hty s (htypes ▸ hs))
    rw [FieldCounts.add, h1]
    have hc0 : f0.count = countAt fields path := by
      rw [← hf0, countAt]
      cases aget path fields <;> rfl
    have ht0 : ∀ t, f0.countOf t = typeAt fields path t := by
      intro t
      rw [← hf0, typeAt]
      cases aget path fields <;> rfl
    have hp' : ∀ p f, aget p (aset path f' fields) = some f → f.path = p := by
      intro p f hpf
      rw [aget_aset] at hpf
      split at hpf
      · rename_i e; cases hpf; rw [h2, e]; exact hf0p
      · exact hp p f hpf
    obtain ⟨q, g1, g2, g3, g4, g5, g6⟩ := collect_ok hof r (aset path f' fields)
      (fun x hx => h x (List.mem_cons_of_mem _ hx)) (nodup_aset hn) hp'
    refine ⟨q, g1, g2, g3, ?_, ?_, ?_⟩
    · intro p
      rw [g4, mem_akeys_aset]
      simp only [List.mem_cons, exists_eq_or_imp, hpath]
      constructor
      · rintro ((rfl | h) | h)
        · exact .inr (.inl rfl)
        · exact .inl h
        · exact .inr (.inr h)
      · rintro (h | rfl | h)
        · exact .inl (.inr h)
        · exact .inl (.inl rfl)
        · exact .inr h
    · intro p
      rw [g5]
      have : countAt (aset path f' fields) p = if p = path then f0.count + n else countAt fields p := by
        unfold countAt
        rw [aget_aset]
        by_cases e : p = path
        · simp [e, h3]
        · simp [e]
      rw [this]
      simp only [pathSum, List.map_cons, List.sum_cons, hpath]
      by_cases e : p = path
      · subst e
        rw [if_pos rfl, if_pos rfl, hc0]
        omega
      · rw [if_neg e, if_neg (fun e' => e e'.symm)]
        omega
    · intro p t
      rw [g6]
      have : typeAt (aset path f' fields) p t = if p = path then f0.countOf t + (entryTypes e).count (name t) * n
          else typeAt fields p t := by
        unfold typeAt
        rw [aget_aset]
        by_cases e : p = path
        · simp only [e, if_true, Option.map_some, Option.getD_some]
          rw [h4, htypes]
          rfl
        · simp [e]
      rw [this]
      simp only [typeSum, List.map_cons, List.sum_cons, hpath]
      by_cases e : p = path
      · subst e
        rw [if_pos rfl, if_pos rfl, ht0]
        omega
      · rw [if_neg e, if_neg (fun e' => e e'.symm)]
        omega

end

/-! ## Counting -/

theorem countP_sum {α δ : Type} [DecidableEq α] (docs : List δ) (vals : δ → List α) (w : α → Nat) (F : Finset α)
    (hF : ∀ d ∈ docs, ∀ e ∈ vals d, e ∈ F) :
    ∑ e ∈ F, w e * (docs.map vals).countP (fun d => decide (e ∈ d)) = (docs.map (fun d => ∑ e ∈ (vals d).toFinset, w e)).sum := by
  induction docs with
  | nil => simp
  | cons d r ih =>
    rw [List.map_cons, List.map_cons, List.sum_cons, ← ih (fun d hd => hF d (List.mem_cons_of_mem _ hd))]
    have : ∀ e ∈ F, w e * (vals d :: r.map vals).countP (fun d => decide (e ∈ d)) =
        (if e ∈ vals d then w e else 0) + w e * (r.map vals).countP (fun d => decide (e ∈ d)) := by
      intro e _
      rw [List.countP_cons]
      by_cases he : e ∈ vals d
      · simp [he, Nat.mul_add, Nat.add_comm]
      · simp [he]
    rw [Finset.sum_congr rfl this, Finset.sum_add_distrib]
    congr 1
    rw [← Finset.sum_filter]
    congr 1
    ext e
    simp only [Finset.mem_filter, List.mem_toFinset]
    exact ⟨fun h => h.2, fun h => ⟨hF d List.mem_cons_self e h, h⟩⟩

theorem buckets_sum {α δ : Type} [LinearOrder α] (docs : List δ) (vals : δ → List α) (w : α → Nat) :
    ((buckets (docs.map vals)).map (fun x => w x.1 * x.2)).sum =
      (docs.map (fun d => ∑ e ∈ (vals d).toFinset, w e)).sum := by
  rw [← countP_sum docs vals w (docs.map vals).flatten.toFinset]
  · unfold buckets
    rw [List.map_map]
    have hperm := (sortBy_perm (fun a b : α => decide (a ≤ b)) (docs.map vals).flatten.dedup).map
      ((fun x : α × Nat => w x.1 * x.2) ∘ fun a => (a, (docs.map vals).countP (fun d => decide (a ∈ d))))
    have hfs : (docs.map vals).flatten.toFinset = (docs.map vals).flatten.dedup.toFinset := by
      ext; simp
    rw [hperm.sum_eq, hfs, List.sum_toFinset _ (List.nodup_dedup _)]
    rfl
  · intro d hd e he
    rw [List.mem_toFinset, List.mem_flatten]
    exact ⟨vals d, List.mem_map_of_mem hd, he⟩

theorem sum_one_unique {α : Type} {_ : DecidableEq α} (l : List α) (key : α → PyStr) (hn : (l.map key).Nodup) (w : α → Nat)
    (p : PyStr) : ∑ e ∈ l.toFinset, (if key e = p then w e else 0) =
      ((l.find? (fun e => decide (key e = p))).map w).getD 0 := by
  induction l with
  | nil => simp
  | cons a r ih =>
    rw [List.map_cons, List.nodup_cons] at hn
    have ha : a ∉ r.toFinset := by
      rw [List.mem_toFinset]
      exact fun h => hn.1 (List.mem_map_of_mem h)
    rw [List.toFinset_cons, Finset.sum_insert ha, ih hn.2, List.find?_cons]
    by_cases e : key a = p
    · have hnone : r.find? (fun e => decide (key e = p)) = none := by
        rw [List.find?_eq_none]
        intro x hx
        simp only [decide_eq_true_eq]
        intro e'
        exact hn.1 (List.mem_map.2 ⟨x, hx, e'.trans e.symm⟩)
      simp [e, hnone]
    · simp [e]

theorem howMany_eq {α : Type} (l : List α) (P : α → Prop) (f : α → Nat)
    (h : ∀ a ∈ l, (P a ∧ f a = 1) ∨ (¬ P a ∧ f a = 0)) : (l.map f).sum = howMany l P := by
  unfold howMany
  induction l with
  | nil => rfl
  | cons a r ih =>
    have ih := ih (fun a ha => h a (List.mem_cons_of_mem _ ha))
    rw [List.map_cons, List.sum_cons, List.filter_cons, ih]
    rcases h a List.mem_cons_self with ⟨h1, h2⟩ | ⟨h1, h2⟩
    · simp [h1, h2, Nat.add_comm]
    · simp [h1, h2]

/-! ## The lists -/

section
variable {T δ : Type} [DecidableEq T] {ofName : PyStr → Except PyErr T} {name : T → PyStr}

theorem fields_ok (hof : ∀ t, ofName (name t) = .ok t) (hne : ∀ t, name t ≠ []) (docs : List δ) (vals : δ → List PyStr)
    (occurs : δ → List PyStr → PyStr → Prop) (hs : ∀ d ∈ docs, Summarises (vals d) (occurs d))
    (hocc : ∀ d ∈ docs, ∀ p s, occurs d p s → ∃ t, s = name t) :
    ∃ r, collectFields ofName (buckets (docs.map vals)) [] = .ok r ∧
      (∀ x ∈ r, x.2.path = x.1) ∧ ListsFields name docs occurs (sortFields (r.map Prod.snd)) := by
  have hentry : ∀ x ∈ buckets (docs.map vals), ∃ d ∈ docs, x.1 ∈ vals d := by
    rintro ⟨e, n⟩ hx
    obtain ⟨⟨l, hl, he⟩, _⟩ := mem_buckets.1 hx
    obtain ⟨d, hd, rfl⟩ := List.mem_map.1 hl
    exact ⟨d, hd, he⟩
  have hvalid : ∀ x ∈ buckets (docs.map vals), (∃ y, rsplitDot x.1 = some y) ∧ ∀ s ∈ entryTypes x.1, ∃ t, s = name t := by
    intro x hx
    obtain ⟨d, hd, he⟩ := hentry x hx
    have hty : ∀ s ∈ entryTypes x.1, ∃ t, s = name t := by
      intro s hs'
      obtain ⟨p, _, ho⟩ := (((hs d hd).sound _ he).2 s).1 hs'
      exact hocc d hd p s ho
    refine ⟨?_, hty⟩
    cases hr : rsplitDot x.1 with
    | some y => exact ⟨y, rfl⟩
    | none =>
      obtain ⟨t, ht⟩ := hty [] (by rw [entryTypes, hr]; decide)
      exact absurd ht.symm (hne t)
  obtain ⟨r, h1, h2, h3, h4, h5, h6⟩ := collect_ok hof _ [] hvalid (by simp [akeys]) (by intro p f h; cases h)
  have hmem : ∀ x ∈ r, aget x.1 r = some x.2 := fun x hx => aget_of_mem h2 hx
  have hpx : ∀ x ∈ r, x.2.path = x.1 := fun x hx => h3 _ _ (hmem x hx)
  have hkeys : (r.map Prod.snd).map FieldCounts.path = akeys r := by
    rw [List.map_map]
    exact List.map_congr_left (fun x hx => hpx x hx)
  have hperm := sortFields_perm (r.map Prod.snd)
  have hpaths : ∀ s, s ∈ akeys r ↔ ∃ d ∈ docs, ∃ p t, occurs d p t ∧ pathText p = s := by
    intro s
    rw [h4]
    constructor
    · rintro (h | ⟨x, hx, rfl⟩)
      · cases h
      · obtain ⟨d, hd, he⟩ := hentry x hx
        obtain ⟨t, r', ht⟩ := List.exists_cons_of_ne_nil (splitComma_ne_nil (((rsplitDot x.1).map Prod.snd).getD []))
        obtain ⟨p, hp, ho⟩ := (((hs d hd).sound _ he).2 t).1 (by rw [entryTypes, ht]; exact List.mem_cons_self)
        exact ⟨d, hd, p, t, ho, hp⟩
    · rintro ⟨d, hd, p, t, ho, rfl⟩
      obtain ⟨e, he, hp⟩ := (hs d hd).complete p t ho
      exact .inr ⟨(e, _), mem_buckets.2 ⟨⟨vals d, List.mem_map_of_mem hd, he⟩, rfl⟩, hp⟩
  have hfield : ∀ f ∈ sortFields (r.map Prod.snd), aget f.path r = some f := by
    intro f hf
    obtain ⟨x, hx, rfl⟩ := List.mem_map.1 (hperm.mem_iff.1 hf)
    rw [hpx x hx]
    exact hmem x hx
  refine ⟨r, h1, hpx, ?_, ?_, ?_, ?_, ?_⟩
  · rw [(hperm.map _).nodup_iff, hkeys]
    exact h2
  · intro s
    rw [(hperm.map _).mem_iff, hkeys]
    exact hpaths s
  · intro f hf
    have hc := h5 f.path
    rw [countAt, hfield f hf] at hc
    have : f.count = pathSum (buckets (docs.map vals)) f.path := by simpa [countAt, aget] using hc
    rw [this, pathSum, buckets_sum docs vals (fun e => if entryPath e = f.path then 1 else 0)]
    refine howMany_eq _ _ _ fun d hd => ?_
    rw [sum_one_unique _ _ (hs d hd).once (fun _ => 1)]
    cases hfi : (vals d).find? (fun e => decide (entryPath e = f.path)) with
    | some e =>
      have he := List.mem_of_find?_eq_some hfi
      have hpe := List.find?_some hfi
      rw [decide_eq_true_eq] at hpe
      obtain ⟨t, r', ht⟩ := List.exists_cons_of_ne_nil (splitComma_ne_nil (((rsplitDot e).map Prod.snd).getD []))
      obtain ⟨p, hp, ho⟩ := (((hs d hd).sound _ he).2 t).1 (by rw [entryTypes, ht]; exact List.mem_cons_self)
      exact .inl ⟨⟨p, t, ho, hp.trans hpe⟩, rfl⟩
    | none =>
      refine .inr ⟨?_, rfl⟩
      rintro ⟨p, t, ho, hp⟩
      obtain ⟨e, he, hp'⟩ := (hs d hd).complete p t ho
      have := List.find?_eq_none.1 hfi e he
      rw [decide_eq_true_eq] at this
      exact this (hp'.trans hp)
  · intro f hf t
    have hc := h6 f.path t
    rw [typeAt, hfield f hf] at hc
    have : f.countOf t = typeSum (buckets (docs.map vals)) f.path (name t) := by simpa [typeAt, aget] using hc
    rw [this, typeSum, buckets_sum docs vals (fun e => if entryPath e = f.path then (entryTypes e).count (name t) else 0)]
    refine howMany_eq _ _ _ fun d hd => ?_
    rw [sum_one_unique _ _ (hs d hd).once (fun e => (entryTypes e).count (name t))]
    cases hfi : (vals d).find? (fun e => decide (entryPath e = f.path)) with
    | some e =>
      have he := List.mem_of_find?_eq_some hfi
      have hpe := List.find?_some hfi
      rw [decide_eq_true_eq] at hpe
      have hsound := (hs d hd).sound _ he
      by_cases hmt : name t ∈ entryTypes e
      · obtain ⟨p, hp, ho⟩ := (hsound.2 _).1 hmt
        exact .inl ⟨⟨p, ho, hp.trans hpe⟩, List.count_eq_one_of_mem hsound.1 hmt⟩
      · refine .inr ⟨?_, List.count_eq_zero_of_not_mem hmt⟩
        rintro ⟨p, ho, hp⟩
        exact hmt ((hsound.2 _).2 ⟨p, hp.trans hpe.symm, ho⟩)
    | none =>
      refine .inr ⟨?_, rfl⟩
      rintro ⟨p, ho, hp⟩
      obtain ⟨e, he, hp'⟩ := (hs d hd).complete p _ ho
      have := List.find?_eq_none.1 hfi e he
      rw [decide_eq_true_eq] at this
      exact this (hp'.trans hp)
  · exact sortFields_order (by rw [hkeys]; exact h2)

end

/-! ## Links -/

theorem dotCount_eq_zero {s : PyStr} : dotCount s = 0 ↔ '.' ∉ s := List.count_eq_zero

theorem isChildPath_iff {p c : PyStr} : isChildPath p c = true ↔ ∃ name, '.' ∉ name ∧ c = p ++ '.' :: name := by
  unfold isChildPath
  rw [Bool.and_eq_true, decide_eq_true_eq, List.isPrefixOf_iff_prefix]
  constructor
  · rintro ⟨h1, name, rfl⟩
    refine ⟨name, ?_, by simp⟩
    rw [← dotCount_eq_zero]
    simp only [dotCount, List.count_append, List.count_singleton_self] at h1 ⊢
    omega
  · rintro ⟨name, h1, rfl⟩
    rw [← dotCount_eq_zero] at h1
    refine ⟨?_, name, by simp⟩
    simp only [dotCount, List.count_append, List.count_cons_self] at h1 ⊢
    omega

theorem isChildPath_unique {p q c : PyStr} (h1 : isChildPath p c = true) (h2 : isChildPath q c = true) : p = q := by
  obtain ⟨n1, hn1, rfl⟩ := isChildPath_iff.1 h1
  obtain ⟨n2, hn2, e⟩ := isChildPath_iff.1 h2
  have a := rsplitDot_dotted p hn1
  have b := rsplitDot_dotted q hn2
  have : dotted p n1 = dotted q n2 := e
  rw [this, b] at a
  exact (Prod.mk.inj (Option.some.inj a)).1.symm

theorem howMany_pos {α : Type} {l : List α} {P : α → Prop} {a : α} (ha : a ∈ l) (h : P a) : 0 < howMany l P := by
  unfold howMany
  exact List.length_pos_of_mem (List.mem_filter.2 ⟨ha, by simpa using h⟩)

theorem TypeAt.container {v : Value} {p : List PyStr} {t : DType} (h : TypeAt v p t) : v.dtype = .list ∨ v.dtype = .dict := by
  cases h <;> simp [Value.dtype]

theorem TypeAt.parent {v : Value} {p : List PyStr} {t : DType} (h : TypeAt v p t) : ∀ {q : List PyStr} {k : PyStr},
    p = q ++ [k] → q ≠ [] → ∃ c, (c = .list ∨ c = .dict) ∧ TypeAt v q c := by
  induction h with
  | @field d k v hm =>
    intro q k' e hq
    cases q with
    | nil => exact absurd rfl hq
    | cons a q => simp at e
  | @inField d k v p t hm h ih =>
    intro q k' e hq
    cases q with
    | nil => exact absurd rfl hq
    | cons a q =>
      simp only [List.cons_append, List.cons.injEq] at e
      obtain ⟨rfl, e⟩ := e
      cases q with
      | nil => exact ⟨_, h.container, .field hm⟩
      | cons b q =>
        obtain ⟨c, hc, h'⟩ := ih e (by simp)
        exact ⟨c, hc, .inField hm h'⟩
  | @elem l v hm =>
    intro q k' e hq
    cases q with
    | nil => exact absurd rfl hq
    | cons a q => simp at e
  | @inElem l v p t hm h ih =>
    intro q k' e hq
    cases q with
    | nil => exact absurd rfl hq
    | cons a q =>
      simp only [List.cons_append, List.cons.injEq] at e
      obtain ⟨rfl, e⟩ := e
      cases q with
      | nil => exact ⟨_, h.container, .elem hm⟩
      | cons b q =>
        obtain ⟨c, hc, h'⟩ := ih e (by simp)
        exact ⟨c, hc, .inElem hm h'⟩

theorem links_ok {δ : Type} {docs : List δ} {src : δ → Dict} {all : List (FieldCounts DType)}
    (hl : ListsFields DType.name docs (fun d => DataTypeAt (src d)) (sortFields all))
    (hw : ∀ d ∈ docs, (Value.dict (src d)).wf = true) (hf : ∀ d ∈ docs, FieldNames (.dict (src d))) :
    LinksFields ((sortFields all).map (linkField all)) := by
  have hperm := sortFields_perm all
  have hparent : ∀ f ∈ sortFields all, ∀ q, (linkField all f).parent = some q ↔ isChildPath q f.path = true := by
    intro f hfm q
    have hsound : ∀ q, (linkField all f).parent = some q → isChildPath q f.path = true := by
      intro q h
      obtain ⟨g, hg, rfl⟩ := Option.map_eq_some_iff.1 (show Option.map _ _ = some q from h)
      have := List.mem_of_getLast? hg
      rw [List.mem_filter, Bool.and_eq_true] at this
      exact this.2.2
    refine ⟨hsound q, fun h => ?_⟩
    obtain ⟨nm, hnm, e⟩ := isChildPath_iff.1 h
    obtain ⟨d, hd, p, t, ho, hp⟩ := (hl.paths f.path).1 (List.mem_map_of_mem hfm)
    obtain ⟨dt, ho, _⟩ := dataTypeAt_iff.1 ho
    have hdots := (ho.names (c := '#') (hw d hd) (hf d hd)).1
    obtain ⟨q', k, rfl⟩ : ∃ q' k, p = q' ++ [k] := ⟨p.dropLast, p.getLast ho.nonempty, (List.dropLast_append_getLast _).symm⟩
    have hq' : q' ≠ [] := by
      rintro rfl
      have hk := hdots k (by simp)
      have : pathText [k] = k := rfl
      rw [List.nil_append, this] at hp
      rw [hp, e] at hk
      exact hk (by simp)
    rw [pathText_snoc k hq', e] at hp
    have hsp := rsplitDot_dotted (pathText q') (hdots k (by simp))
    rw [hp] at hsp
    have hsp' := rsplitDot_dotted q hnm
    rw [dotted, hsp] at hsp'
    have hqe : pathText q' = q := (Prod.mk.inj (Option.some.inj hsp')).1
    obtain ⟨c, hc, ho'⟩ := ho.parent rfl hq'
    obtain ⟨g, hg, hgp⟩ := List.mem_map.1 ((hl.paths q).2 ⟨d, hd, q', c.name, dataTypeAt_iff.2 ⟨c, ho', rfl⟩, hqe⟩)
    have hcont : g.isContainer = true := by
      have hpos : 0 < g.countOf c := by
        rw [hl.types g hg c]
        exact howMany_pos hd ⟨q', dataTypeAt_iff.2 ⟨c, ho', rfl⟩, by rw [hqe, hgp]⟩
      unfold FieldCounts.isContainer
      rcases hc with rfl | rfl
      · simp [hpos]
      · simp [hpos]
    cases hpar : (linkField all f).parent with
    | some q2 => rw [isChildPath_unique (hsound q2 hpar) h]
    | none =>
      have hpar : Option.map _ _ = none := hpar
      rw [Option.map_eq_none_iff, List.getLast?_eq_none_iff, List.filter_eq_nil_iff] at hpar
      have := hpar g (hperm.mem_iff.1 hg)
      rw [hcont, hgp, h] at this
      exact absurd rfl this
  have hlisted : ∀ f ∈ sortFields all, ∀ q, (linkField all f).parent = some q →
      ∃ g ∈ sortFields all, g.path = q ∧ g.isContainer = true := by
    intro f hfm q h
    obtain ⟨g, hg, rfl⟩ := Option.map_eq_some_iff.1 (show Option.map _ _ = some q from h)
    have := List.mem_of_getLast? hg
    rw [List.mem_filter, Bool.and_eq_true] at this
    exact ⟨g, hperm.mem_iff.2 this.1, rfl, this.2.1⟩
  have hinj : ∀ f ∈ sortFields all, ∀ g ∈ sortFields all, f.path = g.path → f = g :=
    fun f hfm g hgm e => List.inj_on_of_nodup_map hl.once hfm hgm e
  refine ⟨?_, ?_, ?_, ?_⟩
  · intro f hfm q
    obtain ⟨f, hfm', rfl⟩ := List.mem_map.1 hfm
    clear hfm
    rename' hfm' => hfm
    rw [hparent f hfm q, isChildPath_iff]
    rfl
  · intro f hfm q h
    obtain ⟨f, hfm', rfl⟩ := List.mem_map.1 hfm
    clear hfm
    rename' hfm' => hfm
    obtain ⟨g, hg, e, _⟩ := hlisted f hfm q h
    exact ⟨_, List.mem_map_of_mem hg, e⟩
  · intro f hfm c
    obtain ⟨f, hfm', rfl⟩ := List.mem_map.1 hfm
    clear hfm
    rename' hfm' => hfm
    have hch : (linkField all f).children =
        if f.isContainer then (all.filter (fun c => isChildPath f.path c.path)).map FieldCounts.path else [] := rfl
    rw [hch]
    constructor
    · intro h
      split at h
      · obtain ⟨g, hg, rfl⟩ := List.mem_map.1 h
        rw [List.mem_filter] at hg
        have hgm := hperm.mem_iff.2 hg.1
        exact ⟨_, List.mem_map_of_mem hgm, rfl, (hparent g hgm f.path).2 hg.2⟩
      · cases h
    · rintro ⟨g, hg, rfl, h⟩
      obtain ⟨g, hg', rfl⟩ := List.mem_map.1 hg
      clear hg
      rename' hg' => hg
      have h : (linkField all g).parent = some f.path := h
      obtain ⟨f', hf', e, hc⟩ := hlisted g hg _ h
      rw [hinj f' hf' f hfm e] at hc
      rw [if_pos hc]
      exact List.mem_map.2 ⟨g, List.mem_filter.2 ⟨hperm.mem_iff.1 hg, (hparent g hg _).1 h⟩, rfl⟩
  · intro f hfm
    obtain ⟨f, hfm', rfl⟩ := List.mem_map.1 hfm
    clear hfm
    rename' hfm' => hfm
    have hch : (linkField all f).children =
        if f.isContainer then (all.filter (fun c => isChildPath f.path c.path)).map FieldCounts.path else [] := rfl
    rw [hch]
    split
    · have := (hperm.map FieldCounts.path).nodup_iff.1 hl.once
      exact this.sublist (List.filter_sublist.map _)
    · exact List.nodup_nil

theorem dtype_ofName (t : DType) : DType.ofName t.name = .ok t := by cases t <;> decide
theorem ptype_ofName (t : PType) : PType.ofName t.name = .ok t := by cases t <;> decide

theorem parseValue_types {E : ParseEnv} {o : ParsingOptions} {v : Value} {t : PyStr} (h : t ∈ akeys (parseValue E o v)) :
    ∃ pt : PType, t = pt.name := by
  rw [parseValue_eq', mem_asetOpt, mem_asetOpt, mem_asetOpt] at h
  rcases h with ((h | h) | h) | h
  · unfold valueBase at h
    dsimp only at h
    have hb : ∀ {a b c : Value} {t : PyStr}, t ∈ akeys [("_u".toList, a), ("_t".toList, b), ("_k".toList, c)] →
        ∃ pt : PType, t = pt.name := by
      intro a b c t ht
      simp only [akeys, List.map_cons, List.map_nil, List.mem_cons, List.not_mem_nil, or_false] at ht
      rcases ht with rfl | rfl | rfl
      exacts [⟨.unparsed, rfl⟩, ⟨.text, rfl⟩, ⟨.keyword, rfl⟩]
    split at h
    · rcases mem_akeys_aupdate.1 h with h | h
      · rw [akeys_geoDict] at h
        simp only [geoTypes, List.mem_cons, List.not_mem_nil, or_false] at h
        rcases h with rfl | rfl
        exacts [⟨.geoPoint, rfl⟩, ⟨.geoShape, rfl⟩]
      · exact hb h
    · exact hb h
  · exact ⟨.boolean, h.1⟩
  · exact ⟨.number, h.1⟩
  · exact ⟨.date, h.1⟩

theorem indexedAs_types {E : ParseEnv} {o : ParsingOptions} {v : Value} {p : List PyStr} {t : PyStr}
    (h : IndexedAs E o v p t) : ∃ pt : PType, t = pt.name := by
  have hgeo : ∀ {t : PyStr}, t ∈ ["_gp".toList, "_gs".toList] → ∃ pt : PType, t = pt.name := by
    intro t ht
    simp only [List.mem_cons, List.not_mem_nil, or_false] at ht
    rcases ht with rfl | rfl
    exacts [⟨.geoPoint, rfl⟩, ⟨.geoShape, rfl⟩]
  induction h with
  | scalar _ h => exact parseValue_types h
  | elem _ _ ih => exact ih
  | field _ _ ih => exact ih
  | geojson _ h => exact hgeo h
  | hint _ _ _ h => exact hgeo h

end Splitgill
