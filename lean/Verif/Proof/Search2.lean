import Verif.Proof.Search
/-!
# Lemmas: versions in the indices and how many records change
-/

namespace Splitgill

section
variable {P : Type} {X : Parser P} {es : ES P} {rs : List MongoRecord} {D : MongoRecord → List (Doc P)}

/-! ## Counting documents -/

theorem countP_unique {α : Type} {p : α → Bool} {l : List α} (h : l.Pairwise (fun a b => ¬ (p a = true ∧ p b = true))) :
    l.countP p = if l.any p then 1 else 0 := by
  by_cases ha : l.any p = true
  · rw [if_pos ha]
    obtain ⟨x, hx, hp⟩ := List.any_eq_true.1 ha
    rw [List.countP_eq_length_filter, filter_unique h hx hp]; rfl
  · rw [if_neg ha, List.countP_eq_zero]
    intro a hm hp
    exact ha (List.any_eq_true.2 ⟨a, hm, hp⟩)

theorem countP_flatMap_unique {α β : Type} {p : β → Bool} {f : α → List β} : ∀ {l : List α},
    (∀ a ∈ l, (f a).Pairwise (fun x y => ¬ (p x = true ∧ p y = true))) →
    (l.flatMap f).countP p = l.countP (fun a => (f a).any p)
  | [], _ => rfl
  | a :: l, h => by
    rw [List.flatMap_cons, List.countP_append, countP_unique (h a (by simp)), List.countP_cons,
      countP_flatMap_unique (fun b hb => h b (by simp [hb]))]
    omega

/-- Whether a document of the record starts at `v`. -/
def startsAt (D : MongoRecord → List (Doc P)) (v : Int) (r : MongoRecord) : Bool :=
  (D r).any (fun d => decide (v ∈ [d.version]))
/-- Whether a document of the record ends at `v`. -/
def endsAt (D : MongoRecord → List (Doc P)) (v : Int) (r : MongoRecord) : Bool :=
  (D r).any (fun d => decide (v ∈ d.next.toList))

theorem startsAt_iff {v : Int} {r : MongoRecord} : startsAt D v r = true ↔ ∃ d ∈ D r, d.version = v := by
  unfold startsAt
  simp only [List.any_eq_true, decide_eq_true_eq, List.mem_singleton]
  exact ⟨fun ⟨d, h, e⟩ => ⟨d, h, e.symm⟩, fun ⟨d, h, e⟩ => ⟨d, h, e.symm⟩⟩

theorem endsAt_iff {v : Int} {r : MongoRecord} : endsAt D v r = true ↔ ∃ d ∈ D r, d.next = some v := by
  unfold endsAt
  simp only [List.any_eq_true, decide_eq_true_eq, Option.mem_toList]

theorem Indexed.count_starts (h : Indexed X es rs D) (v : Int) :
    (versionValues es.all).countP (fun d => decide (v ∈ d)) = rs.countP (startsAt D v) := by
  unfold versionValues
  rw [List.countP_map, h.perm.countP_eq]
  refine countP_flatMap_unique (fun r hr => ?_)
  refine (h.ordered r hr).imp ?_
  intro a b hlt
  simp only [Function.comp_apply, List.mem_singleton, decide_eq_true_eq]
  omega

theorem Indexed.count_ends (h : Indexed X es rs D) (v : Int) :
    (nextValues es.all).countP (fun d => decide (v ∈ d)) = rs.countP (endsAt D v) := by
  unfold nextValues
  rw [List.countP_map, h.perm.countP_eq]
  refine countP_flatMap_unique (fun r hr => ?_)
  refine List.Pairwise.imp_of_mem ?_ (h.disjoint r hr)
  intro a b ha hb hd
  simp only [Function.comp_apply, Option.mem_toList, decide_eq_true_eq]
  rintro ⟨e1, e2⟩
  rw [(h.fields r hr a ha).2.2] at e1
  rw [(h.fields r hr b hb).2.2] at e2
  exact hd (v - 1) ⟨h.covers_end hr ha e1, h.covers_end hr hb e2⟩

/-! ## `get_version_changed_counts` -/

theorem buckets_nodup (docs : List (List Int)) : (akeys (buckets docs)).Nodup := by
  unfold akeys
  exact (List.pairwise_map.2 (buckets_sorted docs)).imp (fun h => by omega)

theorem aget_buckets (docs : List (List Int)) (v : Int) :
    aget v (buckets docs) = if docs.countP (fun d => decide (v ∈ d)) = 0 then none
      else some (docs.countP (fun d => decide (v ∈ d))) := by
  by_cases h0 : docs.countP (fun d => decide (v ∈ d)) = 0
  · rw [if_pos h0, aget_eq_none_iff]
    intro hm
    obtain ⟨⟨k, n⟩, hk, rfl⟩ := List.mem_map.1 hm
    obtain ⟨⟨d, hd, hv⟩, _⟩ := mem_buckets.1 hk
    have := List.countP_eq_zero.1 h0 d hd
    exact this (by simpa using hv)
  · rw [if_neg h0, aget_iff_mem (buckets_nodup docs), mem_buckets]
    refine ⟨?_, rfl⟩
    obtain ⟨d, hd, hv⟩ := List.countP_pos_iff.1 (Nat.pos_of_ne_zero h0)
    exact ⟨d, hd, by simpa using hv⟩

theorem changedCounts_eq (es : ES P) : es.changedCounts =
    some (aupdate (aofList (buckets (versionValues es.all))) (buckets (nextValues es.all))) := by
  unfold ES.changedCounts
  have e : (es.search .all).run es = es.all := rfl
  dsimp only
  rw [e, iterTerms_eq _ (by decide : 1 ≤ defaultChunk), iterTerms_eq _ (by decide : 1 ≤ defaultChunk)]
  rfl

theorem aget_aofList {α : Type} {l : List (Int × α)} (hn : (akeys l).Nodup) (k : Int) : aget k (aofList l) = aget k l := by
  have := aget_aupdate k l [] hn
  unfold aofList
  rw [this]
  cases aget k l <;> rfl

theorem Indexed.changedCounts (h : Indexed X es rs D) : ∃ c, es.changedCounts = some c ∧ (akeys c).Nodup ∧ ∀ v,
    aget v c = if rs.countP (endsAt D v) = 0 then
        (if rs.countP (startsAt D v) = 0 then none else some (rs.countP (startsAt D v)))
      else some (rs.countP (endsAt D v)) := by
  refine ⟨_, changedCounts_eq es, nodup_aupdate (nodup_aofList _), fun v => ?_⟩
  rw [aget_aupdate _ _ _ (buckets_nodup _), aget_aofList (buckets_nodup _), aget_buckets, aget_buckets, h.count_starts,
    h.count_ends]
  by_cases h0 : rs.countP (endsAt D v) = 0
  · rw [if_pos h0, if_pos h0]; rfl
  · rw [if_neg h0, if_neg h0]; rfl

theorem countP_or {α : Type} (p q : α → Bool) (l : List α) :
    l.countP (fun a => p a || q a) = l.countP q + l.countP (fun a => p a && !q a) := by
  induction l with
  | nil => rfl
  | cons a l ih =>
    simp only [List.countP_cons, ih]
    cases p a <;> cases q a <;> simp <;> omega

theorem Indexed.count_changed (h : Indexed X es rs D) (hrefl : ∀ d ∈ es.all, X.eq d.parsed d.parsed = true) (v : Int) :
    rs.countP (fun r => changedAt X es v r.id) = rs.countP (endsAt D v) + rs.countP (fun r => addedAt es v r.id) := by
  have e1 : rs.countP (fun r => changedAt X es v r.id) = rs.countP (fun r => startsAt D v r || endsAt D v r) :=
    List.countP_congr (fun r hr => by
      rw [h.changedAt_iff hrefl hr, Bool.or_eq_true, startsAt_iff, endsAt_iff])
  have e2 : rs.countP (fun r => addedAt es v r.id) = rs.countP (fun r => startsAt D v r && !endsAt D v r) :=
    List.countP_congr (fun r hr => by
      rw [h.addedAt_iff hr, Bool.and_eq_true, startsAt_iff, Bool.not_eq_true', ← Bool.not_eq_true, endsAt_iff])
  rw [e1, e2, countP_or]

/-- The reported count: the changed records, without the added ones if there are others. -/
theorem Indexed.counts (h : Indexed X es rs D) (hrefl : ∀ d ∈ es.all, X.eq d.parsed d.parsed = true) : ∃ c, es.changedCounts = some c ∧
    (akeys c).Nodup ∧ ∀ v, aget v c =
      if rs.countP (fun r => changedAt X es v r.id) = 0 then none
      else if rs.countP (fun r => changedAt X es v r.id) = rs.countP (fun r => addedAt es v r.id) then
        some (rs.countP (fun r => addedAt es v r.id))
      else some (rs.countP (fun r => changedAt X es v r.id) - rs.countP (fun r => addedAt es v r.id)) := by
  obtain ⟨c, h1, h2, h3⟩ := h.changedCounts
  refine ⟨c, h1, h2, fun v => ?_⟩
  rw [h3 v, h.count_changed hrefl v]
  by_cases h0 : rs.countP (endsAt D v) = 0
  · have e : rs.countP (fun r => addedAt es v r.id) = rs.countP (startsAt D v) := by
      refine List.countP_congr (fun r hr => ?_)
      rw [h.addedAt_iff hr, startsAt_iff]
      have := List.countP_eq_zero.1 h0 r hr
      rw [endsAt_iff] at this
      exact ⟨fun h => h.1, fun h => ⟨h, this⟩⟩
    rw [if_pos h0, h0, e, Nat.zero_add]
    by_cases h1 : rs.countP (startsAt D v) = 0
    · rw [if_pos h1, if_pos h1]
    · rw [if_neg h1, if_neg h1, if_pos rfl]
  · rw [if_neg h0, if_neg (by omega), if_neg (by omega)]
    congr 1; omega

/-! ## `get_versions`, `get_rounded_version` -/

theorem Indexed.versions (h : Indexed X es rs D) : ∃ vs, es.versions = some vs ∧ vs.Pairwise (· < ·) ∧
    ∀ v, v ∈ vs ↔ ∃ r ∈ rs, (∃ d ∈ D r, d.version = v) ∨ ∃ d ∈ D r, d.next = some v := by
  obtain ⟨c, h1, h2, h3⟩ := h.changedCounts
  refine ⟨sortAsc (akeys c), by unfold ES.versions; rw [h1]; rfl, ?_, fun v => ?_⟩
  · have hs := sortBy_pairwise (le := fun a b : Int => decide (a ≤ b)) (by intro a b h; simp at *; omega)
      (by intro a b c h1 h2; simp at *; omega) (akeys c)
    have hn : (sortAsc (akeys c)).Nodup := (sortBy_perm _ _).nodup_iff.2 h2
    refine (hs.and hn).imp ?_
    rintro a b ⟨hab, hne⟩
    simp only [decide_eq_true_eq] at hab
    omega
  · have e : v ∈ sortAsc (akeys c) ↔ v ∈ akeys c := (sortBy_perm _ _).mem_iff
    rw [e, ← aget_isSome_iff, h3 v]
    constructor
    · intro hs
      by_cases h0 : rs.countP (endsAt D v) = 0
      · rw [if_pos h0] at hs
        by_cases h0' : rs.countP (startsAt D v) = 0
        · rw [if_pos h0'] at hs; cases hs
        · obtain ⟨r, hr, hp⟩ := List.countP_pos_iff.1 (Nat.pos_of_ne_zero h0')
          exact ⟨r, hr, .inl (startsAt_iff.1 hp)⟩
      · obtain ⟨r, hr, hp⟩ := List.countP_pos_iff.1 (Nat.pos_of_ne_zero h0)
        exact ⟨r, hr, .inr (endsAt_iff.1 hp)⟩
    · rintro ⟨r, hr, hp⟩
      by_cases h0 : rs.countP (endsAt D v) = 0
      · rw [if_pos h0]
        rcases hp with hp | hp
        · rw [if_neg (Nat.ne_of_gt (List.countP_pos_iff.2 ⟨r, hr, startsAt_iff.2 hp⟩))]; rfl
        · exact absurd (endsAt_iff.2 hp) (List.countP_eq_zero.1 h0 r hr)
      · rw [if_neg h0]; rfl

theorem bisect_spec : ∀ {vs : List Int} {v : Int}, vs.Pairwise (· < ·) → (∃ w ∈ vs, w ≤ v) →
    ∃ w, vs[bisectRight vs v - 1]? = some w ∧ w ∈ vs ∧ w ≤ v ∧ ∀ w' ∈ vs, w' ≤ v → w' ≤ w
  | [], v, _, h => by obtain ⟨w, h, _⟩ := h; cases h
  | x :: vs, v, hs, h => by
    rw [List.pairwise_cons] at hs
    have hx : x ≤ v := by
      obtain ⟨w, hw, hle⟩ := h
      rcases List.mem_cons.1 hw with rfl | hw
      · exact hle
      · have := hs.1 w hw; omega
    have e : bisectRight (x :: vs) v = bisectRight vs v + 1 := by
      unfold bisectRight
      rw [List.takeWhile_cons_of_pos (by simpa using hx)]; rfl
    rw [e, Nat.add_sub_cancel]
    by_cases hv : ∃ w ∈ vs, w ≤ v
    · obtain ⟨w, h1, h2, h3, h4⟩ := bisect_spec hs.2 hv
      have hpos : 1 ≤ bisectRight vs v := by
        cases vs with
        | nil => cases h2
        | cons y ys =>
          have : y ≤ v := by
            obtain ⟨w, hw, hle⟩ := hv
            rcases List.mem_cons.1 hw with rfl | hw
            · exact hle
            · have := (List.pairwise_cons.1 hs.2).1 w hw; omega
          unfold bisectRight
          rw [List.takeWhile_cons_of_pos (by simpa using this)]; simp
      refine ⟨w, ?_, by simp [h2], h3, ?_⟩
      · obtain ⟨k, hk⟩ : ∃ k, bisectRight vs v = k + 1 := ⟨_, (Nat.sub_add_cancel hpos).symm⟩
        rw [hk] at h1 ⊢
        exact h1
      · intro w' hw' hle
        rcases List.mem_cons.1 hw' with rfl | hw'
        · exact Int.le_of_lt (hs.1 w h2)
        · exact h4 w' hw' hle
    · have e0 : bisectRight vs v = 0 := by
        unfold bisectRight
        cases vs with
        | nil => rfl
        | cons y ys =>
          rw [List.takeWhile_cons_of_neg (by simp only [decide_eq_true_eq]; exact fun hy => hv ⟨y, by simp, hy⟩)]; rfl
      rw [e0]
      refine ⟨x, rfl, by simp, hx, ?_⟩
      intro w' hw' hle
      rcases List.mem_cons.1 hw' with rfl | hw'
      · exact Int.le_refl _
      · exact absurd ⟨w', hw', hle⟩ hv

theorem rounded_spec {vs : List Int} (h : es.versions = some vs) (hs : vs.Pairwise (· < ·)) (v : Int) :
    ((∀ w ∈ vs, v < w) ∧ es.roundedVersion v = some none) ∨
    ∃ w, es.roundedVersion v = some (some w) ∧ w ∈ vs ∧ w ≤ v ∧ ∀ w' ∈ vs, w' ≤ v → w' ≤ w := by
  unfold ES.roundedVersion
  rw [h]
  by_cases hv : ∃ w ∈ vs, w ≤ v
  · obtain ⟨w, h1, h2⟩ := bisect_spec hs hv
    refine .inr ⟨w, ?_, h2⟩
    cases vs with
    | nil => obtain ⟨_, h, _⟩ := hv; cases h
    | cons x vs =>
      have hx : ¬ v < x := by
        obtain ⟨w, hw, hle⟩ := hv
        rcases List.mem_cons.1 hw with rfl | hw
        · omega
        · have := (List.pairwise_cons.1 hs).1 w hw; omega
      simp only [Option.map_some, if_neg hx, h1]
  · refine .inl ⟨fun w hw => ?_, ?_⟩
    · exact Int.not_le.1 (fun hle => hv ⟨w, hw, hle⟩)
    · cases vs with
      | nil => rfl
      | cons x vs =>
        have hx : v < x := Int.not_le.1 (fun hle => hv ⟨x, by simp, hle⟩)
        simp only [Option.map_some, if_pos hx]

/-- Between the versions searches find the same. -/
theorem Indexed.found_same (h : Indexed X es rs D) {v w : Int} (hwv : w ≤ v)
    (hno : ∀ r ∈ rs, ∀ d ∈ D r, ∀ u, (d.version = u ∨ d.next = some u) → u ≤ v → u ≤ w) :
    (Splitgill.found es (.version w)).Perm (Splitgill.found es (.version v)) := by
  refine (h.found w).trans (List.Perm.trans ?_ (h.found v).symm)
  apply List.Perm.of_eq
  apply List.filter_congr
  intro d hd
  obtain ⟨r, hr, hd⟩ := h.mem_all.1 hd
  have hno := hno r hr d hd
  have hf := (h.fields r hr d hd).2
  rw [Bool.eq_iff_iff, inRange_iff, inRange_iff]
  constructor
  · rintro ⟨h1, h2⟩
    refine ⟨by omega, fun e he => ?_⟩
    have := h2 e he
    by_cases hev : v < e
    · exact hev
    · have := hno e (.inr (by rw [hf.2]; exact he)) (by omega); omega
  · rintro ⟨h1, h2⟩
    refine ⟨?_, fun e he => ?_⟩
    · have := hno d.gte (.inl hf.1) h1; omega
    · have := h2 e he; omega

theorem Indexed.found_nil (h : Indexed X es rs D) {v : Int}
    (hno : ∀ r ∈ rs, ∀ d ∈ D r, v < d.version) : Splitgill.found es (.version v) = [] := by
  have := h.found v
  rw [List.filter_eq_nil_iff.2] at this
  · exact List.perm_nil.1 this
  · intro d hd
    obtain ⟨r, hr, hd⟩ := h.mem_all.1 hd
    rw [inRange_iff]
    intro hc
    have := hno r hr d hd
    rw [(h.fields r hr d hd).2.1] at this
    have := hc.1
    omega

end
end Splitgill
