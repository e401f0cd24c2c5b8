import Verif.Proof.Search2
/-!
# Lemmas: what searches find, in terms of the histories
-/

namespace Splitgill

section
variable {P : Type} {X : Parser P} {es : ES P} {rs : List MongoRecord} {D : MongoRecord → List (Doc P)}

theorem Indexed.found_latest (h : Indexed X es rs D) : ∃ b, ∀ v, b ≤ v → Splitgill.found es (.version v) = Splitgill.found es .latest := by
  cases hv : es.version with
  | none =>
    have e0 := version_none.1 hv
    have e1 : Splitgill.found es .latest = [] := by
      have := (all_perm h.ok.indices)
      rw [e0] at this
      have := List.nil_perm.1 this
      exact (List.append_eq_nil_iff.1 this).1
    refine ⟨0, fun v _ => ?_⟩
    rw [e1]
    have := h.found v
    rw [e0] at this
    exact List.perm_nil.1 this
  | some cur =>
    refine ⟨cur, fun v hle => ?_⟩
    unfold Splitgill.found ES.search
    rw [hv]
    simp only [if_pos hle]

theorem exists_bound (l : List Int) : ∃ b, ∀ x ∈ l, x ≤ b := by
  induction l with
  | nil => exact ⟨0, by simp⟩
  | cons a l ih =>
    obtain ⟨b, hb⟩ := ih
    refine ⟨max a b, fun x hx => ?_⟩
    rcases List.mem_cons.1 hx with rfl | hx
    · omega
    · have := hb x hx; omega

theorem Newest.asOf {α : Type} {l : List (Int × α)} {x : α} (h : Newest l x) {v : Int} (hv : ∀ w ∈ l.map Prod.fst, w ≤ v) :
    AsOf l v x := by
  obtain ⟨w, h1, h2⟩ := h
  exact ⟨w, h1, hv w (List.mem_map_of_mem h1), fun w' y hm _ => h2 w' y hm⟩

end

/-! ## Filters on several indices -/

theorem matchesAny_iff {P : Type} {i : PyStr} {d : Doc P} : ∀ {qs : List VQuery},
    matchesAny qs i d = true ↔ ∃ q ∈ qs, q.matches i d = true
  | [] => by simp [matchesAny]
  | q :: qs => by
    rw [matchesAny, Bool.or_eq_true, matchesAny_iff]
    simp

theorem anyOf_matches {P : Type} {i : PyStr} {d : Doc P} {qs : List VQuery} (h : qs ≠ []) :
    (VQuery.anyOf qs).matches i d = true ↔ ∃ q ∈ qs, q.matches i d = true := by
  cases qs with
  | nil => exact absurd rfl h
  | cons q qs =>
    rw [VQuery.matches, Bool.or_eq_true, matchesAny_iff]
    simp

theorem groupByVersion_one {v : Int} : ∀ (m : List (PyStr × Int)) (l : List PyStr), (∀ a ∈ m, a.2 = v) →
    m.foldl (fun acc iv => aset iv.2 ((aget iv.2 acc).getD [] ++ [iv.1]) acc) [(v, l)] = [(v, l ++ m.map Prod.fst)]
  | [], l, _ => by simp
  | (j, w) :: m, l, h => by
    have hw : w = v := h (j, w) List.mem_cons_self
    subst hw
    have : aset w ((aget w [(w, l)]).getD [] ++ [j]) [(w, l)] = [(w, l ++ [j])] := by simp [aset, aget]
    rw [List.foldl_cons, this, groupByVersion_one m _ (fun a ha => h a (List.mem_cons_of_mem _ ha))]
    simp

theorem groupByVersion_spec : ∀ (m : List (PyStr × Int)) (acc : List (Int × List PyStr)) , (akeys acc).Nodup →
    (akeys (m.foldl (fun acc iv => aset iv.2 ((aget iv.2 acc).getD [] ++ [iv.1]) acc) acc)).Nodup ∧
    ∀ v i, (∃ is, aget v (m.foldl (fun acc iv => aset iv.2 ((aget iv.2 acc).getD [] ++ [iv.1]) acc) acc) = some is ∧ i ∈ is) ↔
      (i, v) ∈ m ∨ ∃ is, aget v acc = some is ∧ i ∈ is
  | [], acc, h => ⟨h, by simp⟩
  | (j, w) :: m, acc, h => by
    obtain ⟨h1, h2⟩ := groupByVersion_spec m (aset w ((aget w acc).getD [] ++ [j]) acc) (nodup_aset h)
    refine ⟨h1, fun v i => ?_⟩
    rw [List.foldl_cons, h2 v i]
    simp only [aget_aset, List.mem_cons, Prod.mk.injEq]
    by_cases hv : v = w
    · subst hv
      simp only [if_true, Option.some.injEq, exists_eq_left', List.mem_append, List.mem_singleton, and_true]
      cases aget v acc with
      | none => simp; tauto
      | some is => simp; tauto
    · simp only [hv, if_false, and_false, false_or]

end Splitgill
