import Mathlib.Data.List.Basic
/-!
# Lemmas: what an LRU cache keeps
-/

namespace Splitgill

section
variable {K : Type} [BEq K] [LawfulBEq K] [DecidableEq K]

theorem eraseDups_filter (p : K → Bool) : ∀ (n : Nat) (l : List K), l.length ≤ n → (l.filter p).eraseDups = l.eraseDups.filter p
  | _, [], _ => by simp
  | 0, _ :: _, h => by simp at h
  | n + 1, a :: l, h => by
    have hl : (l.filter (fun b => !b == a)).length ≤ n := Nat.le_trans (List.length_filter_le _ _) (by simpa using h)
    rw [List.eraseDups_cons, List.filter_cons, List.filter_cons]
    split
    · rename_i hp
      rw [List.eraseDups_cons]
      congr 1
      rw [← eraseDups_filter p n _ hl, List.filter_filter, List.filter_filter]
      congr 1
      exact List.filter_congr (fun x _ => Bool.and_comm _ _)
    · rename_i hp
      rw [← eraseDups_filter p n _ hl, List.filter_filter]
      congr 1
      refine List.filter_congr (fun x _ => ?_)
      by_cases e : x = a
      · subst e; simpa using hp
      · simp [e]

/-- The different elements, with one more in front. -/
theorem eraseDups_cons_filter (k : K) (l : List K) : (k :: l).eraseDups = k :: l.eraseDups.filter (fun x => !decide (x = k)) := by
  rw [List.eraseDups_cons, eraseDups_filter _ _ _ (Nat.le_refl _)]
  congr 1
  exact List.filter_congr (fun x _ => by by_cases e : x = k <;> simp [e])

theorem take_filter_ne {k : K} : ∀ (n : Nat) (l : List K), k ∉ l.take n → (l.filter (fun x => !decide (x = k))).take n = l.take n
  | 0, _, _ => by simp
  | _ + 1, [], _ => by simp
  | n + 1, a :: l, h => by
    rw [List.take_succ_cons, List.mem_cons, not_or] at h
    rw [List.filter_cons, if_pos (by simp [Ne.symm h.1]), List.take_succ_cons, List.take_succ_cons, take_filter_ne n l h.2]

theorem nodup_filter_ne {k : K} {l : List K} (h : k ∉ l) : l.filter (fun x => !decide (x = k)) = l :=
  List.filter_eq_self.2 (fun x hx => by simp; rintro rfl; exact h hx)

theorem take_filter_mem {k : K} : ∀ (n : Nat) (l : List K), l.Nodup → k ∈ l.take (n + 1) →
    (l.take (n + 1)).filter (fun x => !decide (x = k)) = (l.filter (fun x => !decide (x = k))).take n
  | n, [], _, h => by simp at h
  | n, a :: l, hd, h => by
    rw [List.nodup_cons] at hd
    rw [List.take_succ_cons] at h ⊢
    by_cases e : a = k
    · subst e
      rw [List.filter_cons, if_neg (by simp), List.filter_cons, if_neg (by simp), nodup_filter_ne hd.1,
        nodup_filter_ne (fun hm => hd.1 (List.mem_of_mem_take hm))]
    · rw [List.filter_cons, if_pos (by simp [e]), List.filter_cons, if_pos (by simp [e])]
      rcases List.mem_cons.1 h with rfl | h
      · exact absurd rfl e
      cases n with
      | zero => simp at h
      | succ n => rw [List.take_succ_cons, take_filter_mem n l hd.2 h]

theorem nodup_eraseDups : ∀ (n : Nat) (l : List K), l.length ≤ n → l.eraseDups.Nodup
  | _, [], _ => by simp
  | 0, _ :: _, h => by simp at h
  | n + 1, a :: l, h => by
    rw [eraseDups_cons_filter, List.nodup_cons]
    exact ⟨by simp, (nodup_eraseDups n l (by simpa using h)).filter _⟩

/-- A hit of the cache. -/
theorem lru_hit {k : K} {l : List K} {size : Nat} (h : k ∈ l.eraseDups.take size) :
    k :: (l.eraseDups.take size).filter (fun x => !decide (x = k)) = (k :: l).eraseDups.take size := by
  cases size with
  | zero => simp at h
  | succ n =>
    rw [eraseDups_cons_filter, List.take_succ_cons, take_filter_mem n _ (nodup_eraseDups _ _ (Nat.le_refl _)) h]

/-- A miss. -/
theorem lru_miss {k : K} {l : List K} {size : Nat} (h : k ∉ l.eraseDups.take size) :
    (k :: l.eraseDups.take size).take size = (k :: l).eraseDups.take size := by
  cases size with
  | zero => simp
  | succ n =>
    rw [eraseDups_cons_filter, List.take_succ_cons, List.take_succ_cons, List.take_take]
    rw [take_filter_ne n _ (fun hm => h ?_)]
    · congr 2; omega
    · exact (List.take_subset_take_left _ (Nat.le_succ n)) hm

end
end Splitgill
