import Verif.Model.Search
import Verif.Proof.History
/-!
# Lemmas: `iter_terms`
-/

namespace Splitgill

section
variable {α : Type} [LinearOrder α]

theorem buckets_keys (docs : List (List α)) :
    (buckets docs).map Prod.fst = sortBy (fun a b => decide (a ≤ b)) docs.flatten.dedup := by
  unfold buckets
  rw [List.map_map]
  exact List.map_id _

theorem buckets_sorted (docs : List (List α)) : (buckets docs).Pairwise (fun a b => a.1 < b.1) := by
  rw [← List.pairwise_map (f := Prod.fst) (R := (· < ·)), buckets_keys]
  have h1 := sortBy_pairwise (le := fun a b : α => decide (a ≤ b)) (by
    intro a b h; simp only [decide_eq_false_iff_not, decide_eq_true_eq] at h ⊢; exact le_of_lt (not_le.1 h)) (by
    intro a b c; simp only [decide_eq_true_eq]; exact le_trans) docs.flatten.dedup
  have h2 : (sortBy (fun a b : α => decide (a ≤ b)) docs.flatten.dedup).Nodup :=
    (sortBy_perm _ _).nodup_iff.2 (List.nodup_dedup _)
  refine (h1.and h2).imp ?_
  rintro a b ⟨h, hne⟩
  exact lt_of_le_of_ne (by simpa using h) hne

theorem mem_buckets {docs : List (List α)} {a : α} {n : Nat} :
    (a, n) ∈ buckets docs ↔ (∃ d ∈ docs, a ∈ d) ∧ n = docs.countP (fun d => decide (a ∈ d)) := by
  unfold buckets
  simp only [List.mem_map, Prod.mk.injEq]
  constructor
  · rintro ⟨x, hx, rfl, rfl⟩
    rw [(sortBy_perm _ _).mem_iff, List.mem_dedup, List.mem_flatten] at hx
    exact ⟨hx, rfl⟩
  · rintro ⟨h, rfl⟩
    exact ⟨a, by rw [(sortBy_perm _ _).mem_iff, List.mem_dedup, List.mem_flatten]; exact h, rfl, rfl⟩

theorem buckets_length (docs : List (List α)) : (buckets docs).length ≤ docs.flatten.length := by
  unfold buckets
  rw [List.length_map, (sortBy_perm _ _).length_eq]
  exact (List.dedup_sublist _).length_le

/-- The buckets after a key. -/
def bucketsAfter (docs : List (List α)) (after : Option α) : List (α × Nat) :=
  (buckets docs).filter (fun b => match after with | none => true | some a => decide (a < b.1))

theorem bucketsPage_eq (docs : List (List α)) (size : Nat) (after : Option α) :
    bucketsPage docs size after = (bucketsAfter docs after).take size := rfl

theorem bucketsAfter_last {docs : List (List α)} {size : Nat} {after : Option α} {last : α × Nat}
    (h : ((bucketsAfter docs after).take size).getLast? = some last) :
    bucketsAfter docs (some last.1) = (bucketsAfter docs after).drop size := by
  have hs : (bucketsAfter docs after).Pairwise (fun a b => a.1 < b.1) := (buckets_sorted docs).filter _
  have hmem : last ∈ (bucketsAfter docs after).take size := List.mem_of_getLast? h
  have hgt : ∀ b : α × Nat, last.1 < b.1 → (match after with | none => true | some a => decide (a < b.1)) = true := by
    intro b hb
    have hl := (List.mem_filter.1 (List.mem_of_mem_take hmem)).2
    cases after with
    | none => rfl
    | some a =>
      simp only [decide_eq_true_eq] at hl ⊢
      exact lt_trans hl hb
  have e1 : bucketsAfter docs (some last.1) = (bucketsAfter docs after).filter (fun b => decide (last.1 < b.1)) := by
    unfold bucketsAfter
    rw [List.filter_filter]
    apply List.filter_congr
    intro b _
    dsimp only
    by_cases hb : last.1 < b.1
    · rw [decide_eq_true hb, hgt b hb]; rfl
    · rw [decide_eq_false hb]; rfl
  rw [e1]
  conv_lhs => rw [← List.take_append_drop size (bucketsAfter docs after)]
  rw [List.filter_append]
  rw [← List.take_append_drop size (bucketsAfter docs after), List.pairwise_append] at hs
  have e2 : ((bucketsAfter docs after).take size).filter (fun b => decide (last.1 < b.1)) = [] := by
    rw [List.filter_eq_nil_iff]
    intro b hb
    obtain ⟨pre, hpre⟩ := List.getLast?_eq_some_iff.1 h
    rw [hpre] at hb
    have hs1 := hs.1
    rw [hpre, List.pairwise_append] at hs1
    rcases List.mem_append.1 hb with hb | hb
    · simpa using le_of_lt (hs1.2.2 b hb last (by simp))
    · rw [List.mem_singleton.1 hb]; simp
  rw [e2, List.nil_append, List.filter_eq_self]
  intro b hb
  simpa using hs.2.2 last hmem b hb

theorem iterTermsN_eq (docs : List (List α)) {size : Nat} (hsize : 1 ≤ size) : ∀ (n : Nat) (after : Option α),
    (bucketsAfter docs after).length < n → iterTermsN docs size n after = some (bucketsAfter docs after)
  | 0, _, h => absurd h (Nat.not_lt_zero _)
  | n + 1, after, h => by
    unfold iterTermsN
    rw [bucketsPage_eq]
    cases hl : ((bucketsAfter docs after).take size).getLast? with
    | none =>
      dsimp only
      rw [List.getLast?_eq_none_iff, List.take_eq_nil_iff] at hl
      rcases hl with hl | hl
      · omega
      · rw [hl]
    | some last =>
      dsimp only
      have e := bucketsAfter_last hl
      have hne : bucketsAfter docs after ≠ [] := by
        intro h0; rw [h0] at hl; simp at hl
      have hpos : 0 < (bucketsAfter docs after).length := List.length_pos_of_ne_nil hne
      rw [iterTermsN_eq docs hsize n (some last.1) (by rw [e, List.length_drop]; omega), e]
      simp only [Option.map_some, List.take_append_drop]

theorem bucketsAfter_none (docs : List (List α)) : bucketsAfter docs none = buckets docs := by
  unfold bucketsAfter; simp

theorem iterTerms_eq (docs : List (List α)) {size : Nat} (hsize : 1 ≤ size) :
    iterTerms docs size = some (buckets docs) := by
  unfold iterTerms
  rw [iterTermsN_eq docs hsize _ none (by rw [bucketsAfter_none]; have := buckets_length docs; omega), bucketsAfter_none]

end
end Splitgill
