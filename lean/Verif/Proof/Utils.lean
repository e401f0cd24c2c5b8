import Verif.Model.Utils
/-!
# Lemmas about `partition`
-/

namespace Splitgill

theorem partitionLoop_flatten {α : Type} {size : Nat} (hs : 1 ≤ size) : ∀ (fuel : Nat) (l : List α),
    l.length < fuel → (partitionLoop size fuel l).flatten = l
  | 0, _, h => by omega
  | fuel + 1, l, h => by
    unfold partitionLoop
    dsimp only
    split
    · rename_i hc
      cases l with
      | nil => rfl
      | cons x l => cases size with
        | zero => omega
        | succ n => simp at hc
    · rename_i hc
      have hl : l ≠ [] := by rintro rfl; simp at hc
      have : 0 < l.length := List.length_pos_iff.mpr hl
      rw [List.flatten_cons, partitionLoop_flatten hs fuel _ (by simp; omega), List.take_append_drop]

theorem partitionLoop_chunks {α : Type} {size : Nat} : ∀ (fuel : Nat) (l : List α),
    ∀ c ∈ partitionLoop size fuel l, c ≠ [] ∧ c.length ≤ size
  | 0, _, c, h => by simp [partitionLoop] at h
  | fuel + 1, l, c, h => by
    unfold partitionLoop at h
    dsimp only at h
    split at h
    · simp at h
    · rename_i hc
      rw [List.mem_cons] at h
      rcases h with rfl | h
      · exact ⟨by simpa using hc, List.length_take_le _ _⟩
      · exact partitionLoop_chunks fuel _ c h

theorem partitionLoop_full {α : Type} {size : Nat} : ∀ (fuel : Nat) (l : List α),
    ∀ c ∈ (partitionLoop size fuel l).dropLast, c.length = size
  | 0, _, c, h => by simp [partitionLoop] at h
  | fuel + 1, l, c, h => by
    unfold partitionLoop at h
    dsimp only at h
    split at h
    · simp at h
    · cases hr : partitionLoop size fuel (l.drop size) with
      | nil => rw [hr] at h; simp at h
      | cons x xs =>
        rw [hr, List.dropLast_cons_cons, List.mem_cons] at h
        rcases h with rfl | h
        · have hx := (partitionLoop_chunks fuel (l.drop size) x (by rw [hr]; simp)).1
          have : l.drop size ≠ [] := by
            intro e; rw [e] at hr
            cases fuel with
            | zero => simp [partitionLoop] at hr
            | succ n => simp [partitionLoop] at hr
          have : 0 < (l.drop size).length := List.length_pos_iff.mpr this
          simp at this
          simp; omega
        · exact partitionLoop_full fuel (l.drop size) c (by rw [hr]; exact h)

theorem partition_flatten {α : Type} {size : Nat} (hs : 1 ≤ size) (l : List α) :
    (partition l size).flatten = l := partitionLoop_flatten hs _ _ (by omega)

end Splitgill
