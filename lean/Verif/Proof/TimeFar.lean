import Verif.Proof.Time3
/-!
# Timestamps up to the year 9999
-/

namespace Splitgill

theorem far_seconds {us : ℕ} (h0 : 0 < us) (h : us < 2 ^ 38 * 10 ^ 6) :
    0 < flSeconds us ∧ |(us : ℚ) / 10 ^ 6 - flSeconds us| ≤ 1 / 2 ^ 16 ∧ flSeconds us < 2 ^ 38 + 1 := by
  have hus : (0 : ℚ) < us := by exact_mod_cast h0
  have hx : (0 : ℚ) < (us : ℚ) / 10 ^ 6 := by positivity
  have hlt : (us : ℚ) / 10 ^ 6 < 2 ^ (38 : ℤ) := by
    have : (us : ℚ) < 2 ^ 38 * 10 ^ 6 := by exact_mod_cast h
    rw [div_lt_iff₀ (by norm_num)]
    exact_mod_cast this
  have hu : (2 : ℚ) ^ flExp ((us : ℚ) / 10 ^ 6) ≤ 1 / 2 ^ 15 := by
    have := flExp_le hx hlt
    calc (2 : ℚ) ^ flExp ((us : ℚ) / 10 ^ 6) ≤ 2 ^ (-15 : ℤ) := zpow_le_zpow_right₀ (by norm_num) (by omega)
      _ = 1 / 2 ^ 15 := by norm_num
  have habs := flPos_abs (x := (us : ℚ) / 10 ^ 6)
  unfold flSeconds
  rw [fl_pos hx]
  have hab : |(us : ℚ) / 10 ^ 6 - flPos ((us : ℚ) / 10 ^ 6)| ≤ 1 / 2 ^ 16 := by
    refine habs.trans ?_
    norm_num at hu ⊢
    linarith
  refine ⟨?_, hab, ?_⟩
  · have h1 := (flExp_range hx).1
    have h2 : ((2 ^ 52 : ℤ) : ℚ) * 2 ^ flExp ((us : ℚ) / 10 ^ 6) ≤ flPos ((us : ℚ) / 10 ^ 6) := le_flPos (by push_cast; exact h1)
    have h3 : (0 : ℚ) < ((2 ^ 52 : ℤ) : ℚ) * 2 ^ flExp ((us : ℚ) / 10 ^ 6) := by positivity
    linarith
  · have := (abs_le.1 hab).1
    have e : ((2 : ℚ) ^ (38 : ℤ)) = 2 ^ 38 := by norm_num
    rw [e] at hlt
    norm_num at this hlt ⊢
    linarith

theorem far_timestamp_eq {us : ℕ} (h0 : 0 < us) (h : us < 2 ^ 38 * 10 ^ 6) : toTimestamp us = ⌊flPos (flSeconds us * 1000)⌋ := by
  obtain ⟨h1, _⟩ := far_seconds h0 h
  have hy : (0 : ℚ) < flSeconds us * 1000 := by positivity
  have hnn : 0 ≤ flPos (flSeconds us * 1000) := by
    have := le_flPos (x := flSeconds us * 1000) (N := 0) (by push_cast; linarith)
    simpa using this
  unfold toTimestamp truncate
  have e : fl (((us : ℕ) : ℤ) / 10 ^ 6 : ℚ) = flSeconds us := by unfold flSeconds; push_cast; rfl
  rw [e, fl_pos hy, if_pos hnn]

/-- The timestamp is at most one too small or too big, and right away from the boundaries of milliseconds. -/
theorem far_bounds {us : ℕ} (h0 : 0 < us) (h : us < 2 ^ 38 * 10 ^ 6) :
    toTimestamp us ≤ ((us / 1000 : ℕ) : ℤ) + 1 ∧ ((us / 1000 : ℕ) : ℤ) - 1 ≤ toTimestamp us ∧
      (16 ≤ us % 1000 → ((us / 1000 : ℕ) : ℤ) ≤ toTimestamp us) ∧ (us % 1000 ≤ 969 → toTimestamp us ≤ ((us / 1000 : ℕ) : ℤ)) := by
  obtain ⟨h1, h2, h4⟩ := far_seconds h0 h
  have hy : (0 : ℚ) < flSeconds us * 1000 := by positivity
  have h6 : flExp (flSeconds us * 1000) ≤ 48 - 53 := flExp_le hy (by
    have e : ((2 : ℚ) ^ (48 : ℤ)) = 2 ^ 48 := by norm_num
    rw [e]
    norm_num at h4 ⊢
    linarith)
  have h5 : |(us : ℚ) / 1000 - flSeconds us * 1000| ≤ 1000 / 2 ^ 16 := by
    have e : (us : ℚ) / 1000 - flSeconds us * 1000 = ((us : ℚ) / 10 ^ 6 - flSeconds us) * 1000 := by ring
    rw [e, abs_mul, abs_of_pos (show (0 : ℚ) < 1000 by norm_num)]
    linarith
  have hu : (2 : ℚ) ^ flExp (flSeconds us * 1000) ≤ 1 / 2 ^ 5 := by
    calc (2 : ℚ) ^ flExp (flSeconds us * 1000) ≤ 2 ^ (-5 : ℤ) := zpow_le_zpow_right₀ (by norm_num) (by omega)
      _ = 1 / 2 ^ 5 := by norm_num
  have habs := flPos_abs (x := flSeconds us * 1000)
  rw [far_timestamp_eq h0 h]
  rw [abs_le] at habs h5
  have hdm := div_mod_rat us
  have hmod : ((us % 1000 : ℕ) : ℚ) ≤ 999 := by
    have := Nat.mod_lt us (show 0 < 1000 by norm_num)
    exact_mod_cast (by omega : us % 1000 ≤ 999)
  have hmod0 : (0 : ℚ) ≤ ((us % 1000 : ℕ) : ℚ) := by positivity
  norm_num at hu h5
  refine ⟨?_, ?_, ?_, ?_⟩
  · have : ⌊flPos (flSeconds us * 1000)⌋ < ((us / 1000 : ℕ) : ℤ) + 2 := by
      rw [Int.floor_lt, Int.cast_add, Int.cast_natCast]
      push_cast
      linarith [habs.1, h5.1]
    omega
  · rw [Int.le_floor, Int.cast_sub, Int.cast_natCast, Int.cast_one]
    linarith [habs.2, h5.2]
  · intro hm
    have hm1 : (16 : ℚ) ≤ ((us % 1000 : ℕ) : ℚ) := by exact_mod_cast hm
    rw [Int.le_floor]
    obtain ⟨N, hN⟩ := int_multiple (k := flExp (flSeconds us * 1000)) (by omega) ((us / 1000 : ℕ) : ℤ)
    rw [hN]
    apply le_flPos
    rw [← hN, Int.cast_natCast]
    linarith [h5.2]
  · intro hm
    have hm1 : ((us % 1000 : ℕ) : ℚ) ≤ 969 := by exact_mod_cast hm
    have : ⌊flPos (flSeconds us * 1000)⌋ < ((us / 1000 : ℕ) : ℤ) + 1 := by
      rw [Int.floor_lt, Int.cast_add, Int.cast_natCast, Int.cast_one]
      linarith [habs.1, h5.1]
    omega

end Splitgill
