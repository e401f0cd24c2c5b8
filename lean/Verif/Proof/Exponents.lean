import Verif.Proof.TimeFar2
import Verif.Spec.BsonBytes
/-!
# The limits of the exponent of doubles
-/

namespace Splitgill

theorem FiniteDouble.isDouble {q : ℚ} (h : FiniteDouble q) : IsDouble q := by
  obtain ⟨m, e, hm, -, -, rfl⟩ := h
  exact ⟨m, e, hm, rfl⟩

theorem FiniteDouble.neg {q : ℚ} (h : FiniteDouble q) : FiniteDouble (-q) := by
  obtain ⟨m, e, hm, h1, h2, rfl⟩ := h
  exact ⟨-m, e, by rw [abs_neg]; exact hm, h1, h2, by push_cast; ring⟩

theorem flPos_finite {x : ℚ} (h1 : (2 : ℚ) ^ (-1022 : ℤ) ≤ x) (h2 : x ≤ 2 ^ (1023 : ℤ)) : FiniteDouble (flPos x) := by
  have hx : 0 < x := lt_of_lt_of_le (by positivity) h1
  have hk : (0 : ℚ) < 2 ^ flExp x := by positivity
  obtain ⟨a1, a2⟩ := flExp_range hx
  have b1 : (2 ^ 52 : ℤ) ≤ roundEven (x / 2 ^ flExp x) := le_roundEven (by rw [le_div_iff₀ hk]; exact_mod_cast a1)
  have b2 : roundEven (x / 2 ^ flExp x) ≤ (2 ^ 53 : ℤ) := roundEven_le (by rw [div_le_iff₀ hk]; exact_mod_cast a2.le)
  have c1 : -1074 ≤ flExp x := by have := le_flExp hx h1; omega
  rcases lt_or_eq_of_le h2 with h3 | h3
  · have c2 : flExp x ≤ 970 := by have := flExp_le hx h3; omega
    rcases lt_or_eq_of_le b2 with b3 | b3
    · exact ⟨roundEven (x / 2 ^ flExp x), flExp x, by rw [abs_lt]; omega, c1, by omega, rfl⟩
    · refine ⟨2 ^ 52, flExp x + 1, by norm_num, by omega, by omega, ?_⟩
      unfold flPos
      rw [b3, zpow_add_one₀ (by norm_num)]
      push_cast
      ring
  · have e : flExp x = 971 := flExp_eq (by rw [h3, ← zpow_natCast, ← zpow_add₀ (by norm_num)]; norm_num)
      (by rw [h3, ← zpow_natCast, ← zpow_add₀ (by norm_num)]; exact zpow_lt_zpow_right₀ (by norm_num) (by norm_num))
    refine ⟨2 ^ 52, 971, by norm_num, by norm_num, by norm_num, ?_⟩
    unfold flPos
    rw [e, h3]
    have : (2 : ℚ) ^ (1023 : ℤ) / 2 ^ (971 : ℤ) = ((2 ^ 52 : ℤ) : ℚ) := by
      rw [← zpow_sub₀ (by norm_num)]
      norm_num
    rw [this, roundEven_eq (N := 2 ^ 52) (by simp)]

theorem fl_finite {x : ℚ} (h : x = 0 ∨ ((2 : ℚ) ^ (-1022 : ℤ) ≤ |x| ∧ |x| ≤ 2 ^ (1023 : ℤ))) : FiniteDouble (fl x) := by
  rcases h with rfl | ⟨h1, h2⟩
  · exact ⟨0, 0, by norm_num, by norm_num, by norm_num, by simp [fl]⟩
  · rcases lt_trichotomy x 0 with hx | rfl | hx
    · rw [abs_of_neg hx] at h1 h2
      rw [← neg_neg x, fl_neg, fl_pos (by linarith)]
      exact (flPos_finite h1 h2).neg
    · rw [abs_zero] at h1
      exact absurd h1 (not_le.2 (by positivity))
    · rw [abs_of_pos hx] at h1 h2
      rw [fl_pos hx]
      exact flPos_finite h1 h2

theorem fl_half {x : ℚ} (hx : 0 < x) : x / 2 ≤ fl x ∧ fl x ≤ 2 * x := by
  obtain ⟨a1, a2⟩ := flExp_range hx
  rw [fl_pos hx]
  have h1 : ((2 ^ 52 : ℤ) : ℚ) * 2 ^ flExp x ≤ flPos x := le_flPos (by push_cast; exact a1)
  have h2 : flPos x ≤ ((2 ^ 53 : ℤ) : ℚ) * 2 ^ flExp x := flPos_le (by push_cast; exact a2.le)
  push_cast at h1 h2
  constructor <;> linarith

theorem seconds_range {us : ℤ} (h0 : us ≠ 0) (h : |us| < 2 ^ 38 * 10 ^ 6) : 1 / 10 ^ 6 ≤ |(us : ℚ) / 10 ^ 6| ∧ |(us : ℚ) / 10 ^ 6| ≤ 2 ^ 38 := by
  rw [abs_div, abs_of_pos (show (0 : ℚ) < 10 ^ 6 by norm_num)]
  have h1 : (1 : ℚ) ≤ |(us : ℚ)| := by exact_mod_cast Int.one_le_abs h0
  have h2 : |(us : ℚ)| < 2 ^ 38 * 10 ^ 6 := by exact_mod_cast h
  exact ⟨by rw [div_le_div_iff_of_pos_right (by norm_num)]; exact h1, by rw [div_le_iff₀ (by norm_num)]; exact h2.le⟩

theorem fl_abs_half (x : ℚ) : |x| / 2 ≤ |fl x| ∧ |fl x| ≤ 2 * |x| := by
  rcases lt_trichotomy x 0 with hx | rfl | hx
  · have h := fl_half (x := -x) (by linarith)
    rw [fl_neg] at h
    rw [abs_of_neg hx, abs_of_neg (by linarith [h.1])]
    exact h
  · simp [fl]
  · have h := fl_half hx
    rw [abs_of_pos hx, abs_of_pos (by linarith [h.1])]
    exact h

theorem range_of {y : ℚ} (h1 : 1 / 2 ^ 30 ≤ |y|) (h2 : |y| ≤ 2 ^ 60) : (2 : ℚ) ^ (-1022 : ℤ) ≤ |y| ∧ |y| ≤ 2 ^ (1023 : ℤ) := by
  constructor
  · refine le_trans ?_ h1
    rw [show (1 : ℚ) / 2 ^ 30 = 2 ^ (-30 : ℤ) by norm_num]
    exact zpow_le_zpow_right₀ (by norm_num) (by norm_num)
  · refine h2.trans ?_
    rw [show (2 : ℚ) ^ 60 = 2 ^ (60 : ℤ) by norm_num]
    exact zpow_le_zpow_right₀ (by norm_num) (by norm_num)

theorem timestamp_finite {us : ℤ} (h : |us| < 2 ^ 38 * 10 ^ 6) :
    FiniteDouble (fl ((us : ℚ) / 10 ^ 6)) ∧ FiniteDouble (fl (fl ((us : ℚ) / 10 ^ 6) * 1000)) := by
  by_cases h0 : us = 0
  · subst h0
    have : fl (((0 : ℤ) : ℚ) / 10 ^ 6) = 0 := by simp [fl]
    rw [this, zero_mul, show fl 0 = 0 by simp [fl]]
    have z : FiniteDouble 0 := ⟨0, 0, by norm_num, by norm_num, by norm_num, by simp⟩
    exact ⟨z, z⟩
  · obtain ⟨h1, h2⟩ := seconds_range h0 h
    obtain ⟨h3, h4⟩ := fl_abs_half ((us : ℚ) / 10 ^ 6)
    norm_num at h1 h2 h3 h4
    refine ⟨fl_finite (.inr (range_of ?_ ?_)), fl_finite (.inr (range_of ?_ ?_))⟩
    · norm_num; linarith
    · norm_num; linarith
    · rw [abs_mul]; norm_num; linarith
    · rw [abs_mul]; norm_num; linarith

end Splitgill
