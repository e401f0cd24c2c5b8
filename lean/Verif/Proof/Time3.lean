import Verif.Proof.Time2
/-!
# Lemmas: timestamps of datetimes without a time zone
-/

namespace Splitgill

theorem fl_double {x : ℚ} (h : IsDouble x) : fl x = x := by
  have := (fl_nearest x).2 x h
  rw [sub_self, abs_zero] at this
  have := abs_eq_zero.1 (le_antisymm this (abs_nonneg _))
  linarith

theorem fl_int {n : ℤ} (h : |n| < 2 ^ 53) : fl (n : ℚ) = n := fl_double ⟨n, 0, h, by simp⟩

theorem truncate_int (n : ℤ) : truncate (n : ℚ) = n := by
  unfold truncate
  split
  · exact Int.floor_intCast n
  · rw [← Int.cast_neg, Int.floor_intCast, neg_neg]

/-- A part of a second and its float. -/
theorem part_bounds {us : ℕ} (h : us < 10 ^ 6) (h0 : 0 < us) :
    0 < fl ((us : ℚ) / 10 ^ 6) ∧ fl ((us : ℚ) / 10 ^ 6) < 1 ∧ |(us : ℚ) / 10 ^ 6 - fl ((us : ℚ) / 10 ^ 6)| ≤ 1 / 2 ^ 54 := by
  have hus : (1 : ℚ) ≤ us := by exact_mod_cast h0
  have hlt : (us : ℚ) ≤ 999999 := by exact_mod_cast (show us ≤ 999999 by omega)
  have hx : (0 : ℚ) < (us : ℚ) / 10 ^ 6 := by positivity
  rw [fl_pos hx]
  have he : flExp ((us : ℚ) / 10 ^ 6) ≤ -53 := by
    have := flExp_le hx (j := 0) (by rw [zpow_zero, div_lt_one (by norm_num)]; linarith)
    omega
  have hp : (2 : ℚ) ^ flExp ((us : ℚ) / 10 ^ 6) ≤ 2 ^ (-53 : ℤ) := zpow_le_zpow_right₀ (by norm_num) he
  have e53 : (2 : ℚ) ^ (-53 : ℤ) = 1 / 2 ^ 53 := by norm_num
  have ha := flPos_abs (x := (us : ℚ) / 10 ^ 6)
  have hd : |(us : ℚ) / 10 ^ 6 - flPos ((us : ℚ) / 10 ^ 6)| ≤ 1 / 2 ^ 54 := by
    rw [e53] at hp
    have : (1 : ℚ) / 2 ^ 53 / 2 = 1 / 2 ^ 54 := by norm_num
    linarith
  have hl : (1 : ℚ) / 10 ^ 6 ≤ (us : ℚ) / 10 ^ 6 := by gcongr
  have hu : (us : ℚ) / 10 ^ 6 ≤ 999999 / 10 ^ 6 := by gcongr
  obtain ⟨h1, h2⟩ := abs_le.1 hd
  refine ⟨?_, ?_, hd⟩
  · have : (1 : ℚ) / 2 ^ 54 < 1 / 10 ^ 6 := by norm_num
    linarith
  · have : (1 : ℚ) / 2 ^ 54 < 1 - 999999 / 10 ^ 6 := by norm_num
    linarith

/-- A number of microseconds is rounded like a number next to it. -/
theorem flPos_near {M K : ℕ} {y : ℚ} (h1 : 2 ^ 19 ≤ M) (h2 : M < 2 ^ 33) (hx1 : (M : ℚ) ≤ (K : ℚ) / 10 ^ 6) (hx2 : (K : ℚ) / 10 ^ 6 < M + 1)
    (hy1 : (M : ℚ) ≤ y) (hy2 : y < M + 1) (hd : |(K : ℚ) / 10 ^ 6 - y| ≤ 1 / 2 ^ 54) : flPos y = flPos ((K : ℚ) / 10 ^ 6) := by
  set x := (K : ℚ) / 10 ^ 6 with hx
  have hM : (0 : ℚ) < M := by
    have : 0 < M := by omega
    exact_mod_cast this
  have hx0 : 0 < x := by linarith
  have hy0 : 0 < y := by linarith
  -- the numbers between two whole numbers have the same exponent
  obtain ⟨n, hn1, hn2⟩ : ∃ n : ℕ, 2 ^ n ≤ M ∧ M < 2 ^ (n + 1) := ⟨Nat.log 2 M, Nat.pow_log_le_self 2 (by omega), Nat.lt_pow_succ_log_self (by norm_num) M⟩
  have hn3 : 19 ≤ n := by
    by_contra hlt
    have : 2 ^ (n + 1) ≤ 2 ^ 19 := Nat.pow_le_pow_right (by norm_num) (by omega)
    omega
  have hn4 : n ≤ 32 := by
    by_contra hlt
    have : 2 ^ 33 ≤ 2 ^ n := Nat.pow_le_pow_right (by norm_num) (by omega)
    omega
  have hq1 : (2 : ℚ) ^ n ≤ M := by exact_mod_cast hn1
  have hq2 : (M : ℚ) + 1 ≤ 2 ^ (n + 1) := by exact_mod_cast hn2
  obtain ⟨j, hj⟩ : ∃ j : ℕ, j + n = 52 := ⟨52 - n, by omega⟩
  have hpow : (2 : ℚ) ^ (52 : ℕ) * 2 ^ (-(j : ℤ)) = 2 ^ n := by
    rw [zpow_neg, zpow_natCast, ← hj, pow_add]
    field_simp
  have hpow' : (2 : ℚ) ^ (53 : ℕ) * 2 ^ (-(j : ℤ)) = 2 ^ (n + 1) := by
    rw [pow_succ (2 : ℚ) n, ← hpow]
    ring
  have ex : flExp x = -(j : ℤ) := flExp_eq (by rw [hpow]; linarith) (by rw [hpow']; linarith)
  have ey : flExp y = -(j : ℤ) := flExp_eq (by rw [hpow]; linarith) (by rw [hpow']; linarith)
  unfold flPos
  rw [ex, ey]
  congr 2
  have hdiv : ∀ z : ℚ, z / 2 ^ (-(j : ℤ)) = z * 2 ^ j := by
    intro z
    rw [zpow_neg, zpow_natCast, div_inv_eq_mul]
  rw [hdiv, hdiv]
  set N := roundEven (x * 2 ^ j) with hN
  have hr := roundEven_abs (x * 2 ^ j)
  rw [← hN] at hr
  -- `x` is no tie, and not next to one
  have hA : |((2 * K * 2 ^ j - 2 * 10 ^ 6 * N : ℤ) : ℚ)| = 2 * 10 ^ 6 * |x * 2 ^ j - N| := by
    have : ((2 * K * 2 ^ j - 2 * 10 ^ 6 * N : ℤ) : ℚ) = 2 * 10 ^ 6 * (x * 2 ^ j - N) := by
      rw [hx]
      push_cast
      ring
    rw [this, abs_mul, abs_of_pos (by norm_num : (0 : ℚ) < 2 * 10 ^ 6)]
  have hle : |2 * (K : ℤ) * 2 ^ j - 2 * 10 ^ 6 * N| ≤ 10 ^ 6 := by
    have : |((2 * K * 2 ^ j - 2 * 10 ^ 6 * N : ℤ) : ℚ)| ≤ 10 ^ 6 := by rw [hA]; linarith
    exact_mod_cast this
  have hne : |2 * (K : ℤ) * 2 ^ j - 2 * 10 ^ 6 * N| ≠ 10 ^ 6 := by
    intro e
    obtain ⟨i, rfl⟩ : ∃ i, j = 6 + i := ⟨j - 6, by omega⟩
    have e2 : (2 : ℤ) * K * 2 ^ (6 + i) = 128 * (K * 2 ^ i) := by rw [pow_add]; ring
    rw [e2] at e
    generalize (K : ℤ) * 2 ^ i = T at e
    rcases abs_cases (128 * T - 2 * 10 ^ 6 * N) with ⟨h, _⟩ | ⟨h, _⟩ <;> omega
  have hlt : |2 * (K : ℤ) * 2 ^ j - 2 * 10 ^ 6 * N| ≤ 10 ^ 6 - 1 := by omega
  have hlt' : 2 * 10 ^ 6 * |x * 2 ^ j - N| ≤ 10 ^ 6 - 1 := by
    rw [← hA]
    exact_mod_cast hlt
  apply roundEven_eq
  have hj33 : (2 : ℚ) ^ j ≤ 2 ^ 33 := pow_le_pow_right₀ (by norm_num) (by omega)
  have hp : (0 : ℚ) < 2 ^ j := by positivity
  have hdy : |y * 2 ^ j - x * 2 ^ j| ≤ 1 / 2 ^ 21 := by
    rw [← sub_mul, abs_mul, abs_of_pos hp, abs_sub_comm]
    calc |x - y| * 2 ^ j ≤ 1 / 2 ^ 54 * 2 ^ 33 := by gcongr
      _ = 1 / 2 ^ 21 := by norm_num
  calc |y * 2 ^ j - N| = |(y * 2 ^ j - x * 2 ^ j) + (x * 2 ^ j - N)| := by ring_nf
    _ ≤ |y * 2 ^ j - x * 2 ^ j| + |x * 2 ^ j - N| := abs_add_le _ _
    _ < 1 / 2 := by
      have : (1 : ℚ) / 2 ^ 21 < 1 / (2 * 10 ^ 6) := by norm_num
      have h3 : |x * 2 ^ j - N| ≤ (10 ^ 6 - 1) / (2 * 10 ^ 6) := by
        rw [le_div_iff₀ (by norm_num)]
        linarith
      have h4 : ((10 : ℚ) ^ 6 - 1) / (2 * 10 ^ 6) = 1 / 2 - 1 / (2 * 10 ^ 6) := by norm_num
      linarith

/-- The seconds as a float are the same with and without a time zone. -/
theorem naive_seconds {s : ℤ} {us : ℕ} (hs : 2 ^ 19 < |s|) (hs' : |s| < 2 ^ 33) (h : us < 10 ^ 6) :
    fl (s + fl ((us : ℚ) / 10 ^ 6)) = fl (((s * 10 ^ 6 + us : ℤ) : ℚ) / 10 ^ 6) := by
  have e : ((s * 10 ^ 6 + us : ℤ) : ℚ) / 10 ^ 6 = s + (us : ℚ) / 10 ^ 6 := by
    push_cast
    field_simp
    norm_num
  rcases Nat.eq_zero_or_pos us with rfl | h0
  · rw [e]
    simp [fl]
  obtain ⟨p1, p2, p3⟩ := part_bounds h h0
  have hus : (0 : ℚ) < (us : ℚ) / 10 ^ 6 := by
    have : (1 : ℚ) ≤ us := by exact_mod_cast h0
    positivity
  have hus1 : (us : ℚ) / 10 ^ 6 < 1 := by
    rw [div_lt_one (by norm_num)]
    exact_mod_cast h
  set f := fl ((us : ℚ) / 10 ^ 6) with hf
  rcases le_or_gt 0 s with hs0 | hs0
  · obtain ⟨M, rfl⟩ := Int.eq_ofNat_of_zero_le hs0
    rw [abs_of_nonneg hs0] at hs hs'
    rw [e]
    have hM : (0 : ℚ) < M := by
      have : 0 < M := by omega
      exact_mod_cast this
    have eK : (((M : ℤ) : ℚ) + (us : ℚ) / 10 ^ 6) = ((M * 10 ^ 6 + us : ℕ) : ℚ) / 10 ^ 6 := by
      push_cast
      field_simp
      norm_num
    have hM' : (((M : ℤ) : ℚ)) = M := by simp
    rw [fl_pos (by rw [hM']; linarith), fl_pos (by rw [hM']; linarith), eK]
    refine flPos_near (M := M) (by omega) (by omega) ?_ ?_ ?_ ?_ ?_
    · rw [← eK, hM']; linarith
    · rw [← eK, hM']; linarith
    · rw [hM']; linarith
    · rw [hM']; linarith
    · rw [← eK, hM']
      have : (M : ℚ) + (us : ℚ) / 10 ^ 6 - (M + f) = (us : ℚ) / 10 ^ 6 - f := by ring
      rw [this]
      exact p3
  · obtain ⟨M, hM⟩ := Int.eq_ofNat_of_zero_le (show 0 ≤ -s - 1 by omega)
    obtain rfl : s = -(M : ℤ) - 1 := by omega
    rw [abs_of_neg hs0] at hs hs'
    have hM0 : (0 : ℚ) < M := by
      have : 0 < M := by omega
      exact_mod_cast this
    rw [e]
    have hsq : ((-(M : ℤ) - 1 : ℤ) : ℚ) = -(M : ℚ) - 1 := by push_cast; ring
    rw [hsq]
    have e1 : -(M : ℚ) - 1 + f = -(M + (1 - f)) := by ring
    have e2 : -(M : ℚ) - 1 + (us : ℚ) / 10 ^ 6 = -(((M * 10 ^ 6 + (10 ^ 6 - us) : ℕ) : ℚ) / 10 ^ 6) := by
      rw [Nat.cast_add, Nat.cast_sub h.le]
      push_cast
      field_simp
      ring
    have e3 : ((M * 10 ^ 6 + (10 ^ 6 - us) : ℕ) : ℚ) / 10 ^ 6 = M + (1 - (us : ℚ) / 10 ^ 6) := by linarith
    rw [e1, e2, fl_neg, fl_neg, fl_pos (by linarith), fl_pos (by rw [e3]; linarith)]
    congr 1
    refine flPos_near (M := M) (by omega) (by omega) ?_ ?_ ?_ ?_ ?_
    · rw [e3]; linarith
    · rw [e3]; linarith
    · linarith
    · linarith
    · rw [e3, abs_sub_comm]
      have : (M : ℚ) + (1 - f) - (M + (1 - (us : ℚ) / 10 ^ 6)) = (us : ℚ) / 10 ^ 6 - f := by ring
      rw [this]
      exact p3

theorem naive_eq {s : ℤ} {us : ℕ} (hs : 2 ^ 19 < |s|) (hs' : |s| < 2 ^ 33) (h : us < 10 ^ 6) :
    naiveTimestamp s us = toTimestamp (s * 10 ^ 6 + us) := by
  unfold naiveTimestamp toTimestamp
  rw [naive_seconds hs hs' h]

theorem naive_date {s : ℤ} (hs : |s| < 2 ^ 43) : naiveTimestamp s 0 = 1000 * s := by
  unfold naiveTimestamp
  have e0 : fl (((0 : ℕ) : ℚ) / 10 ^ 6) = 0 := by simp [fl]
  obtain ⟨h1, h2⟩ := abs_lt.1 hs
  rw [e0, add_zero, fl_int (abs_lt.2 ⟨by omega, by omega⟩)]
  have e1 : (s : ℚ) * 1000 = ((1000 * s : ℤ) : ℚ) := by push_cast; ring
  rw [e1, fl_int (abs_lt.2 ⟨by omega, by omega⟩), truncate_int]

end Splitgill
