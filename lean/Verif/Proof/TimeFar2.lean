import Verif.Proof.TimeFar
/-!
# Timestamps of datetimes without a time zone, up to the year 9999
-/

namespace Splitgill

theorem fl_abs {x : ℚ} (hx : 0 < x) {j : ℤ} (h : x < 2 ^ j) : |x - fl x| ≤ 2 ^ (j - 54) ∧ 0 < fl x := by
  rw [fl_pos hx]
  refine ⟨flPos_abs.trans ?_, ?_⟩
  · have h1 : (2 : ℚ) ^ flExp x ≤ 2 ^ (j - 53) := zpow_le_zpow_right₀ (by norm_num) (flExp_le hx h)
    have h2 : (2 : ℚ) ^ (j - 53) = 2 ^ (j - 54) * 2 := by
      rw [← zpow_add_one₀ (by norm_num)]
      congr 1
      omega
    linarith
  · have h1 := (flExp_range hx).1
    have h2 : ((2 ^ 52 : ℤ) : ℚ) * 2 ^ flExp x ≤ flPos x := le_flPos (by push_cast; exact h1)
    have h3 : (0 : ℚ) < ((2 ^ 52 : ℤ) : ℚ) * 2 ^ flExp x := by positivity
    linarith

/-- As `far_bounds`, for seconds that are nearly right before they are rounded. -/
theorem near_bounds {n : ℕ} {x : ℚ} (h0 : 0 < x) (hx : |(n : ℚ) / 10 ^ 6 - x| ≤ 1 / 2 ^ 53) (h : x < 2 ^ 38) :
    truncate (fl (fl x * 1000)) ≤ ((n / 1000 : ℕ) : ℤ) + 1 ∧ ((n / 1000 : ℕ) : ℤ) - 1 ≤ truncate (fl (fl x * 1000)) ∧
      (16 ≤ n % 1000 → ((n / 1000 : ℕ) : ℤ) ≤ truncate (fl (fl x * 1000))) ∧ (n % 1000 ≤ 969 → truncate (fl (fl x * 1000)) ≤ ((n / 1000 : ℕ) : ℤ)) := by
  obtain ⟨h1, h2⟩ := fl_abs h0 (j := 38) (by exact_mod_cast h)
  have h4 : fl x < 2 ^ 38 + 1 := by
    rw [abs_le] at h1
    norm_num at h h1 ⊢
    linarith
  have hy : (0 : ℚ) < fl x * 1000 := by positivity
  have h6 : flExp (fl x * 1000) ≤ 48 - 53 := flExp_le hy (by
    have e : ((2 : ℚ) ^ (48 : ℤ)) = 2 ^ 48 := by norm_num
    rw [e]
    norm_num at h4 ⊢
    linarith)
  obtain ⟨h7, h8⟩ := fl_abs hy (j := 48) (by
    have e : ((2 : ℚ) ^ (48 : ℤ)) = 2 ^ 48 := by norm_num
    rw [e]
    norm_num at h4 ⊢
    linarith)
  have ht : truncate (fl (fl x * 1000)) = ⌊fl (fl x * 1000)⌋ := by
    unfold truncate
    rw [if_pos h8.le]
  have hl : ∀ N : ℤ, (N : ℚ) ≤ fl x * 1000 → (N : ℚ) ≤ fl (fl x * 1000) := fun N hN => by
    obtain ⟨M, hM⟩ := int_multiple (k := flExp (fl x * 1000)) (by omega) N
    rw [fl_pos hy, hM]
    exact le_flPos (by rw [← hM]; exact hN)
  rw [ht]
  rw [abs_le] at h1 h7 hx
  have hdm := div_mod_rat n
  have hd : (n : ℚ) / 10 ^ 6 * 1000 = (n : ℚ) / 1000 := by ring
  have hmod : ((n % 1000 : ℕ) : ℚ) ≤ 999 := by
    have := Nat.mod_lt n (show 0 < 1000 by norm_num)
    exact_mod_cast (by omega : n % 1000 ≤ 999)
  have hmod0 : (0 : ℚ) ≤ ((n % 1000 : ℕ) : ℚ) := by positivity
  norm_num at h1 h7
  refine ⟨?_, ?_, ?_, ?_⟩
  · have : ⌊fl (fl x * 1000)⌋ < ((n / 1000 : ℕ) : ℤ) + 2 := by
      rw [Int.floor_lt, Int.cast_add, Int.cast_natCast]
      push_cast
      linarith [h7.1, h1.1, hx.1]
    omega
  · rw [Int.le_floor, Int.cast_sub, Int.cast_natCast, Int.cast_one]
    linarith [h7.2, h1.2, hx.2]
  · intro hm
    have hm1 : (16 : ℚ) ≤ ((n % 1000 : ℕ) : ℚ) := by exact_mod_cast hm
    rw [Int.le_floor]
    apply hl
    rw [Int.cast_natCast]
    linarith [h1.2, hx.2]
  · intro hm
    have hm1 : ((n % 1000 : ℕ) : ℚ) ≤ 969 := by exact_mod_cast hm
    have : ⌊fl (fl x * 1000)⌋ < ((n / 1000 : ℕ) : ℤ) + 1 := by
      rw [Int.floor_lt, Int.cast_add, Int.cast_natCast, Int.cast_one]
      linarith [h7.1, h1.1, hx.1]
    omega

theorem micros_near {us : ℕ} (h : us < 10 ^ 6) : |(us : ℚ) / 10 ^ 6 - fl ((us : ℚ) / 10 ^ 6)| ≤ 1 / 2 ^ 54 ∧ 0 ≤ fl ((us : ℚ) / 10 ^ 6) := by
  rcases Nat.eq_zero_or_pos us with rfl | h0
  · simp [fl]
  · have hus : (0 : ℚ) < us := by exact_mod_cast h0
    have hlt : (us : ℚ) / 10 ^ 6 < 2 ^ (0 : ℤ) := by
      rw [div_lt_iff₀ (by norm_num)]
      have : (us : ℚ) < 10 ^ 6 := by exact_mod_cast h
      simpa using this
    obtain ⟨h1, h2⟩ := fl_abs (by positivity) hlt
    refine ⟨h1.trans (by norm_num), h2.le⟩

/-- `x` is positive, and `-x` is rounded and cut off as `x` is. -/
theorem truncate_neg' (x : ℚ) : truncate (fl (fl (-x) * 1000)) = - truncate (fl (fl x * 1000)) := by
  rw [fl_neg, neg_mul, fl_neg, truncate_neg]

theorem naive_far {s : ℤ} {us : ℕ} (hs : |s| < 2 ^ 38) (h : us < 10 ^ 6) :
    |naiveTimestamp s us - (s * 10 ^ 6 + us).tdiv 1000| ≤ 1 ∧
      (16 ≤ (s * 10 ^ 6 + us).natAbs % 1000 → (s * 10 ^ 6 + us).natAbs % 1000 ≤ 969 → naiveTimestamp s us = (s * 10 ^ 6 + us).tdiv 1000) := by
  obtain ⟨h1, h2⟩ := micros_near h
  rw [abs_le] at h1
  rw [abs_lt] at hs
  have husq : (us : ℚ) ≤ 999999 := by exact_mod_cast (by omega : us ≤ 999999)
  have husq0 : (0 : ℚ) ≤ us := by positivity
  by_cases hneg : s < 0
  · obtain ⟨k, hk⟩ : ∃ k : ℕ, s = -(k : ℤ) := ⟨s.natAbs, by omega⟩
    subst hk
    obtain ⟨n, hn⟩ : ∃ n : ℕ, (n : ℤ) = k * 10 ^ 6 - us := ⟨((k : ℤ) * 10 ^ 6 - us).toNat, by omega⟩
    have hnq : (n : ℚ) = k * 10 ^ 6 - us := by exact_mod_cast hn
    have hk1 : (1 : ℚ) ≤ k := by exact_mod_cast (by omega : 1 ≤ k)
    have hk2 : (k : ℚ) < 2 ^ 38 := by exact_mod_cast (by omega : k < 2 ^ 38)
    have e : naiveTimestamp (-(k : ℤ)) us = - truncate (fl (fl ((k : ℚ) - fl ((us : ℚ) / 10 ^ 6)) * 1000)) := by
      rw [← truncate_neg']
      unfold naiveTimestamp
      congr 3
      push_cast
      ring_nf
    have hx : (n : ℚ) / 10 ^ 6 = k - (us : ℚ) / 10 ^ 6 := by rw [hnq]; ring
    obtain ⟨b1, b2, b3, b4⟩ := near_bounds (n := n) (x := (k : ℚ) - fl ((us : ℚ) / 10 ^ 6))
      (by norm_num at h1 ⊢; linarith [h1.1, h1.2]) (by rw [hx, abs_le]; norm_num at h1 ⊢; constructor <;> linarith [h1.1, h1.2]) (by linarith)
    have ez : (-(k : ℤ)) * 10 ^ 6 + us = -(n : ℤ) := by rw [hn]; ring
    have et : (-(n : ℤ)).tdiv 1000 = -((n / 1000 : ℕ) : ℤ) := by rw [Int.neg_tdiv]; rfl
    rw [ez, e, et]
    refine ⟨by rw [abs_le]; omega, fun a b => ?_⟩
    have := b3 (by omega)
    have := b4 (by omega)
    omega
  · obtain ⟨k, hk⟩ : ∃ k : ℕ, s = (k : ℤ) := ⟨s.natAbs, by omega⟩
    subst hk
    have et : ((k : ℤ) * 10 ^ 6 + us).tdiv 1000 = (((k * 10 ^ 6 + us) / 1000 : ℕ) : ℤ) := by
      rw [show (k : ℤ) * 10 ^ 6 + us = ((k * 10 ^ 6 + us : ℕ) : ℤ) by push_cast; rfl]; rfl
    have hk2 : (k : ℚ) ≤ 2 ^ 38 - 1 := by
      have : k + 1 ≤ 2 ^ 38 := by omega
      have : (k : ℚ) + 1 ≤ 2 ^ 38 := by exact_mod_cast this
      linarith
    have hk0 : (0 : ℚ) ≤ k := by positivity
    by_cases hz : k = 0 ∧ us = 0
    · obtain ⟨rfl, rfl⟩ := hz
      simp [naiveTimestamp, fl, truncate]
    have hpos : (0 : ℚ) < k + fl ((us : ℚ) / 10 ^ 6) := by
      by_cases hk0 : k = 0
      · have : 0 < us := by omega
        have h3 : (1 : ℚ) ≤ us := by exact_mod_cast this
        norm_num at h1 ⊢
        linarith [h1.1, h1.2]
      · have : (1 : ℚ) ≤ k := by exact_mod_cast (by omega : 1 ≤ k)
        linarith
    obtain ⟨b1, b2, b3, b4⟩ := near_bounds (n := k * 10 ^ 6 + us) (x := (k : ℚ) + fl ((us : ℚ) / 10 ^ 6)) hpos
      (by
        rw [show ((k * 10 ^ 6 + us : ℕ) : ℚ) / 10 ^ 6 = k + (us : ℚ) / 10 ^ 6 by push_cast; ring, abs_le]
        norm_num at h1 ⊢
        constructor <;> linarith [h1.1, h1.2])
      (by norm_num at h1 ⊢; linarith [h1.1, h1.2])
    have e : naiveTimestamp (k : ℤ) us = truncate (fl (fl ((k : ℚ) + fl ((us : ℚ) / 10 ^ 6)) * 1000)) := by
      unfold naiveTimestamp
      push_cast
      rfl
    rw [et, e]
    refine ⟨by rw [abs_le]; omega, fun a b => ?_⟩
    have := b3 (by omega)
    have := b4 (by omega)
    omega

end Splitgill
