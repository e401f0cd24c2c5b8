import Verif.Model.Time
import Verif.Spec.Time
import Mathlib.Tactic.Linarith
import Mathlib.Tactic.Positivity
import Mathlib.Tactic.NormNum
import Mathlib.Tactic.Ring
import Mathlib.Algebra.Order.Field.Power
import Mathlib.Tactic.FieldSimp
/-!
# Lemmas about rounding and timestamps
-/

namespace Splitgill

theorem roundEven_abs (y : ℚ) : |y - roundEven y| ≤ 1 / 2 := by
  have h1 := Int.floor_le y
  have h2 := Int.lt_floor_add_one y
  unfold roundEven
  split_ifs <;> rw [abs_le] <;> push_cast <;> constructor <;> linarith

theorem le_roundEven {y : ℚ} {N : ℤ} (h : (N : ℚ) ≤ y) : N ≤ roundEven y := by
  have h1 : N ≤ ⌊y⌋ := Int.le_floor.2 h
  unfold roundEven
  split_ifs <;> omega

theorem roundEven_le {y : ℚ} {N : ℤ} (h : y ≤ N) : roundEven y ≤ N := by
  have h0 := Int.floor_le y
  have h1 : ⌊y⌋ ≤ N := by exact_mod_cast h0.trans h
  rcases lt_or_eq_of_le h1 with h2 | h2
  · unfold roundEven
    split_ifs <;> omega
  · unfold roundEven
    rw [if_pos (by rw [h2]; linarith)]
    omega

theorem roundEven_eq {y : ℚ} {N : ℤ} (h : |y - N| < 1 / 2) : roundEven y = N := by
  have h1 := roundEven_abs y
  have h2 : |((roundEven y - N : ℤ) : ℚ)| < 1 := by
    push_cast
    rw [abs_lt] at h ⊢
    rw [abs_le] at h1
    constructor <;> linarith [h.1, h.2, h1.1, h1.2]
  have h3 : |roundEven y - N| < 1 := by exact_mod_cast h2
  have := Int.abs_lt_one_iff.1 h3
  omega

theorem roundEven_nearest (y : ℚ) (m : ℤ) : |y - roundEven y| ≤ |y - m| := by
  by_cases h : |y - m| < 1 / 2
  · rw [roundEven_eq h]
  · exact (roundEven_abs y).trans (not_lt.1 h)

/-- The range of a number in terms of the distance of the floats next to it. -/
theorem flExp_range {x : ℚ} (hx : 0 < x) : (2 : ℚ) ^ (52 : ℕ) * 2 ^ flExp x ≤ x ∧ x < (2 : ℚ) ^ (53 : ℕ) * 2 ^ flExp x := by
  have h1 := Int.zpow_log_le_self (R := ℚ) (b := 2) (by norm_num) hx
  have h2 := Int.lt_zpow_succ_log_self (R := ℚ) (b := 2) (by norm_num) x
  have e1 : (2 : ℚ) ^ (52 : ℕ) * 2 ^ flExp x = 2 ^ Int.log 2 x := by
    unfold flExp
    rw [← zpow_natCast, ← zpow_add₀ (by norm_num)]
    congr 1
    push_cast
    ring
  have e2 : (2 : ℚ) ^ (53 : ℕ) * 2 ^ flExp x = 2 ^ (Int.log 2 x + 1) := by
    unfold flExp
    rw [← zpow_natCast, ← zpow_add₀ (by norm_num)]
    congr 1
    push_cast
    ring
  rw [e1, e2]
  exact ⟨by exact_mod_cast h1, by exact_mod_cast h2⟩

/-- The exponent is determined by the range. -/
theorem flExp_eq {x : ℚ} {k : ℤ} (h1 : (2 : ℚ) ^ (52 : ℕ) * 2 ^ k ≤ x) (h2 : x < (2 : ℚ) ^ (53 : ℕ) * 2 ^ k) : flExp x = k := by
  have hk : (0 : ℚ) < 2 ^ k := by positivity
  have hx : 0 < x := lt_of_lt_of_le (by positivity) h1
  obtain ⟨h3, h4⟩ := flExp_range hx
  have a : (2 : ℚ) ^ (52 : ℕ) * 2 ^ k < 2 ^ (53 : ℕ) * 2 ^ flExp x := lt_of_le_of_lt h1 h4
  have b : (2 : ℚ) ^ (52 : ℕ) * 2 ^ flExp x < 2 ^ (53 : ℕ) * 2 ^ k := lt_of_le_of_lt h3 h2
  rw [← zpow_natCast, ← zpow_natCast, ← zpow_add₀ (by norm_num), ← zpow_add₀ (by norm_num)] at a b
  have a' := (zpow_lt_zpow_iff_right₀ (a := (2 : ℚ)) (by norm_num)).1 a
  have b' := (zpow_lt_zpow_iff_right₀ (a := (2 : ℚ)) (by norm_num)).1 b
  push_cast at a' b'
  omega

theorem fl_pos {x : ℚ} (hx : 0 < x) : fl x = flPos x := by
  unfold fl
  rw [if_neg hx.ne', if_pos hx]

theorem flPos_abs {x : ℚ} : |x - flPos x| ≤ 2 ^ flExp x / 2 := by
  have hk : (0 : ℚ) < 2 ^ flExp x := by positivity
  have h := roundEven_abs (x / 2 ^ flExp x)
  have e : x - flPos x = (x / 2 ^ flExp x - roundEven (x / 2 ^ flExp x)) * 2 ^ flExp x := by
    unfold flPos
    field_simp
  rw [e, abs_mul, abs_of_pos hk]
  calc _ ≤ 1 / 2 * (2 : ℚ) ^ flExp x := by gcongr
    _ = _ := by ring

/-- Multiples of the distance keep their order with a number when it is rounded. -/
theorem le_flPos {x : ℚ} {N : ℤ} (h : N * 2 ^ flExp x ≤ x) : N * 2 ^ flExp x ≤ flPos x := by
  have hk : (0 : ℚ) < 2 ^ flExp x := by positivity
  have : N ≤ roundEven (x / 2 ^ flExp x) := le_roundEven (by rw [le_div_iff₀ hk]; exact h)
  unfold flPos
  have : (N : ℚ) ≤ roundEven (x / 2 ^ flExp x) := by exact_mod_cast this
  gcongr

theorem flPos_le {x : ℚ} {N : ℤ} (h : x ≤ N * 2 ^ flExp x) : flPos x ≤ N * 2 ^ flExp x := by
  have hk : (0 : ℚ) < 2 ^ flExp x := by positivity
  have : roundEven (x / 2 ^ flExp x) ≤ N := roundEven_le (by rw [div_le_iff₀ hk]; exact h)
  unfold flPos
  have : (roundEven (x / 2 ^ flExp x) : ℚ) ≤ N := by exact_mod_cast this
  gcongr

theorem flPos_eq {x : ℚ} {N : ℤ} (h : |x - N * 2 ^ flExp x| < 2 ^ flExp x / 2) : flPos x = N * 2 ^ flExp x := by
  have hk : (0 : ℚ) < 2 ^ flExp x := by positivity
  have : roundEven (x / 2 ^ flExp x) = N := by
    apply roundEven_eq
    have e : x / 2 ^ flExp x - N = (x - N * 2 ^ flExp x) / 2 ^ flExp x := by field_simp
    rw [e, abs_div, abs_of_pos hk, div_lt_iff₀ hk]
    linarith
  unfold flPos
  rw [this]

theorem flPos_isDouble {x : ℚ} (hx : 0 < x) : IsDouble (flPos x) := by
  have hk : (0 : ℚ) < 2 ^ flExp x := by positivity
  obtain ⟨h1, h2⟩ := flExp_range hx
  have h3 : (2 ^ 52 : ℤ) ≤ roundEven (x / 2 ^ flExp x) := le_roundEven (by rw [le_div_iff₀ hk]; exact_mod_cast h1)
  have h4 : roundEven (x / 2 ^ flExp x) ≤ (2 ^ 53 : ℤ) := roundEven_le (by rw [div_le_iff₀ hk]; exact_mod_cast h2.le)
  rcases lt_or_eq_of_le h4 with h5 | h5
  · exact ⟨_, _, by rw [abs_of_nonneg (by linarith [h3])]; exact h5, rfl⟩
  · refine ⟨1, flExp x + 53, by norm_num, ?_⟩
    unfold flPos
    rw [h5, zpow_add₀ (by norm_num)]
    push_cast
    norm_num
    ring

theorem flPos_nearest {x : ℚ} (hx : 0 < x) (s : ℚ) (hs : IsDouble s) : |x - flPos x| ≤ |x - s| := by
  have hk : (0 : ℚ) < 2 ^ flExp x := by positivity
  have hmul : ∀ N : ℤ, |x - flPos x| ≤ |x - N * 2 ^ flExp x| := by
    intro N
    have h := roundEven_nearest (x / 2 ^ flExp x) N
    have e1 : x - flPos x = (x / 2 ^ flExp x - roundEven (x / 2 ^ flExp x)) * 2 ^ flExp x := by
      unfold flPos
      field_simp
    have e2 : x - N * 2 ^ flExp x = (x / 2 ^ flExp x - N) * 2 ^ flExp x := by field_simp
    rw [e1, e2, abs_mul, abs_mul, abs_of_pos hk]
    gcongr
  obtain ⟨m, e, hm, rfl⟩ := hs
  obtain ⟨h1, h2⟩ := flExp_range hx
  by_cases he : flExp x ≤ e
  · obtain ⟨j, hj⟩ := Int.eq_ofNat_of_zero_le (show 0 ≤ e - flExp x by omega)
    have := hmul (m * 2 ^ j)
    have e' : ((m * 2 ^ j : ℤ) : ℚ) * 2 ^ flExp x = m * 2 ^ e := by
      push_cast
      have : e = j + flExp x := by omega
      rw [this, zpow_add₀ (by norm_num), zpow_natCast]
      ring
    rw [e'] at this
    exact this
  · have hs : (m : ℚ) * 2 ^ e ≤ 2 ^ (52 : ℕ) * 2 ^ flExp x := by
      have hm' : (m : ℚ) ≤ 2 ^ (53 : ℕ) := by
        have := (abs_lt.1 hm).2.le
        exact_mod_cast this
      have he' : (2 : ℚ) ^ e ≤ 2 ^ (flExp x - 1) := zpow_le_zpow_right₀ (by norm_num) (by omega)
      have hp : (0 : ℚ) < 2 ^ e := by positivity
      calc (m : ℚ) * 2 ^ e ≤ 2 ^ (53 : ℕ) * 2 ^ e := by gcongr
        _ ≤ 2 ^ (53 : ℕ) * 2 ^ (flExp x - 1) := by gcongr
        _ = 2 ^ (52 : ℕ) * 2 ^ flExp x := by
          rw [zpow_sub₀ (by norm_num)]
          norm_num
          ring
    have := hmul (2 ^ 52)
    push_cast at this
    refine this.trans ?_
    rw [abs_of_nonneg (by linarith), abs_of_nonneg (by linarith)]
    linarith

theorem fl_nearest (x : ℚ) : IsNearest x (fl x) := by
  unfold fl
  split_ifs with h0 h1
  · subst h0
    refine ⟨⟨0, 0, by norm_num, by norm_num⟩, fun s _ => ?_⟩
    simp
  · exact ⟨flPos_isDouble h1, flPos_nearest h1⟩
  · have hx : 0 < -x := by
      rcases lt_trichotomy x 0 with h | h | h
      · linarith
      · exact absurd h h0
      · exact absurd h h1
    constructor
    · obtain ⟨m, e, hm, h⟩ := flPos_isDouble hx
      exact ⟨-m, e, by rw [abs_neg]; exact hm, by rw [h]; push_cast; ring⟩
    · rintro s ⟨m, e, hm, rfl⟩
      have := flPos_nearest hx (-(m * 2 ^ e)) ⟨-m, e, by rw [abs_neg]; exact hm, by push_cast; ring⟩
      have e1 : -x - flPos (-x) = -(x - -flPos (-x)) := by ring
      have e2 : -x - -((m : ℚ) * 2 ^ e) = -(x - m * 2 ^ e) := by ring
      rw [e1, e2, abs_neg, abs_neg] at this
      exact this

/-! ## Timestamps -/

theorem flExp_le {x : ℚ} (hx : 0 < x) {j : ℤ} (h : x < 2 ^ j) : flExp x ≤ j - 53 := by
  have a := lt_of_le_of_lt (flExp_range hx).1 h
  rw [← zpow_natCast, ← zpow_add₀ (by norm_num)] at a
  have := (zpow_lt_zpow_iff_right₀ (a := (2 : ℚ)) (by norm_num)).1 a
  push_cast at this
  omega

theorem le_flExp {x : ℚ} (hx : 0 < x) {j : ℤ} (h : (2 : ℚ) ^ j ≤ x) : j - 52 ≤ flExp x := by
  have a := lt_of_le_of_lt h (flExp_range hx).2
  rw [← zpow_natCast, ← zpow_add₀ (by norm_num)] at a
  have := (zpow_lt_zpow_iff_right₀ (a := (2 : ℚ)) (by norm_num)).1 a
  push_cast at this
  omega

theorem int_multiple {k : ℤ} (hk : k ≤ 0) (n : ℤ) : ∃ N : ℤ, (n : ℚ) = N * 2 ^ k := by
  obtain ⟨j, hj⟩ := Int.eq_ofNat_of_zero_le (show 0 ≤ -k by omega)
  refine ⟨n * 2 ^ j, ?_⟩
  have : k = -(j : ℤ) := by omega
  rw [this, zpow_neg, zpow_natCast]
  push_cast
  field_simp

/-- The seconds, as a float. -/
def flSeconds (us : ℕ) : ℚ := fl ((us : ℚ) / 10 ^ 6)

theorem seconds_bounds {us : ℕ} (h0 : 0 < us) (h : us < 2 ^ 33 * 10 ^ 6) :
    0 < flSeconds us ∧ |(us : ℚ) / 10 ^ 6 - flSeconds us| ≤ 2 ^ flExp ((us : ℚ) / 10 ^ 6) / 2 ∧
      (2 : ℚ) ^ flExp ((us : ℚ) / 10 ^ 6) ≤ 1 / 2 ^ 20 ∧ flSeconds us < 2 ^ 33 + 1 := by
  have hus : (0 : ℚ) < us := by exact_mod_cast h0
  have hx : (0 : ℚ) < (us : ℚ) / 10 ^ 6 := by positivity
  have hlt : (us : ℚ) / 10 ^ 6 < 2 ^ (33 : ℤ) := by
    have : (us : ℚ) < 2 ^ 33 * 10 ^ 6 := by exact_mod_cast h
    rw [div_lt_iff₀ (by norm_num)]
    exact_mod_cast this
  have hu : (2 : ℚ) ^ flExp ((us : ℚ) / 10 ^ 6) ≤ 1 / 2 ^ 20 := by
    have := flExp_le hx hlt
    calc (2 : ℚ) ^ flExp ((us : ℚ) / 10 ^ 6) ≤ 2 ^ (-20 : ℤ) := zpow_le_zpow_right₀ (by norm_num) (by omega)
      _ = 1 / 2 ^ 20 := by norm_num
  have habs := flPos_abs (x := (us : ℚ) / 10 ^ 6)
  unfold flSeconds
  rw [fl_pos hx]
  refine ⟨?_, habs, hu, ?_⟩
  · have h1 := (flExp_range hx).1
    have hk : (0 : ℚ) < 2 ^ flExp ((us : ℚ) / 10 ^ 6) := by positivity
    have h2 : ((2 ^ 52 : ℤ) : ℚ) * 2 ^ flExp ((us : ℚ) / 10 ^ 6) ≤ flPos ((us : ℚ) / 10 ^ 6) :=
      le_flPos (by push_cast; exact h1)
    have h3 : (0 : ℚ) < ((2 ^ 52 : ℤ) : ℚ) * 2 ^ flExp ((us : ℚ) / 10 ^ 6) := by positivity
    linarith
  · have := (abs_le.1 habs).1
    have e : ((2 : ℚ) ^ (33 : ℤ)) = 2 ^ 33 := by norm_num
    rw [e] at hlt
    norm_num at hu ⊢
    linarith

theorem millis_bounds {us : ℕ} (h0 : 0 < us) (h : us < 2 ^ 33 * 10 ^ 6) :
    |(us : ℚ) / 1000 - flSeconds us * 1000| ≤ 500 * 2 ^ flExp ((us : ℚ) / 10 ^ 6) ∧
    (2 : ℚ) ^ flExp (flSeconds us * 1000) ≤ 1 / 2 ^ 10 ∧ flExp (flSeconds us * 1000) ≤ 0 := by
  obtain ⟨h1, h2, h3, h4⟩ := seconds_bounds h0 h
  refine ⟨?_, ?_⟩
  · have e : (us : ℚ) / 1000 - flSeconds us * 1000 = ((us : ℚ) / 10 ^ 6 - flSeconds us) * 1000 := by ring
    rw [e, abs_mul, abs_of_pos (show (0 : ℚ) < 1000 by norm_num)]
    linarith
  · have hy : (0 : ℚ) < flSeconds us * 1000 := by positivity
    have : flExp (flSeconds us * 1000) ≤ 43 - 53 := flExp_le hy (by
      have e : ((2 : ℚ) ^ (43 : ℤ)) = 2 ^ 43 := by norm_num
      rw [e]
      norm_num at h4 ⊢
      linarith)
    constructor
    · calc (2 : ℚ) ^ flExp (flSeconds us * 1000) ≤ 2 ^ (-10 : ℤ) := zpow_le_zpow_right₀ (by norm_num) (by omega)
        _ = 1 / 2 ^ 10 := by norm_num
    · omega

theorem toTimestamp_eq {us : ℕ} (h0 : 0 < us) (h : us < 2 ^ 33 * 10 ^ 6) :
    toTimestamp us = ⌊flPos (flSeconds us * 1000)⌋ := by
  obtain ⟨h1, _⟩ := seconds_bounds h0 h
  have hy : (0 : ℚ) < flSeconds us * 1000 := by positivity
  have hnn : 0 ≤ flPos (flSeconds us * 1000) := by
    have := le_flPos (x := flSeconds us * 1000) (N := 0) (by push_cast; linarith)
    simpa using this
  unfold toTimestamp truncate
  have e : fl (((us : ℕ) : ℤ) / 10 ^ 6 : ℚ) = flSeconds us := by unfold flSeconds; push_cast; rfl
  rw [e, fl_pos hy, if_pos hnn]

theorem div_mod_rat (us : ℕ) : (us : ℚ) / 1000 = (us / 1000 : ℕ) + (us % 1000 : ℕ) / 1000 := by
  have := Nat.div_add_mod us 1000
  have h : (us : ℚ) = 1000 * (us / 1000 : ℕ) + (us % 1000 : ℕ) := by exact_mod_cast this.symm
  rw [h]
  push_cast
  field_simp

/-- The timestamp is never too big, and at most 1 too small. -/
theorem toTimestamp_bounds {us : ℕ} (h0 : 0 < us) (h : us < 2 ^ 33 * 10 ^ 6) :
    toTimestamp us ≤ (us / 1000 : ℕ) ∧ ((us / 1000 : ℕ) : ℤ) - 1 ≤ toTimestamp us ∧
      (us % 1000 ≠ 0 → ((us / 1000 : ℕ) : ℤ) ≤ toTimestamp us) := by
  obtain ⟨h1, h2, h3, h4⟩ := seconds_bounds h0 h
  obtain ⟨h5, h6, h7⟩ := millis_bounds h0 h
  rw [toTimestamp_eq h0 h]
  have habs := flPos_abs (x := flSeconds us * 1000)
  rw [abs_le] at habs h5
  have hdm := div_mod_rat us
  have hmod : ((us % 1000 : ℕ) : ℚ) ≤ 999 := by
    have := Nat.mod_lt us (show 0 < 1000 by norm_num)
    exact_mod_cast (by omega : us % 1000 ≤ 999)
  have hmod0 : (0 : ℚ) ≤ ((us % 1000 : ℕ) : ℚ) := by positivity
  generalize (2 : ℚ) ^ flExp ((us : ℚ) / 10 ^ 6) = u1 at *
  have h6' := h6
  norm_num at h3 h6'
  refine ⟨?_, ?_, ?_⟩
  · have : ⌊flPos (flSeconds us * 1000)⌋ < ((us / 1000 : ℕ) : ℤ) + 1 := by
      rw [Int.floor_lt, Int.cast_add, Int.cast_natCast, Int.cast_one]
      linarith [habs.1, h5.1]
    omega
  · rw [Int.le_floor, Int.cast_sub, Int.cast_natCast, Int.cast_one]
    linarith [habs.2, h5.2]
  · intro hm
    have hm1 : (1 : ℚ) ≤ ((us % 1000 : ℕ) : ℚ) := by exact_mod_cast (by omega : 1 ≤ us % 1000)
    rw [Int.le_floor]
    obtain ⟨N, hN⟩ := int_multiple h7 ((us / 1000 : ℕ) : ℤ)
    rw [hN]
    apply le_flPos
    rw [← hN, Int.cast_natCast]
    linarith [h5.2]

/-- The timestamp is right where the float of the seconds is not too far above a power of two. -/
theorem toTimestamp_range {us E : ℕ} (h : us < 2 ^ 33 * 10 ^ 6) (h1 : 2 ^ E < us / 1000) (h2 : us * 512 < 2 ^ E * 10 ^ 6) :
    toTimestamp us = (us / 1000 : ℕ) := by
  have h0 : 0 < us := by omega
  obtain ⟨b1, b2, b3⟩ := toTimestamp_bounds h0 h
  by_cases hm : us % 1000 = 0
  · obtain ⟨s1, s2, s3, s4⟩ := seconds_bounds h0 h
    obtain ⟨m1, m2, m3⟩ := millis_bounds h0 h
    have hus : (0 : ℚ) < us := by exact_mod_cast h0
    have hx : (0 : ℚ) < (us : ℚ) / 10 ^ 6 := by positivity
    have hy : (0 : ℚ) < flSeconds us * 1000 := by positivity
    have hdm := div_mod_rat us
    rw [hm] at hdm
    have hE : (2 : ℚ) ^ (E : ℤ) + 1 ≤ (us / 1000 : ℕ) := by
      rw [zpow_natCast]
      exact_mod_cast h1
    -- the distance of the floats near the seconds
    have e1 : flExp ((us : ℚ) / 10 ^ 6) ≤ (E : ℤ) - 9 - 53 := flExp_le hx (by
      rw [div_lt_iff₀ (by norm_num), zpow_sub₀ (by norm_num), zpow_natCast]
      have : (us : ℚ) * 512 < 2 ^ E * 10 ^ 6 := by exact_mod_cast h2
      norm_num at this ⊢
      linarith)
    -- the distance of the floats near the milliseconds
    have e2 : (E : ℤ) - 52 ≤ flExp (flSeconds us * 1000) := le_flExp hy (by
      have := (abs_le.1 m1).2
      have hdm' : (us : ℚ) / 1000 = (us / 1000 : ℕ) := by rw [hdm]; simp
      generalize (2 : ℚ) ^ flExp ((us : ℚ) / 10 ^ 6) = u1 at *
      norm_num at s3
      linarith)
    have hlt : 500 * (2 : ℚ) ^ flExp ((us : ℚ) / 10 ^ 6) < 2 ^ flExp (flSeconds us * 1000) / 2 := by
      have a : (2 : ℚ) ^ flExp ((us : ℚ) / 10 ^ 6) ≤ 2 ^ ((E : ℤ) - 62) := zpow_le_zpow_right₀ (by norm_num) (by omega)
      have b : (2 : ℚ) ^ ((E : ℤ) - 52) ≤ 2 ^ flExp (flSeconds us * 1000) := zpow_le_zpow_right₀ (by norm_num) e2
      have c : (2 : ℚ) ^ ((E : ℤ) - 52) = 1024 * 2 ^ ((E : ℤ) - 62) := by
        have : (E : ℤ) - 52 = 10 + ((E : ℤ) - 62) := by ring
        rw [this, zpow_add₀ (by norm_num)]
        norm_num
      have d : (0 : ℚ) < 2 ^ ((E : ℤ) - 62) := by positivity
      linarith
    obtain ⟨N, hN⟩ := int_multiple m3 ((us / 1000 : ℕ) : ℤ)
    have hfl : flPos (flSeconds us * 1000) = N * 2 ^ flExp (flSeconds us * 1000) := by
      apply flPos_eq
      rw [← hN, abs_sub_comm]
      have : (((us / 1000 : ℕ) : ℤ) : ℚ) = (us : ℚ) / 1000 := by
        rw [hdm, Int.cast_natCast]; simp
      rw [this]
      exact lt_of_le_of_lt m1 hlt
    rw [toTimestamp_eq h0 h, hfl, ← hN, Int.floor_intCast]
  · have := b3 hm
    omega

end Splitgill
