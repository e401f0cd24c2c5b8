import Verif.Proof.TimeFar2
import Verif.Proof.Time3
/-!
# Properties of timestamps (C54)
-/

namespace Splitgill.Props
open Splitgill

/-- The rounding of the model is that of IEEE 754, to the nearest float and to the even one of two. -/
theorem C54_rounding (x : ℚ) : IsRounded x (fl x) := ⟨fl_nearest x, fun _ hs hne => fl_tie hs hne⟩

/-- The full statement of C54: the timestamp of a moment that is `us` microseconds after the epoch is the number of whole
milliseconds. -/
def C54_full : Prop := ∀ us : ℕ, toTimestamp us = ((us / 1000 : ℕ) : ℤ)

/-- The timestamp of 2004-01-10T13:37:04.001Z is one less than it should be. -/
theorem C54_witness : toTimestamp (1073741824001000 : ℕ) = 1073741824000 := by
  have e1 : flExp (((1073741824001000 : ℕ) : ℚ) / 10 ^ 6) = -22 := flExp_eq (by norm_num) (by norm_num)
  have s : flSeconds 1073741824001000 = 2251799813687345 / 2097152 := by
    unfold flSeconds
    rw [fl_pos (by norm_num)]
    unfold flPos
    rw [e1, roundEven_eq (N := 4503599627374690) (by rw [abs_lt]; norm_num)]
    norm_num
  have e2 : flExp ((2251799813687345 / 2097152 : ℚ) * 1000) = -13 := flExp_eq (by norm_num) (by norm_num)
  rw [toTimestamp_eq (by norm_num) (by norm_num), s]
  unfold flPos
  rw [e2, roundEven_eq (N := 8796093022216191) (by rw [abs_lt]; norm_num)]
  rw [Int.floor_eq_iff]
  norm_num

/-- **C54 does not hold in full.** -/
theorem C54_refuted : ¬ C54_full := by
  intro h
  have h1 := h 1073741824001000
  rw [C54_witness] at h1
  norm_num at h1

/-- **C54** up to the year 2242: the timestamp is never too big and at most one millisecond too small, and it is right
for moments that are not whole milliseconds. -/
theorem C54_bounds_partial (us : ℕ) (h : us < 2 ^ 33 * 10 ^ 6) :
    (toTimestamp us = ((us / 1000 : ℕ) : ℤ) ∨ toTimestamp us = ((us / 1000 : ℕ) : ℤ) - 1) ∧
    (us % 1000 ≠ 0 → toTimestamp us = ((us / 1000 : ℕ) : ℤ)) := by
  rcases Nat.eq_zero_or_pos us with rfl | h0
  · refine ⟨.inl ?_, fun h => absurd rfl h⟩
    simp [toTimestamp, fl, truncate]
  · obtain ⟨h1, h2, h3⟩ := toTimestamp_bounds h0 h
    exact ⟨by omega, fun hm => by have := h3 hm; omega⟩

/-- **C54**: the timestamp is right if the milliseconds are above a power of two and the seconds below the next power of
two. -/
theorem C54_ranges_partial (us E : ℕ) (h : us < 2 ^ 33 * 10 ^ 6) (h1 : 2 ^ E < us / 1000) (h2 : us * 512 < 2 ^ E * 10 ^ 6) :
    toTimestamp us = ((us / 1000 : ℕ) : ℤ) :=
  toTimestamp_range h h1 h2

/-- **C54** from 2004-11-03T19:53:47.777Z to 2038-01-19T03:14:08Z: the timestamp is right. -/
theorem C54_now_partial (us : ℕ) (h1 : 1099511627777000 ≤ us) (h2 : us < 2147483648000000) :
    toTimestamp us = ((us / 1000 : ℕ) : ℤ) :=
  toTimestamp_range (E := 40) (by omega) (by omega) (by omega)

/-- 2026-11-17T08:00:00.123456Z is in this range. -/
example : (1099511627777000 : ℕ) ≤ 1794902400123456 ∧ (1794902400123456 : ℕ) < 2147483648000000 := by norm_num

/-- **C54** for all moments up to the end of the year 9999: the timestamp is at most one too small or too big, and it is right for moments that
are 16 microseconds or more after a whole millisecond and more than 30 before the next one. -/
theorem C54_all_partial (us : ℕ) (h : us ≤ 253402300799999999) :
    (toTimestamp us = ((us / 1000 : ℕ) : ℤ) - 1 ∨ toTimestamp us = ((us / 1000 : ℕ) : ℤ) ∨ toTimestamp us = ((us / 1000 : ℕ) : ℤ) + 1) ∧
    (16 ≤ us % 1000 → us % 1000 ≤ 969 → toTimestamp us = ((us / 1000 : ℕ) : ℤ)) := by
  rcases Nat.eq_zero_or_pos us with rfl | h0
  · exact ⟨.inr (.inl (by simp [toTimestamp, fl, truncate])), fun h => absurd h (by norm_num)⟩
  · obtain ⟨h1, h2, h3, h4⟩ := far_bounds h0 (lt_of_le_of_lt h (by norm_num))
    exact ⟨by omega, fun a b => by have := h3 a; have := h4 b; omega⟩

/-- The last microsecond of the year 9999 has a timestamp of the year 10000. -/
theorem C54_late_witness : toTimestamp (253402300799999999 : ℕ) = 253402300800000 := by
  have e1 : flExp (((253402300799999999 : ℕ) : ℚ) / 10 ^ 6) = -15 := flExp_eq (by norm_num) (by norm_num)
  have s : flSeconds 253402300799999999 = 253402300800 := by
    unfold flSeconds
    rw [fl_pos (by norm_num)]
    unfold flPos
    rw [e1, roundEven_eq (N := 253402300800 * 2 ^ 15) (by rw [abs_lt]; norm_num)]
    norm_num
  have e2 : flExp ((253402300800 : ℚ) * 1000) = -5 := flExp_eq (by norm_num) (by norm_num)
  rw [far_timestamp_eq (by norm_num) (by norm_num), s]
  unfold flPos
  rw [e2, roundEven_eq (N := 253402300800000 * 2 ^ 5) (by rw [abs_lt]; norm_num)]
  rw [Int.floor_eq_iff]
  norm_num

/-- A moment of the year 9000. -/
example : (221845219200123456 : ℕ) ≤ 253402300799999999 ∧ toTimestamp (221845219200123456 : ℕ) = 221845219200123 := by
  refine ⟨by norm_num, ?_⟩
  rw [(C54_all_partial 221845219200123456 (by norm_num)).2 (by norm_num) (by norm_num)]
  norm_num

/-- **C54** for moments before the epoch: the timestamp of a moment as long before the epoch is the negative one. (So it is
the number of whole milliseconds between, and not that of the millisecond in which the moment lies.) -/
theorem C54_before_epoch (us : ℤ) : toTimestamp (-us) = - toTimestamp us := toTimestamp_neg us

/-- **C54** for dates, and for datetimes without a time zone that are whole seconds: the timestamp is right, in all years that Python knows
(its years 1 to 9999 are less than 2^43 seconds from the epoch). -/
theorem C54_date (s : ℤ) (hs : |s| < 2 ^ 43) : naiveTimestamp s 0 = 1000 * s := naive_date hs

/-- **C54** for datetimes without a time zone, although Python adds the microseconds to the seconds as floats then: the timestamp is that of
the same moment with a time zone. Missing: the six days before and after the epoch, and the years before 1697 and after 2242. -/
theorem C54_naive_partial (s : ℤ) (us : ℕ) (hs : 2 ^ 19 < |s|) (hs' : |s| < 2 ^ 33) (h : us < 10 ^ 6) :
    naiveTimestamp s us = toTimestamp (s * 10 ^ 6 + us) := naive_eq hs hs' h

/-- **C54** for all datetimes without a time zone (the years 1 to 9999 are within `2 ** 38` seconds): the timestamp is at most one away from the
whole milliseconds between the epoch and the moment, and is that number for moments that are 16 microseconds or more after one and more than
30 before the next. -/
theorem C54_naive_all_partial (s : ℤ) (us : ℕ) (hs : |s| < 2 ^ 38) (h : us < 10 ^ 6) :
    |naiveTimestamp s us - (s * 10 ^ 6 + us).tdiv 1000| ≤ 1 ∧
    (16 ≤ (s * 10 ^ 6 + us).natAbs % 1000 → (s * 10 ^ 6 + us).natAbs % 1000 ≤ 969 → naiveTimestamp s us = (s * 10 ^ 6 + us).tdiv 1000) :=
  naive_far hs h

/-- A moment of the year 1, and the day after the epoch. -/
example : naiveTimestamp (-62135596800) 1500 = -62135596799998 ∧ naiveTimestamp 86400 123456 = 86400123 := by
  refine ⟨?_, ?_⟩
  · rw [(C54_naive_all_partial _ _ (by norm_num) (by norm_num)).2 (by decide) (by decide)]; rfl
  · rw [(C54_naive_all_partial _ _ (by norm_num) (by norm_num)).2 (by decide) (by decide)]; rfl

/-- 2026-11-17T08:00:00.123456, and a moment of 1900. -/
example : naiveTimestamp 1794902400 123456 = 1794902400123 ∧ naiveTimestamp (-2208988800) 500 = toTimestamp (-2208988799999500) := by
  refine ⟨?_, ?_⟩
  · rw [C54_naive_partial _ _ (by norm_num) (by norm_num) (by norm_num)]
    exact C54_now_partial 1794902400123456 (by norm_num) (by norm_num)
  · rw [C54_naive_partial _ _ (by norm_num) (by norm_num) (by norm_num)]
    norm_num

/-! ## C72 -/

/-- **C72**: a later moment does not have an earlier timestamp. -/
theorem C72_order (a b : ℤ) (h : a ≤ b) : toTimestamp a ≤ toTimestamp b := toTimestamp_mono h

/-- C72 in full, with strict order of moments in different milliseconds. -/
def C72_full : Prop := ∀ a b : ℕ, a / 1000 < b / 1000 → toTimestamp a < toTimestamp b

/-- **C72** in full does not hold: a whole millisecond may have the timestamp of the one before (C54). -/
theorem C72_refuted : ¬ C72_full := by
  intro h
  have h1 := h 1073741824000001 1073741824001000 (by norm_num)
  have h2 := (C54_bounds_partial 1073741824000001 (by norm_num)).2 (by norm_num)
  rw [C54_witness, h2] at h1
  norm_num at h1

/-- **C72** for moments that are not whole milliseconds. Missing: see `C72_refuted`. -/
theorem C72_strict_partial (a b : ℕ) (hb : b < 2 ^ 33 * 10 ^ 6) (hm : b % 1000 ≠ 0) (h : a / 1000 < b / 1000) :
    toTimestamp a < toTimestamp b := by
  have ha : a < 2 ^ 33 * 10 ^ 6 := by omega
  have h1 := (C54_bounds_partial a ha).1
  have h2 := (C54_bounds_partial b hb).2 hm
  rw [h2]
  omega

/-- **C72** up to the end of the year 9999, away from the boundaries of milliseconds. -/
theorem C72_far_partial (a b : ℕ) (hb : b ≤ 253402300799999999) (hm : 16 ≤ b % 1000) (ha : a % 1000 ≤ 969) (h : a / 1000 < b / 1000) :
    toTimestamp a < toTimestamp b := by
  have h1 : toTimestamp a ≤ ((a / 1000 : ℕ) : ℤ) := by
    rcases Nat.eq_zero_or_pos a with rfl | h0
    · simp [toTimestamp, fl, truncate]
    · exact (far_bounds h0 (by omega)).2.2.2 ha
  have h2 := (far_bounds (by omega) (lt_of_le_of_lt hb (by norm_num))).2.2.1 hm
  omega

example : (1794902400123456 : ℕ) / 1000 < 1794902400124456 / 1000 ∧ 1794902400124456 % 1000 ≠ 0 := by norm_num

end Splitgill.Props
