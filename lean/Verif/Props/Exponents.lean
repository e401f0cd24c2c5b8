import Verif.Proof.Exponents
import Verif.Props.Time
/-!
# C54: the limits of the exponent

The rounding of the model has no limits of the exponent. Here is where it is that of Python's floats, which have them.
-/

namespace Splitgill.Props
open Splitgill

/-- **C54**: a number in the range of the normal floats is rounded to a float of Python, with the limits of the exponent, that none is nearer
than; and if another one is as near, the model takes the even one of them. -/
theorem C54_finite (x : ℚ) (h : x = 0 ∨ ((2 : ℚ) ^ (-1022 : ℤ) ≤ |x| ∧ |x| ≤ 2 ^ (1023 : ℤ))) :
    FiniteDouble (fl x) ∧ (∀ d, FiniteDouble d → |x - fl x| ≤ |x - d|) ∧ IsRounded x (fl x) :=
  ⟨fl_finite h, fun d hd => (fl_nearest x).2 d hd.isDouble, C54_rounding x⟩

/-- **C54**: in all years that Python knows, the two roundings are to floats of Python. -/
theorem C54_limits (us : ℤ) (h : |us| < 2 ^ 38 * 10 ^ 6) :
    FiniteDouble (fl ((us : ℚ) / 10 ^ 6)) ∧ FiniteDouble (fl (fl ((us : ℚ) / 10 ^ 6) * 1000)) := timestamp_finite h

/-- The first and the last microsecond of Python's years. -/
example : |(-62135596800000000 : ℤ)| < 2 ^ 38 * 10 ^ 6 ∧ |(253402300799999999 : ℤ)| < 2 ^ 38 * 10 ^ 6 := by norm_num

/-- A tenth is in the range. -/
example : (2 : ℚ) ^ (-1022 : ℤ) ≤ |1 / 10| ∧ |(1 / 10 : ℚ)| ≤ 2 ^ (1023 : ℤ) := range_of (by norm_num) (by norm_num)

/-- Beyond the range the model differs: it takes half of the smallest float of Python for a float. -/
theorem C54_exponent_witness : IsDouble (2 ^ (-1075 : ℤ)) ∧ ¬ FiniteDouble (2 ^ (-1075 : ℤ)) := by
  refine ⟨⟨1, -1075, by norm_num, by simp⟩, ?_⟩
  rintro ⟨m, e, -, h1, -, h⟩
  obtain ⟨j, hj⟩ := Int.eq_ofNat_of_zero_le (show 0 ≤ e + 1074 by omega)
  have he : e = -1075 + (j + 1 : ℕ) := by push_cast; omega
  rw [he, zpow_add₀ (by norm_num), zpow_natCast] at h
  have hz : (2 : ℚ) ^ (-1075 : ℤ) ≠ 0 := by positivity
  have h3 : (1 : ℚ) = m * 2 ^ (j + 1) := by
    apply mul_left_cancel₀ hz
    rw [mul_one]
    exact h.trans (by ac_rfl)
  have h4 : (1 : ℤ) = m * 2 ^ (j + 1) := by exact_mod_cast h3
  have : (2 : ℤ) ∣ 1 := ⟨m * 2 ^ j, by rw [h4]; ring⟩
  omega

end Splitgill.Props
