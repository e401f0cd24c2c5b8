import Verif.Spec.JsonFloat
import Verif.Proof.FloatText3
import Verif.Proof.Coordinates
/-!
# The digits of floats in JSON
-/

namespace Splitgill

/-- The two multiples that `digitsFor` tries are those around the number. -/
theorem tried {x : ℚ} {m m' : ℤ} (hm : m = roundEven x) (hm' : m' = if (m : ℚ) ≤ x then m + 1 else m - 1) :
    ((m : ℚ) ≤ x ∧ x < m' ∧ m' = m + 1) ∨ (x < m ∧ (m' : ℚ) ≤ x ∧ m = m' + 1) := by
  have h := roundEven_abs x
  rw [← hm] at h
  have h2 := abs_le.1 h
  by_cases hc : (m : ℚ) ≤ x
  · rw [if_pos hc] at hm'
    left
    refine ⟨hc, ?_, hm'⟩
    rw [hm']
    push_cast
    linarith [h2.2]
  · rw [if_neg hc] at hm'
    rw [not_le] at hc
    right
    refine ⟨hc, ?_, by omega⟩
    rw [hm']
    push_cast
    linarith [h2.1]

/-- A decimal of `n + 1` digits below a number is not above the multiple below it. -/
theorem below_mult {n : Nat} {x s : ℚ} (hx : 0 < x) (hs : HasDigits 10 (n + 1) s) (h : s ≤ x) {m : ℤ} (h2 : x < (m + 1) * 10 ^ decExp n x) :
    s ≤ m * 10 ^ decExp n x := by
  have hk : (0 : ℚ) < 10 ^ decExp n x := by positivity
  obtain ⟨r1, r2⟩ := decExp_range (n := n) hx
  rcases hasDigits_mult hx hs with ⟨K, rfl⟩ | hlt
  · have : (K : ℚ) < m + 1 := lt_of_mul_lt_mul_right (lt_of_le_of_lt h h2) hk.le
    have : K < m + 1 := by exact_mod_cast this
    have : (K : ℚ) ≤ m := by exact_mod_cast (by omega : K ≤ m)
    gcongr
  · refine hlt.le.trans ?_
    have : (10 : ℚ) ^ n < m + 1 := lt_of_mul_lt_mul_right (lt_of_le_of_lt r1 h2) hk.le
    have h3 : (10 : ℤ) ^ n < m + 1 := by exact_mod_cast this
    have : (10 : ℚ) ^ n ≤ m := by exact_mod_cast (by omega : (10 : ℤ) ^ n ≤ m)
    gcongr

/-- A decimal of `n + 1` digits above a number is not below the multiple above it. -/
theorem above_mult {n : Nat} {x s : ℚ} (hx : 0 < x) (hs : HasDigits 10 (n + 1) s) (h : x ≤ s) {m : ℤ} (h2 : (m - 1) * 10 ^ decExp n x < x) :
    m * 10 ^ decExp n x ≤ s := by
  have hk : (0 : ℚ) < 10 ^ decExp n x := by positivity
  obtain ⟨r1, r2⟩ := decExp_range (n := n) hx
  rcases hasDigits_mult hx hs with ⟨K, rfl⟩ | hlt
  · have : (m - 1 : ℚ) < K := lt_of_mul_lt_mul_right (lt_of_lt_of_le h2 h) hk.le
    have : m - 1 < K := by exact_mod_cast this
    have : (m : ℚ) ≤ K := by exact_mod_cast (by omega : m ≤ K)
    gcongr
  · linarith

theorem fl_between {a b q : ℚ} (ha : fl a = q) (h1 : a ≤ b) (h2 : b ≤ q) (hq : IsDouble q) : fl b = q := by
  have e1 := fl_mono h1
  have e2 := fl_mono h2
  rw [ha] at e1
  rw [fl_double hq] at e2
  exact le_antisymm e2 e1

theorem fl_between' {a b q : ℚ} (ha : fl a = q) (h1 : b ≤ a) (h2 : q ≤ b) (hq : IsDouble q) : fl b = q := by
  have e1 := fl_mono h1
  have e2 := fl_mono h2
  rw [ha] at e1
  rw [fl_double hq] at e2
  exact le_antisymm e1 e2

/-- What `digitsFor` returns. -/
theorem digitsFor_spec {n : Nat} {q : ℚ} (hq : 0 < q) (hd : IsDouble q) :
    (digitsFor (n + 1) q = none → ∀ w, HasDigits 10 (n + 1) w → fl w ≠ q) ∧
    ∀ m u, digitsFor (n + 1) q = some (m, u) → u = decExp n q ∧ 10 ^ n ≤ m ∧ m ≤ 10 ^ (n + 1) ∧ fl (m * 10 ^ u) = q ∧
      (∀ w, HasDigits 10 (n + 1) w → fl w = q → |q - m * 10 ^ u| ≤ |q - w|) ∧
      ∀ w, HasDigits 10 (n + 1) w → fl w = q → |q - w| = |q - m * 10 ^ u| → w ≠ m * 10 ^ u →
        ∃ a k e : ℤ, (m : ℚ) * 10 ^ u = a * 10 ^ e ∧ w = k * 10 ^ e ∧ |a - k| = 1 ∧ Even a := by
  have hk : (0 : ℚ) < 10 ^ decExp n q := by positivity
  have hu : Int.log 10 q - ((n + 1 - 1 : Nat) : Int) = decExp n q := rfl
  unfold digitsFor
  dsimp only
  rw [hu]
  obtain ⟨g1, g2⟩ := decDigits_range (n := n) hq
  have hnear := decPos_nearest (n := n) hq
  have hround := decPos_rounded (n := n) hq
  have hdec : decPos n q = roundEven (q / 10 ^ decExp n q) * 10 ^ decExp n q := rfl
  have ht := tried (x := q / 10 ^ decExp n q) (m := roundEven (q / 10 ^ decExp n q)) rfl rfl
  generalize hm' : (if (roundEven (q / 10 ^ decExp n q) : ℚ) ≤ q / 10 ^ decExp n q then roundEven (q / 10 ^ decExp n q) + 1 else roundEven (q / 10 ^ decExp n q) - 1) = m' at *
  generalize roundEven (q / 10 ^ decExp n q) = m at *
  have hpos : (0 : ℤ) < 10 ^ n := by positivity
  obtain ⟨r1, r2⟩ := decExp_range (n := n) hq
  -- a decimal that is read as the number is on one of the two sides
  have side : ∀ w, HasDigits 10 (n + 1) w → fl w = q →
      (fl (m * 10 ^ decExp n q) = q) ∨ (fl (m' * 10 ^ decExp n q) = q ∧ |q - m' * 10 ^ decExp n q| ≤ |q - w| ∧
        (|q - w| = |q - m' * 10 ^ decExp n q| → w = m' * 10 ^ decExp n q)) := by
    intro w hw hf
    rcases ht with ⟨t1, t2, t3⟩ | ⟨t1, t2, t3⟩
    · have a1 : (m : ℚ) * 10 ^ decExp n q ≤ q := (le_div_iff₀ hk).1 t1
      have a2 : q < m' * 10 ^ decExp n q := (div_lt_iff₀ hk).1 t2
      have hm1 : (m' : ℚ) = m + 1 := by rw [t3]; push_cast; ring
      rcases le_total w q with hle | hle
      · left
        exact fl_between hf (below_mult hq hw hle (by rw [← hm1]; exact a2)) a1 hd
      · rcases eq_or_lt_of_le a1 with e | a1
        · left
          rw [e]
          exact fl_double hd
        · right
          have b := above_mult hq hw hle (m := m') (by rw [hm1, add_sub_cancel_right]; exact a1)
          refine ⟨fl_between' hf b a2.le hd, ?_, fun e => ?_⟩
          · rw [abs_of_nonpos (by linarith), abs_of_nonpos (by linarith)]
            linarith
          · rw [abs_of_nonpos (by linarith), abs_of_nonpos (by linarith)] at e
            linarith
    · have a1 : q < (m : ℚ) * 10 ^ decExp n q := (div_lt_iff₀ hk).1 t1
      have a2 : (m' : ℚ) * 10 ^ decExp n q ≤ q := (le_div_iff₀ hk).1 t2
      have hm1 : (m : ℚ) = m' + 1 := by rw [t3]; push_cast; ring
      rcases le_total w q with hle | hle
      · right
        have b := below_mult hq hw hle (m := m') (by rw [← hm1]; exact a1)
        refine ⟨fl_between hf b a2 hd, ?_, fun e => ?_⟩
        · rw [abs_of_nonneg (by linarith), abs_of_nonneg (by linarith)]
          linarith
        · rw [abs_of_nonneg (by linarith), abs_of_nonneg (by linarith)] at e
          linarith
      · rcases eq_or_lt_of_le a2 with e | a2
        · right
          rw [e]
          refine ⟨fl_double hd, by simp, fun h => ?_⟩
          rw [sub_self, abs_zero, abs_eq_zero] at h
          linarith
        · left
          exact fl_between' hf (above_mult hq hw hle (by rw [hm1, add_sub_cancel_right]; exact a2)) a1.le hd
  constructor
  · intro hnone w hw hf
    rcases side w hw hf with h | h
    · rw [if_pos h] at hnone
      cases hnone
    · split at hnone
      · cases hnone
      · rw [if_pos h.1] at hnone
        cases hnone
  · intro k u h
    split at h
    · rename_i hc
      cases h
      have hmk : ((m.toNat : ℕ) : ℚ) = m := by exact_mod_cast Int.toNat_of_nonneg (by omega)
      refine ⟨rfl, ?_, ?_, ?_, ?_, ?_⟩
      · zify
        rw [Int.toNat_of_nonneg (by omega)]
        exact g1
      · zify
        rw [Int.toNat_of_nonneg (by omega)]
        exact g2
      · rw [hmk]
        exact hc
      · intro w hw _
        rw [hmk, ← hdec]
        exact hnear.2 w hw
      · intro w hw _ he hne
        rw [hmk, ← hdec] at he hne ⊢
        exact hround.2 w ⟨hw, fun s hs => by rw [he]; exact hnear.2 s hs⟩ hne
    · rename_i hc
      split at h
      · rename_i hc'
        cases h
        have hrange : (10 : ℤ) ^ n ≤ m' ∧ m' ≤ 10 ^ (n + 1) := by
          rcases ht with ⟨t1, t2, t3⟩ | ⟨t1, t2, t3⟩
          · have a1 : (m : ℚ) < 10 ^ (n + 1) := by
              have a1 : (m : ℚ) * 10 ^ decExp n q ≤ q := (le_div_iff₀ hk).1 t1
              exact lt_of_mul_lt_mul_right (lt_of_le_of_lt a1 r2) hk.le
            have : m < 10 ^ (n + 1) := by exact_mod_cast a1
            omega
          · have a1 : (10 : ℚ) ^ n < m := by
              have a1 : q < (m : ℚ) * 10 ^ decExp n q := (div_lt_iff₀ hk).1 t1
              exact lt_of_mul_lt_mul_right (lt_of_le_of_lt r1 a1) hk.le
            have : 10 ^ n < m := by exact_mod_cast a1
            omega
        have hmk : ((m'.toNat : ℕ) : ℚ) = m' := by exact_mod_cast Int.toNat_of_nonneg (by omega)
        refine ⟨rfl, ?_, ?_, ?_, ?_, ?_⟩
        · zify
          rw [Int.toNat_of_nonneg (by omega)]
          exact hrange.1
        · zify
          rw [Int.toNat_of_nonneg (by omega)]
          exact hrange.2
        · rw [hmk]
          exact hc'
        · intro w hw hf
          rw [hmk]
          rcases side w hw hf with h | h
          · exact absurd h hc
          · exact h.2.1
        · intro w hw hf he hne
          rw [hmk] at he hne
          rcases side w hw hf with h | h
          · exact absurd h hc
          · exact absurd (h.2.2 he) hne
      · cases h

end Splitgill
