import Verif.Spec.FloatText
import Verif.Proof.Time3
/-!
# Lemmas about decimals of floats
-/

namespace Splitgill

theorem isDouble_iff (r : ℚ) : IsDouble r ↔ HasDigits 2 53 r := Iff.rfl

/-- Two numbers with `p` digits are not close to each other. -/
theorem digits_apart {b p : Nat} (hb : 1 < b) {v d : ℚ} (hv : HasDigits b p v) (hd : HasDigits b p d) (hne : v ≠ d) :
    |d| < |v - d| * ((b : ℚ) ^ p + 1) := by
  obtain ⟨m', e', hm', rfl⟩ := hv
  obtain ⟨m, e, hm, rfl⟩ := hd
  have hbq : (1 : ℚ) < b := by exact_mod_cast hb
  have hb0 : (0 : ℚ) < b := by linarith
  have bound : ∀ (m : ℤ), |m| < (b : ℤ) ^ p → |(m : ℚ)| < (b : ℚ) ^ p := by
    intro m h
    exact_mod_cast h
  have hpow : (1 : ℚ) ≤ (b : ℚ) ^ p := one_le_pow₀ hbq.le
  have far : ∀ (x y : ℤ) (f g : ℤ), f ≤ g → (x : ℚ) * (b : ℚ) ^ f ≠ y * (b : ℚ) ^ g → (b : ℚ) ^ f ≤ |(x : ℚ) * (b : ℚ) ^ f - y * (b : ℚ) ^ g| := by
    intro x y f g hfg hne
    obtain ⟨j, hj⟩ := Int.eq_ofNat_of_zero_le (show 0 ≤ g - f by omega)
    have e1 : (y : ℚ) * (b : ℚ) ^ g = ((y * (b : ℤ) ^ j : ℤ) : ℚ) * (b : ℚ) ^ f := by
      have : g = j + f := by omega
      rw [this, zpow_add₀ hb0.ne', zpow_natCast]
      push_cast
      ring
    rw [e1] at hne ⊢
    have hp : (0 : ℚ) < (b : ℚ) ^ f := by positivity
    rw [← sub_mul, abs_mul, abs_of_pos hp]
    have h1 : x - y * (b : ℤ) ^ j ≠ 0 := by
      intro h
      exact hne (by rw [show x = y * (b : ℤ) ^ j by omega])
    have h2 : (1 : ℤ) ≤ |x - y * (b : ℤ) ^ j| := Int.one_le_abs h1
    have h3 : (1 : ℚ) ≤ |(x : ℚ) - ((y * (b : ℤ) ^ j : ℤ) : ℚ)| := by exact_mod_cast h2
    nlinarith
  have hp : (0 : ℚ) < (b : ℚ) ^ e := by positivity
  have hp' : (0 : ℚ) < (b : ℚ) ^ e' := by positivity
  rcases le_total e e' with h | h
  · have h1 := far m m' e e' h hne.symm
    rw [abs_sub_comm] at h1
    have h2 : |(m : ℚ) * (b : ℚ) ^ e| < (b : ℚ) ^ p * (b : ℚ) ^ e := by
      rw [abs_mul, abs_of_pos hp]
      exact mul_lt_mul_of_pos_right (bound m hm) hp
    nlinarith
  · have h1 := far m' m e' e h hne
    have h2 : |(m' : ℚ) * (b : ℚ) ^ e'| < (b : ℚ) ^ p * (b : ℚ) ^ e' := by
      rw [abs_mul, abs_of_pos hp']
      exact mul_lt_mul_of_pos_right (bound m' hm') hp'
    have h3 : |(m : ℚ) * (b : ℚ) ^ e| ≤ |(m' : ℚ) * (b : ℚ) ^ e'| + |(m' : ℚ) * (b : ℚ) ^ e' - m * (b : ℚ) ^ e| := by
      have := abs_sub_abs_le_abs_sub ((m : ℚ) * (b : ℚ) ^ e) (m' * (b : ℚ) ^ e')
      rw [abs_sub_comm] at this
      linarith
    nlinarith

/-! ## Rounding to decimals -/

/-- The exponent of the last of `n + 1` digits. -/
def decExp (n : Nat) (x : ℚ) : ℤ := Int.log 10 x - n

/-- The decimal of `n + 1` digits a positive number is rounded to. -/
def decPos (n : Nat) (x : ℚ) : ℚ := roundEven (x / 10 ^ decExp n x) * 10 ^ decExp n x

theorem decExp_range {n : Nat} {x : ℚ} (hx : 0 < x) : (10 : ℚ) ^ n * 10 ^ decExp n x ≤ x ∧ x < (10 : ℚ) ^ (n + 1) * 10 ^ decExp n x := by
  have h1 := Int.zpow_log_le_self (R := ℚ) (b := 10) (by norm_num) hx
  have h2 := Int.lt_zpow_succ_log_self (R := ℚ) (b := 10) (by norm_num) x
  have e1 : (10 : ℚ) ^ n * 10 ^ decExp n x = 10 ^ Int.log 10 x := by
    unfold decExp
    rw [← zpow_natCast, ← zpow_add₀ (by norm_num)]
    congr 1
    ring
  have e2 : (10 : ℚ) ^ (n + 1) * 10 ^ decExp n x = 10 ^ (Int.log 10 x + 1) := by
    unfold decExp
    rw [← zpow_natCast, ← zpow_add₀ (by norm_num)]
    congr 1
    push_cast
    ring
  rw [e1, e2]
  exact ⟨by exact_mod_cast h1, by exact_mod_cast h2⟩

theorem decPos_abs {n : Nat} {x : ℚ} : |x - decPos n x| ≤ 10 ^ decExp n x / 2 := by
  have hk : (0 : ℚ) < 10 ^ decExp n x := by positivity
  have h := roundEven_abs (x / 10 ^ decExp n x)
  have e : x - decPos n x = (x / 10 ^ decExp n x - roundEven (x / 10 ^ decExp n x)) * 10 ^ decExp n x := by
    unfold decPos
    field_simp
  rw [e, abs_mul, abs_of_pos hk]
  calc _ ≤ 1 / 2 * (10 : ℚ) ^ decExp n x := by gcongr
    _ = _ := by ring

/-- The rounded digits: from `10 ^ n` to `10 ^ (n + 1)`. -/
theorem decDigits_range {n : Nat} {x : ℚ} (hx : 0 < x) : (10 : ℤ) ^ n ≤ roundEven (x / 10 ^ decExp n x) ∧ roundEven (x / 10 ^ decExp n x) ≤ (10 : ℤ) ^ (n + 1) := by
  have hk : (0 : ℚ) < 10 ^ decExp n x := by positivity
  obtain ⟨h1, h2⟩ := decExp_range (n := n) hx
  exact ⟨le_roundEven (by rw [le_div_iff₀ hk]; exact_mod_cast h1), roundEven_le (by rw [div_le_iff₀ hk]; exact_mod_cast h2.le)⟩

theorem decPos_hasDigits {n : Nat} {x : ℚ} (hx : 0 < x) : HasDigits 10 (n + 1) (decPos n x) := by
  obtain ⟨h3, h4⟩ := decDigits_range (n := n) hx
  have h0 : (0 : ℤ) < 10 ^ n := by positivity
  rcases lt_or_eq_of_le h4 with h5 | h5
  · exact ⟨_, _, by rw [abs_of_nonneg (by linarith)]; exact h5, rfl⟩
  · refine ⟨1, decExp n x + (n + 1 : ℕ), ?_, ?_⟩
    · have : (1 : ℤ) < 10 ^ (n + 1) := one_lt_pow₀ (by norm_num) (by omega)
      simpa using this
    · unfold decPos
      rw [h5, zpow_add₀ (by norm_num), zpow_natCast]
      push_cast
      ring

theorem hasDigits_mult {n : Nat} {x : ℚ} (hx : 0 < x) {s : ℚ} (hs : HasDigits 10 (n + 1) s) :
    (∃ K : ℤ, s = K * 10 ^ decExp n x) ∨ s < 10 ^ n * 10 ^ decExp n x := by
  obtain ⟨m, e, hm, rfl⟩ := hs
  by_cases he : decExp n x ≤ e
  · left
    obtain ⟨j, hj⟩ := Int.eq_ofNat_of_zero_le (show 0 ≤ e - decExp n x by omega)
    refine ⟨m * 10 ^ j, ?_⟩
    have : e = j + decExp n x := by omega
    rw [this, Nat.cast_ofNat, zpow_add₀ (by norm_num), zpow_natCast]
    push_cast
    ring
  · right
    have hm' : (m : ℚ) < 10 ^ (n + 1) := by exact_mod_cast (abs_lt.1 hm).2
    have he' : (10 : ℚ) ^ e ≤ 10 ^ (decExp n x - 1) := zpow_le_zpow_right₀ (by norm_num) (by omega)
    have hp : (0 : ℚ) < 10 ^ e := by positivity
    rw [Nat.cast_ofNat]
    calc (m : ℚ) * 10 ^ e < 10 ^ (n + 1) * 10 ^ e := by gcongr
      _ ≤ 10 ^ (n + 1) * 10 ^ (decExp n x - 1) := by gcongr
      _ = 10 ^ n * 10 ^ decExp n x := by
        rw [zpow_sub₀ (by norm_num), pow_succ]
        field_simp

theorem decPos_mult {n : Nat} {x : ℚ} (N : ℤ) : |x - decPos n x| ≤ |x - N * 10 ^ decExp n x| := by
  have hk : (0 : ℚ) < 10 ^ decExp n x := by positivity
  have h := roundEven_nearest (x / 10 ^ decExp n x) N
  have e1 : x - decPos n x = (x / 10 ^ decExp n x - roundEven (x / 10 ^ decExp n x)) * 10 ^ decExp n x := by
    unfold decPos
    field_simp
  have e2 : x - N * 10 ^ decExp n x = (x / 10 ^ decExp n x - N) * 10 ^ decExp n x := by field_simp
  rw [e1, e2, abs_mul, abs_mul, abs_of_pos hk]
  gcongr

theorem decPos_nearest {n : Nat} {x : ℚ} (hx : 0 < x) : NearestDecimal (n + 1) x (decPos n x) := by
  refine ⟨decPos_hasDigits hx, fun s hs => ?_⟩
  obtain ⟨h1, h2⟩ := decExp_range (n := n) hx
  rcases hasDigits_mult hx hs with ⟨K, rfl⟩ | h
  · exact decPos_mult K
  · have := decPos_mult (n := n) (x := x) (10 ^ n)
    push_cast at this
    refine this.trans ?_
    rw [abs_of_nonneg (by linarith), abs_of_nonneg (by linarith)]
    linarith

theorem decPos_rounded {n : Nat} {x : ℚ} (hx : 0 < x) : RoundedDecimal (n + 1) x (decPos n x) := by
  refine ⟨decPos_nearest hx, fun s hs hne => ?_⟩
  have hk : (0 : ℚ) < 10 ^ decExp n x := by positivity
  obtain ⟨h1, h2⟩ := decExp_range (n := n) hx
  have heq : |x - s| = |x - decPos n x| := le_antisymm (hs.2 _ (decPos_hasDigits hx)) ((decPos_nearest hx).2 s hs.1)
  have hlow : (10 : ℚ) ^ n * 10 ^ decExp n x ≤ s := by
    by_contra hlt
    rw [not_le] at hlt
    have hd : HasDigits 10 (n + 1) ((10 : ℚ) ^ n * 10 ^ decExp n x) := ⟨10 ^ n, decExp n x, by
      rw [abs_of_nonneg (by positivity)]
      exact pow_lt_pow_right₀ (by norm_num) (by omega), by push_cast; rfl⟩
    have := hs.2 _ hd
    rw [abs_of_nonneg (by linarith), abs_of_nonneg (by linarith)] at this
    linarith
  rcases hasDigits_mult hx hs.1 with ⟨K, rfl⟩ | h
  · have e1 : x - decPos n x = (x / 10 ^ decExp n x - roundEven (x / 10 ^ decExp n x)) * 10 ^ decExp n x := by
      unfold decPos
      field_simp
    have e2 : x - K * 10 ^ decExp n x = (x / 10 ^ decExp n x - K) * 10 ^ decExp n x := by field_simp
    rw [e1, e2, abs_mul, abs_mul, abs_of_pos hk] at heq
    have heq' := mul_right_cancel₀ hk.ne' heq
    obtain ⟨g1, g2⟩ := roundEven_tie heq' (fun e => hne (by rw [e]; rfl))
    exact ⟨_, K, decExp n x, rfl, rfl, g1, g2⟩
  · linarith

theorem HasDigits.neg {b p : Nat} {s : ℚ} (h : HasDigits b p s) : HasDigits b p (-s) := by
  obtain ⟨m, e, hm, rfl⟩ := h
  exact ⟨-m, e, by rw [abs_neg]; exact hm, by push_cast; ring⟩

theorem NearestDecimal.neg {p : Nat} {x s : ℚ} (h : NearestDecimal p x s) : NearestDecimal p (-x) (-s) := by
  refine ⟨h.1.neg, fun t ht => ?_⟩
  have := h.2 (-t) ht.neg
  have e1 : -x - -s = -(x - s) := by ring
  have e2 : -x - t = -(x - -t) := by ring
  rw [e1, e2, abs_neg, abs_neg]
  exact this

theorem RoundedDecimal.neg {p : Nat} {x r : ℚ} (h : RoundedDecimal p x r) : RoundedDecimal p (-x) (-r) := by
  refine ⟨h.1.neg, fun s hs hne => ?_⟩
  have hs' : NearestDecimal p x (-s) := by simpa using hs.neg
  obtain ⟨m, k, e, h1, h2, h3, h4⟩ := h.2 (-s) hs' (fun e => hne (by linarith))
  refine ⟨-m, -k, e, by push_cast; linarith, by push_cast; linarith, ?_, h4.neg⟩
  rw [← h3, ← abs_neg]
  congr 1
  ring

/-- A number is rounded to one decimal. -/
theorem RoundedDecimal.unique {p : Nat} {x r r' : ℚ} (h : RoundedDecimal p x r) (h' : RoundedDecimal p x r') : r = r' := by
  by_contra hne
  obtain ⟨m, k, e, h1, h2, h3, h4⟩ := h.2 r' h'.1 (fun e => hne e.symm)
  obtain ⟨m', k', e', g1, g2, g3, g4⟩ := h'.2 r h.1 hne
  have key : ∀ {a b : ℤ} {f : ℤ}, |a - b| = 1 → |(a : ℚ) * 10 ^ f - b * 10 ^ f| = 10 ^ f := by
    intro a b f hab
    have hp : (0 : ℚ) < 10 ^ f := by positivity
    rw [← sub_mul, abs_mul, abs_of_pos hp]
    have : |(a : ℚ) - b| = 1 := by exact_mod_cast hab
    rw [this, one_mul]
  have a1 : |r - r'| = 10 ^ e := by
    conv_lhs => rw [h1, h2]
    exact key h3
  have a2 : |r - r'| = 10 ^ e' := by
    rw [abs_sub_comm]
    conv_lhs => rw [g1, g2]
    exact key g3
  have he : e = e' := zpow_right_injective₀ (a := (10 : ℚ)) (by norm_num) (by norm_num) (a1.symm.trans a2)
  subst he
  have hp : (0 : ℚ) < 10 ^ e := by positivity
  have : (k : ℚ) = m' := mul_right_cancel₀ hp.ne' (h2.symm.trans g1)
  have hk : k = m' := by exact_mod_cast this
  subst hk
  obtain ⟨a, ha⟩ := h4
  obtain ⟨b, hb⟩ := g4
  rcases (abs_eq (by norm_num)).1 h3 with h | h <;> omega

/-! ## Digits that are enough -/

theorem flPos_close {x : ℚ} (hx : 0 < x) : |x - flPos x| * 2 ^ (53 : ℕ) ≤ x := by
  have h := flPos_abs (x := x)
  have h1 := (flExp_range hx).1
  have e1 : (2 : ℚ) ^ (53 : ℕ) = 2 * 2 ^ (52 : ℕ) := by norm_num
  rw [e1]
  nlinarith

theorem fl_close (x : ℚ) : |x - fl x| * 2 ^ (53 : ℕ) ≤ |x| := by
  rcases lt_trichotomy x 0 with h | h | h
  · have := flPos_close (x := -x) (by linarith)
    have hf : fl (-x) = flPos (-x) := fl_pos (by linarith)
    rw [← hf, fl_neg] at this
    have e : -x - -fl x = -(x - fl x) := by ring
    rw [e, abs_neg] at this
    rw [abs_of_neg h]
    exact this
  · subst h
    simp [fl]
  · rw [fl_pos h, abs_of_pos h]
    exact flPos_close h

/-- Up to 15 digits are kept by a double. -/
theorem digits_kept {p : Nat} (hp : p ≤ 15) {d v : ℚ} (hd : HasDigits 10 p d) (hv : NearestDecimal p (fl d) v) : v = d := by
  by_contra hne
  have h1 := digits_apart (b := 10) (by norm_num) hv.1 hd hne
  have h2 := hv.2 d hd
  have h3 := fl_close d
  have h4 : |v - d| ≤ 2 * |d - fl d| := by
    have : v - d = -(fl d - v) + -(d - fl d) := by ring
    rw [this]
    refine (abs_add_le _ _).trans ?_
    rw [abs_neg, abs_neg]
    have : |fl d - d| = |d - fl d| := abs_sub_comm _ _
    linarith
  have h5 : ((10 : ℕ) : ℚ) ^ p + 1 ≤ 2 ^ (52 : ℕ) := by
    have : ((10 : ℕ) : ℚ) ^ p ≤ ((10 : ℕ) : ℚ) ^ 15 := pow_le_pow_right₀ (by norm_num) hp
    have h6 : ((10 : ℕ) : ℚ) ^ 15 + 1 ≤ 2 ^ (52 : ℕ) := by norm_num
    linarith
  have h0 := abs_nonneg (v - d)
  have h7 : |v - d| * (((10 : ℕ) : ℚ) ^ p + 1) ≤ |v - d| * 2 ^ (52 : ℕ) := by gcongr
  have e1 : (2 : ℚ) ^ (53 : ℕ) = 2 * 2 ^ (52 : ℕ) := by norm_num
  rw [e1] at h3
  nlinarith

theorem nearest_close {n : Nat} {x v : ℚ} (hx : x ≠ 0) (hv : NearestDecimal (n + 1) x v) : 2 * |x - v| * 10 ^ n ≤ |x| := by
  have key : ∀ {x v : ℚ}, 0 < x → NearestDecimal (n + 1) x v → 2 * |x - v| * 10 ^ n ≤ |x| := by
    intro x v hx hv
    have h1 := hv.2 _ (decPos_hasDigits (n := n) hx)
    have h2 := decPos_abs (n := n) (x := x)
    have h3 := (decExp_range (n := n) hx).1
    rw [abs_of_pos hx]
    have h0 : (0 : ℚ) < 10 ^ n := by positivity
    nlinarith
  rcases lt_or_gt_of_ne hx with h | h
  · have := key (x := -x) (by linarith) hv.neg
    rw [abs_neg] at this
    have e : -x - -v = -(x - v) := by ring
    rwa [e, abs_neg] at this
  · exact key h hv

/-- 17 digits or more tell which double it was. -/
theorem doubles_kept {p : Nat} (hp : 17 ≤ p) {x v : ℚ} (hx : IsDouble x) (h0 : x ≠ 0) (hv : NearestDecimal p x v) : fl v = x := by
  by_contra hne
  obtain ⟨n, rfl⟩ : ∃ n, p = n + 1 := ⟨p - 1, by omega⟩
  have h1 := digits_apart (b := 2) (p := 53) (by norm_num) (fl_nearest v).1 hx hne
  have h2 := (fl_nearest v).2 x hx
  have h3 := nearest_close h0 hv
  have h4 : |fl v - x| ≤ 2 * |x - v| := by
    have : fl v - x = -(v - fl v) + -(x - v) := by ring
    rw [this]
    refine (abs_add_le _ _).trans ?_
    rw [abs_neg, abs_neg]
    have : |v - x| = |x - v| := abs_sub_comm _ _
    linarith
  have h5 : ((2 : ℕ) : ℚ) ^ 53 + 1 ≤ 10 ^ n := by
    have : (10 : ℚ) ^ 16 ≤ 10 ^ n := pow_le_pow_right₀ (by norm_num) (by omega)
    have h6 : ((2 : ℕ) : ℚ) ^ 53 + 1 ≤ 10 ^ 16 := by norm_num
    linarith
  have h7 : |fl v - x| * (((2 : ℕ) : ℚ) ^ 53 + 1) ≤ 2 * |x - v| * 10 ^ n := by
    have := abs_nonneg (x - v)
    gcongr
  linarith

end Splitgill
