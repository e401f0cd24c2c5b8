import Verif.Proof.Time
/-!
# More lemmas about rounding: ties, order and sign
-/

namespace Splitgill

/-! ## Ties -/

theorem roundEven_tie {y : ℚ} {K : ℤ} (h : |y - K| = |y - roundEven y|) (hne : K ≠ roundEven y) :
    |roundEven y - K| = 1 ∧ Even (roundEven y) := by
  have ha := roundEven_abs y
  have hK : |y - K| ≤ 1 / 2 := h ▸ ha
  have hd : |((roundEven y - K : ℤ) : ℚ)| ≤ 1 := by
    have e : ((roundEven y - K : ℤ) : ℚ) = (y - K) - (y - roundEven y) := by push_cast; ring
    rw [e]
    calc _ ≤ |y - K| + |y - roundEven y| := abs_sub _ _
      _ ≤ 1 := by linarith
  have hd' : |roundEven y - K| ≤ 1 := by exact_mod_cast hd
  have h1 : |roundEven y - K| = 1 := by
    have : 0 < |roundEven y - K| := abs_pos.2 (by omega)
    omega
  refine ⟨h1, ?_⟩
  -- the two are on both sides of `y`
  have hmid : y = (K + roundEven y : ℤ) / 2 := by
    rcases abs_eq_abs.1 h with h | h
    · exact absurd (by exact_mod_cast (show (K : ℚ) = roundEven y by linarith)) hne
    · push_cast; linarith
  have hK2 : K = roundEven y + 1 ∨ K = roundEven y - 1 := by
    rcases (abs_eq (by norm_num)).1 h1 with h | h <;> omega
  have hfl : y - ⌊y⌋ = 1 / 2 := by
    rcases hK2 with e | e
    · have hy : y = roundEven y + 1 / 2 := by rw [e] at hmid; push_cast at hmid; linarith
      have : ⌊y⌋ = roundEven y := by
        rw [Int.floor_eq_iff]
        constructor <;> linarith
      rw [this]; linarith
    · have hy : y = roundEven y - 1 / 2 := by rw [e] at hmid; push_cast at hmid; linarith
      have : ⌊y⌋ = roundEven y - 1 := by
        rw [Int.floor_eq_iff]
        push_cast
        constructor <;> linarith
      rw [this]; push_cast; linarith
  unfold roundEven
  rw [if_neg (by linarith), if_neg (by linarith)]
  split_ifs with h2
  · exact Int.even_iff.2 h2
  · rw [Int.even_iff]; omega

theorem flPos_tie {x : ℚ} (hx : 0 < x) {s : ℚ} (hs : IsNearest x s) (hne : s ≠ flPos x) :
    ∃ m k e : ℤ, flPos x = m * 2 ^ e ∧ s = k * 2 ^ e ∧ |m - k| = 1 ∧ Even m := by
  have hk : (0 : ℚ) < 2 ^ flExp x := by positivity
  obtain ⟨h1, h2⟩ := flExp_range hx
  have heq : |x - s| = |x - flPos x| := le_antisymm (hs.2 _ (flPos_isDouble hx)) (flPos_nearest hx s hs.1)
  have hlow : (2 : ℚ) ^ (52 : ℕ) * 2 ^ flExp x ≤ s := by
    by_contra hlt
    rw [not_le] at hlt
    have hd : IsDouble ((2 : ℚ) ^ (52 : ℕ) * 2 ^ flExp x) := ⟨2 ^ 52, flExp x, by norm_num, by push_cast; rfl⟩
    have := hs.2 _ hd
    rw [abs_of_nonneg (by linarith), abs_of_nonneg (by linarith)] at this
    linarith
  have hmult : ∃ K : ℤ, s = K * 2 ^ flExp x := by
    obtain ⟨m, e, hm, rfl⟩ := hs.1
    by_cases he : flExp x ≤ e
    · obtain ⟨j, hj⟩ := Int.eq_ofNat_of_zero_le (show 0 ≤ e - flExp x by omega)
      refine ⟨m * 2 ^ j, ?_⟩
      push_cast
      have : e = j + flExp x := by omega
      rw [this, zpow_add₀ (by norm_num), zpow_natCast]
      ring
    · exfalso
      have hm' : (m : ℚ) < 2 ^ (53 : ℕ) := by exact_mod_cast (abs_lt.1 hm).2
      have he' : (2 : ℚ) ^ e ≤ 2 ^ (flExp x - 1) := zpow_le_zpow_right₀ (by norm_num) (by omega)
      have hp : (0 : ℚ) < 2 ^ e := by positivity
      have : (m : ℚ) * 2 ^ e < 2 ^ (52 : ℕ) * 2 ^ flExp x := by
        calc (m : ℚ) * 2 ^ e < 2 ^ (53 : ℕ) * 2 ^ e := by gcongr
          _ ≤ 2 ^ (53 : ℕ) * 2 ^ (flExp x - 1) := by gcongr
          _ = 2 ^ (52 : ℕ) * 2 ^ flExp x := by
            rw [zpow_sub₀ (by norm_num)]
            norm_num
            ring
      linarith
  obtain ⟨K, rfl⟩ := hmult
  have e1 : x - flPos x = (x / 2 ^ flExp x - roundEven (x / 2 ^ flExp x)) * 2 ^ flExp x := by
    unfold flPos
    field_simp
  have e2 : x - K * 2 ^ flExp x = (x / 2 ^ flExp x - K) * 2 ^ flExp x := by field_simp
  rw [e1, e2, abs_mul, abs_mul, abs_of_pos hk] at heq
  have heq' := mul_right_cancel₀ hk.ne' heq
  obtain ⟨g1, g2⟩ := roundEven_tie heq' (fun e => hne (by rw [e]; rfl))
  exact ⟨_, K, flExp x, rfl, rfl, g1, g2⟩

theorem IsDouble.neg {s : ℚ} (h : IsDouble s) : IsDouble (-s) := by
  obtain ⟨m, e, hm, rfl⟩ := h
  exact ⟨-m, e, by rw [abs_neg]; exact hm, by push_cast; ring⟩

theorem IsNearest.neg {x s : ℚ} (h : IsNearest x s) : IsNearest (-x) (-s) := by
  refine ⟨h.1.neg, fun t ht => ?_⟩
  have := h.2 (-t) ht.neg
  have e1 : -x - -s = -(x - s) := by ring
  have e2 : -x - t = -(x - -t) := by ring
  rw [e1, e2, abs_neg, abs_neg]
  exact this

theorem fl_neg (x : ℚ) : fl (-x) = - fl x := by
  unfold fl
  rcases lt_trichotomy x 0 with h | h | h
  · rw [if_neg (by linarith), if_pos (by linarith), if_neg h.ne, if_neg (by linarith), neg_neg]
  · subst h; simp
  · rw [if_neg (by linarith), if_neg (by linarith), if_neg h.ne', if_pos h, neg_neg]

theorem fl_tie {x s : ℚ} (hs : IsNearest x s) (hne : s ≠ fl x) :
    ∃ m k e : ℤ, fl x = m * 2 ^ e ∧ s = k * 2 ^ e ∧ |m - k| = 1 ∧ Even m := by
  rcases lt_trichotomy x 0 with h | h | h
  · have hf : fl (-x) = flPos (-x) := fl_pos (by linarith)
    obtain ⟨m, k, e, h1, h2, h3, h4⟩ := flPos_tie (x := -x) (by linarith) hs.neg (fun e => hne (by
      rw [← hf, fl_neg] at e; linarith))
    rw [← hf, fl_neg] at h1
    refine ⟨-m, -k, e, by push_cast; linarith, by push_cast; linarith, ?_, h4.neg⟩
    rw [← h3, ← abs_neg]; congr 1; ring
  · subst h
    have := hs.2 0 ⟨0, 0, by norm_num, by norm_num⟩
    simp only [zero_sub, abs_neg, sub_zero, abs_zero] at this
    have : s = 0 := abs_eq_zero.1 (le_antisymm this (abs_nonneg _))
    simp [fl, this] at hne
  · rw [fl_pos h] at hne ⊢
    exact flPos_tie h hs hne

/-! ## Order -/

theorem roundEven_mono {a b : ℚ} (h : a ≤ b) : roundEven a ≤ roundEven b := by
  by_contra hlt
  rw [not_le] at hlt
  have ha := (abs_le.1 (roundEven_abs a)).1
  have hb := (abs_le.1 (roundEven_abs b)).2
  have hq : (roundEven b : ℚ) + 1 ≤ roundEven a := by exact_mod_cast hlt
  have : a = b := le_antisymm h (by linarith)
  rw [this] at hlt
  exact lt_irrefl _ hlt

theorem flPos_mono {a b : ℚ} (ha : 0 < a) (h : a ≤ b) : flPos a ≤ flPos b := by
  have hb : 0 < b := by linarith
  obtain ⟨a1, a2⟩ := flExp_range ha
  obtain ⟨b1, b2⟩ := flExp_range hb
  rcases lt_trichotomy (flExp a) (flExp b) with hlt | heq | hgt
  · have u1 : flPos a ≤ ((2 ^ 53 : ℤ) : ℚ) * 2 ^ flExp a := flPos_le (by push_cast; exact a2.le)
    have u2 : ((2 ^ 52 : ℤ) : ℚ) * 2 ^ flExp b ≤ flPos b := le_flPos (by push_cast; exact b1)
    have : (2 : ℚ) ^ (flExp a + 1) ≤ 2 ^ flExp b := zpow_le_zpow_right₀ (by norm_num) (by omega)
    rw [zpow_add₀ (by norm_num)] at this
    push_cast at u1 u2
    norm_num at this u1 u2
    linarith
  · have hk : (0 : ℚ) < 2 ^ flExp b := by positivity
    unfold flPos
    rw [heq]
    have : roundEven (a / 2 ^ flExp b) ≤ roundEven (b / 2 ^ flExp b) := roundEven_mono (by gcongr)
    have : (roundEven (a / 2 ^ flExp b) : ℚ) ≤ roundEven (b / 2 ^ flExp b) := by exact_mod_cast this
    gcongr
  · exfalso
    have : (2 : ℚ) ^ (flExp b + 1) ≤ 2 ^ flExp a := zpow_le_zpow_right₀ (by norm_num) (by omega)
    rw [zpow_add₀ (by norm_num)] at this
    norm_num at this a1 b2
    linarith

theorem flPos_nonneg {a : ℚ} (ha : 0 < a) : 0 ≤ flPos a := by
  have := le_flPos (x := a) (N := 0) (by simpa using ha.le)
  simpa using this

theorem fl_nonneg {a : ℚ} (ha : 0 ≤ a) : 0 ≤ fl a := by
  rcases ha.lt_or_eq with h | h
  · rw [fl_pos h]; exact flPos_nonneg h
  · subst h; simp [fl]

theorem fl_mono {a b : ℚ} (h : a ≤ b) : fl a ≤ fl b := by
  rcases lt_or_ge 0 a with ha | ha
  · rw [fl_pos ha, fl_pos (by linarith)]; exact flPos_mono ha h
  · have h1 : 0 ≤ fl (-a) := fl_nonneg (by linarith)
    rw [fl_neg] at h1
    rcases lt_or_ge b 0 with hb | hb
    · have := flPos_mono (a := -b) (b := -a) (by linarith) (by linarith)
      rw [← fl_pos (by linarith), ← fl_pos (by linarith), fl_neg, fl_neg] at this
      linarith
    · have := fl_nonneg hb
      linarith

theorem truncate_neg (x : ℚ) : truncate (-x) = - truncate x := by
  unfold truncate
  rcases lt_trichotomy x 0 with h | h | h
  · rw [if_pos (by linarith), if_neg (by linarith), neg_neg]
  · subst h; simp
  · rw [if_neg (by linarith), if_pos h.le, neg_neg]

theorem truncate_mono {a b : ℚ} (h : a ≤ b) : truncate a ≤ truncate b := by
  unfold truncate
  split_ifs with h1 h2 h2
  · exact Int.floor_mono h
  · linarith
  · have e1 : 0 ≤ ⌊-a⌋ := Int.floor_nonneg.2 (by linarith)
    have e2 : 0 ≤ ⌊b⌋ := Int.floor_nonneg.2 h2
    linarith
  · have := Int.floor_mono (show -b ≤ -a by linarith)
    linarith

theorem toTimestamp_mono {a b : ℤ} (h : a ≤ b) : toTimestamp a ≤ toTimestamp b := by
  unfold toTimestamp
  have hq : (a : ℚ) ≤ b := by exact_mod_cast h
  refine truncate_mono (fl_mono ?_)
  have : fl ((a : ℚ) / 10 ^ 6) ≤ fl ((b : ℚ) / 10 ^ 6) := fl_mono (by gcongr)
  linarith

theorem toTimestamp_neg (us : ℤ) : toTimestamp (-us) = - toTimestamp us := by
  unfold toTimestamp
  have e : ((-us : ℤ) : ℚ) / 10 ^ 6 = -((us : ℚ) / 10 ^ 6) := by push_cast; ring
  rw [e, fl_neg]
  have e2 : -fl ((us : ℚ) / 10 ^ 6) * 1000 = -(fl ((us : ℚ) / 10 ^ 6) * 1000) := by ring
  rw [e2, fl_neg, truncate_neg]

end Splitgill
