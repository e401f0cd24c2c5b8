import Verif.Proof.FloatText2
/-!
# Lemmas about the form of the texts of floats
-/

namespace Splitgill

theorem dropZeros_last {s : PyStr} (h : dropZeros s ≠ []) : ∃ p d, dropZeros s = p ++ [d] ∧ d ≠ '0' := by
  unfold dropZeros at h ⊢
  cases e : s.reverse.dropWhile (· == '0') with
  | nil => rw [e] at h; exact absurd rfl h
  | cons d p =>
    refine ⟨p.reverse, d, by simp, ?_⟩
    rintro rfl
    have key : ∀ (l p : PyStr), l.dropWhile (· == '0') ≠ '0' :: p := by
      intro l
      induction l with
      | nil => intro p h; cases h
      | cons x l ih =>
        intro p h
        rw [List.dropWhile_cons] at h
        split at h
        · exact ih p h
        · rename_i hx
          cases h
          exact hx rfl
    exact key _ _ e

theorem dropZeros_mem {s : PyStr} {c : Char} (hc : c ∈ s) (h0 : c ≠ '0') : dropZeros s ≠ [] := by
  intro h
  obtain ⟨k, hk⟩ := dropZeros_split s
  rw [h, List.nil_append] at hk
  rw [hk] at hc
  exact h0 (List.mem_replicate.1 hc).2

theorem pointText_short {c : Char} {w part : PyStr} (h : c ≠ '0' ∨ (w = [] ∧ dropZeros part ≠ [])) : ShortDecimal (pointText (c :: w) part) := by
  unfold pointText
  dsimp only
  by_cases e : dropZeros part = []
  · rw [e]
    refine ShortDecimal.whole c w ?_
    rcases h with h | h
    · exact h
    · exact absurd e h.2
  · obtain ⟨p, d, hp, hd⟩ := dropZeros_last e
    rw [hp, if_neg (by simp)]
    exact ShortDecimal.point c w p d (h.imp id And.left) hd

/-- The first of the digits is not zero. -/
theorem digits_head {n m : Nat} (h1 : 10 ^ n ≤ m) (h2 : m < 10 ^ (n + 1)) : ∃ c w, Nat.toDigits 10 m = c :: w ∧ c ≠ '0' := by
  have hl := digits_length h1 h2
  have hd := decimal_toDigits m
  cases e : Nat.toDigits 10 m with
  | nil => rw [e] at hl; cases hl
  | cons c w =>
    refine ⟨c, w, rfl, ?_⟩
    rintro rfl
    rw [e, show '0' :: w = ['0'] ++ w from rfl, decimal_cat, show decimal ['0'] = 0 from rfl, Nat.zero_mul, Nat.zero_add] at hd
    rw [e, List.length_cons] at hl
    have hw : ∀ w : PyStr, AllDigits w → decimal w < 10 ^ w.length := by
      intro w
      induction w with
      | nil => intro _; decide
      | cons x w ih =>
        intro h
        have a := ih (fun c hc => h c (List.mem_cons_of_mem _ hc))
        have b := (h x List.mem_cons_self).2
        rw [show x :: w = [x] ++ w from rfl, decimal_cat, List.length_append]
        have e1 : decimal [x] = x.toNat - 48 := by simp [decimal]
        have e2 : x.toNat - 48 ≤ 9 := by
          have : '9'.toNat = 57 := rfl
          omega
        rw [e1, pow_add]
        have : (x.toNat - 48) * 10 ^ w.length ≤ 9 * 10 ^ w.length := Nat.mul_le_mul_right _ e2
        rw [show List.length [x] = 1 from rfl]
        omega
    have := hw w (fun c hc => digits_dig m c (by rw [e]; exact List.mem_cons_of_mem _ hc))
    rw [hd, show w.length = n by omega] at this
    omega

theorem gText_form {n m : Nat} (h1 : 10 ^ n ≤ m) (h2 : m < 10 ^ (n + 1)) (e : Int) : WritesDecimal (n + 1) ((m : ℚ) * 10 ^ (e - n)) (gText (n + 1) m e) := by
  have hv : (10 : ℚ) ^ e ≤ (m : ℚ) * 10 ^ (e - n) ∧ (m : ℚ) * 10 ^ (e - n) < 10 ^ (e + 1) := by
    have a1 : (10 : ℚ) ^ n ≤ m := by exact_mod_cast h1
    have a2 : (m : ℚ) < 10 ^ (n + 1) := by exact_mod_cast h2
    have p1 : (0 : ℚ) < 10 ^ (e - n) := by positivity
    have e1 : (10 : ℚ) ^ e = 10 ^ n * 10 ^ (e - n) := by
      rw [← zpow_natCast, ← zpow_add₀ (by norm_num)]; congr 1; ring
    have e2 : (10 : ℚ) ^ (e + 1) = 10 ^ (n + 1) * 10 ^ (e - n) := by
      rw [← zpow_natCast, ← zpow_add₀ (by norm_num)]; congr 1; push_cast; ring
    rw [e1, e2]
    exact ⟨by gcongr, by gcongr⟩
  have hiff : (1 / 10000 ≤ (m : ℚ) * 10 ^ (e - n) ∧ (m : ℚ) * 10 ^ (e - n) < 10 ^ (n + 1)) ↔ (-4 ≤ e ∧ e < ((n + 1 : Nat) : Int)) := by
    have e1 : (1 / 10000 : ℚ) = 10 ^ (-4 : ℤ) := by norm_num
    have e2 : (10 : ℚ) ^ (n + 1) = 10 ^ ((n + 1 : Nat) : ℤ) := (zpow_natCast _ _).symm
    rw [e1, e2]
    constructor
    · rintro ⟨a, b⟩
      constructor
      · have := (zpow_lt_zpow_iff_right₀ (a := (10 : ℚ)) (by norm_num)).1 (lt_of_le_of_lt a hv.2)
        omega
      · exact (zpow_lt_zpow_iff_right₀ (a := (10 : ℚ)) (by norm_num)).1 (lt_of_le_of_lt hv.1 b)
    · rintro ⟨a, b⟩
      exact ⟨le_trans (zpow_le_zpow_right₀ (by norm_num) a) hv.1, lt_of_lt_of_le hv.2 (zpow_le_zpow_right₀ (by norm_num) (by omega))⟩
  have hl := digits_length h1 h2
  have hd := digits_dig m
  have hdec := decimal_toDigits m
  obtain ⟨c, w, hds, hc⟩ := digits_head h1 h2
  rw [hds] at hl hd hdec
  have hsplit : ∀ k, AllDigits ((c :: w).take k) ∧ AllDigits ((c :: w).drop k) :=
    fun k => ⟨fun c hc => hd c (List.mem_of_mem_take hc), fun c hc => hd c (List.mem_of_mem_drop hc)⟩
  unfold WritesDecimal gText
  dsimp only
  rw [hds]
  by_cases hf : -4 ≤ e ∧ e < ((n + 1 : Nat) : Int)
  · rw [if_pos (hiff.2 hf), if_pos hf]
    by_cases h0 : 0 ≤ e
    · rw [if_pos h0]
      obtain ⟨k, rfl⟩ := Int.eq_ofNat_of_zero_le h0
      have hk : k < n + 1 := by omega
      refine ⟨?_, ?_⟩
      · rw [Int.toNat_natCast, List.take_succ_cons]
        exact pointText_short (.inl hc)
      · have := pointText_mantissa (w := (c :: w).take ((k : Int).toNat + 1)) (part := (c :: w).drop ((k : Int).toNat + 1)) (hsplit _).1 (by rw [List.take_succ_cons]; simp) (hsplit _).2
        rw [List.take_append_drop, hdec, List.length_drop, hl] at this
        have e1 : ((k : Int) - n) = -((n - k : Nat) : Int) := by omega
        rw [e1, zpow_neg, zpow_natCast, ← show n + 1 - ((k : Int).toNat + 1) = n - k by omega]
        exact this
    · rw [if_neg h0]
      have hz : AllDigits (List.replicate (-e - 1).toNat '0' ++ c :: w) := by
        intro x hx
        rcases List.mem_append.1 hx with hx | hx
        · rw [(List.mem_replicate.1 hx).2]
          decide
        · exact hd x hx
      refine ⟨pointText_short (.inr ⟨rfl, dropZeros_mem (c := c) (List.mem_append_right _ List.mem_cons_self) hc⟩), ?_⟩
      have := pointText_mantissa (w := ['0']) (part := List.replicate (-e - 1).toNat '0' ++ c :: w) (by intro c hc; cases List.mem_singleton.1 hc; decide) (by simp) hz
      rw [← List.append_assoc, decimal_cat, hdec, show ['0'] ++ List.replicate (-e - 1).toNat '0' = List.replicate ((-e - 1).toNat + 1) '0' from rfl, decimal_zeros,
          List.length_append, List.length_replicate, hl, zero_mul, zero_add] at this
      have e1 : e - n = -(((-e - 1).toNat + (n + 1) : Nat) : Int) := by omega
      rw [e1, zpow_neg, zpow_natCast]
      exact this
  · rw [if_neg (fun h => hf (hiff.1 h)), if_neg hf]
    have hm := pointText_mantissa (w := (c :: w).take 1) (part := (c :: w).drop 1) (hsplit 1).1 (by simp) (hsplit 1).2
    rw [List.take_append_drop, hdec, List.length_drop, hl, Nat.add_sub_cancel] at hm
    have a1 : (10 : ℚ) ^ n ≤ m := by exact_mod_cast h1
    have a2 : (m : ℚ) < 10 ^ n * 10 := by rw [← pow_succ]; exact_mod_cast h2
    have p0 : (0 : ℚ) < 10 ^ n := by positivity
    refine ⟨_, (if e < 0 then '-' else '+'), _, _, e, rfl, pointText_short (.inl hc), hm, by rw [le_div_iff₀ p0]; linarith, by rw [div_lt_iff₀ p0]; linarith, rfl, ?_, ?_, ?_, ?_, ?_⟩
    · split
      · intro x hx
        rcases List.mem_cons.1 hx with rfl | hx
        · decide
        · exact digits_dig _ x hx
      · exact digits_dig _
    · split
      · rw [show '0' :: Nat.toDigits 10 e.natAbs = ['0'] ++ Nat.toDigits 10 e.natAbs from rfl, decimal_cat, decimal_toDigits]
        simp [decimal]
      · exact decimal_toDigits _
    · have := Nat.length_toDigits_pos (b := 10) (n := e.natAbs)
      split
      · rw [List.length_cons]
        omega
      · omega
    · have := Nat.length_toDigits_pos (b := 10) (n := e.natAbs)
      split
      · intro _
        rw [List.length_cons]
        omega
      · rename_i hlen
        intro hh
        exfalso
        have hpos : 0 < e.natAbs := by
          rcases Nat.eq_zero_or_pos e.natAbs with h | h
          · rw [h, Nat.toDigits_zero] at hlen
            exact absurd (by decide) hlen
          · exact h
        obtain ⟨x, y, hxy, hx⟩ := digits_head (n := Nat.log 10 e.natAbs) (m := e.natAbs) (Nat.pow_log_le_self 10 (by omega)) (Nat.lt_pow_succ_log_self (by omega) _)
        rw [hxy] at hh
        exact hx (Option.some.inj hh)
    · rw [zpow_sub₀ (by norm_num), zpow_natCast]
      ring

end Splitgill
