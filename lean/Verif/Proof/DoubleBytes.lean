import Verif.Model.DoubleBytes
import Verif.Proof.BsonBytes
import Verif.Spec.BsonBytes
/-!
# Lemmas: floats in eight bytes
-/

namespace Splitgill

theorem doubleExp_spec {q : ℚ} (hq : 0 < q) {m e : ℤ} (hm : |m| < 2 ^ 53) (h1 : -1074 ≤ e) (h2 : e ≤ 971) (h : q = m * 2 ^ e) :
    ∃ k : Nat, q = k * 2 ^ doubleExp q ∧ k < 2 ^ 53 ∧ (k < 2 ^ 52 → doubleExp q = -1074) ∧ -1074 ≤ doubleExp q ∧ doubleExp q ≤ 971 ∧ 0 < k := by
  have two : (0 : ℚ) < 2 := by norm_num
  have hL1 : (2 : ℚ) ^ Int.log 2 q ≤ q := by exact_mod_cast Int.zpow_log_le_self (b := 2) (by norm_num) hq
  have hL2 : q < (2 : ℚ) ^ (Int.log 2 q + 1) := by exact_mod_cast Int.lt_zpow_succ_log_self (b := 2) (by norm_num) q
  have hpe : (0 : ℚ) < 2 ^ e := zpow_pos two e
  have hm0 : 0 < m := by
    rw [h] at hq
    have : (0 : ℚ) < m := (mul_pos_iff_of_pos_right hpe).1 hq
    exact_mod_cast this
  have hmq : (m : ℚ) < 2 ^ (53 : ℤ) := by
    rw [abs_of_pos hm0] at hm
    exact_mod_cast hm
  have hlt : ∀ a b : ℤ, (2 : ℚ) ^ a < 2 ^ b → a < b := fun a b hab => (zpow_lt_zpow_iff_right₀ (by norm_num)).1 hab
  have hLe : Int.log 2 q < 53 + e := by
    refine hlt _ _ (lt_of_le_of_lt hL1 ?_)
    rw [h, zpow_add₀ (by norm_num)]
    exact mul_lt_mul_of_pos_right hmq hpe
  have hEe : doubleExp q ≤ e := by unfold doubleExp; omega
  have hk : q = ((m.toNat * 2 ^ (e - doubleExp q).toNat : Nat) : ℚ) * 2 ^ doubleExp q := by
    have e1 : ((m.toNat : Nat) : ℚ) = m := by
      have : ((m.toNat : Nat) : ℤ) = m := Int.toNat_of_nonneg (by omega)
      exact_mod_cast this
    have e2 : ((2 : ℚ) ^ (e - doubleExp q).toNat) = 2 ^ (e - doubleExp q) := by
      rw [← zpow_natCast, Int.toNat_of_nonneg (by omega)]
    rw [Nat.cast_mul, Nat.cast_pow, e1, Nat.cast_ofNat, e2, mul_assoc, ← zpow_add₀ (by norm_num)]
    rw [show e - doubleExp q + doubleExp q = e by omega]
    exact h
  have hpE : (0 : ℚ) < 2 ^ doubleExp q := zpow_pos two _
  generalize m.toNat * 2 ^ (e - doubleExp q).toNat = k at hk
  refine ⟨k, hk, ?_, ?_, by unfold doubleExp; omega, by omega, ?_⟩
  · have : (k : ℚ) * 2 ^ doubleExp q < 2 ^ (53 : ℤ) * 2 ^ doubleExp q := by
      rw [← hk, ← zpow_add₀ (by norm_num)]
      refine lt_of_lt_of_le hL2 (zpow_le_zpow_right₀ (by norm_num) ?_)
      unfold doubleExp; omega
    have := lt_of_mul_lt_mul_right this hpE.le
    exact_mod_cast this
  · intro hk52
    by_contra hne
    have hE : doubleExp q = Int.log 2 q - 52 := by unfold doubleExp at hne ⊢; omega
    have : (k : ℚ) * 2 ^ doubleExp q < 2 ^ (52 : ℤ) * 2 ^ doubleExp q :=
      mul_lt_mul_of_pos_right (by exact_mod_cast hk52) hpE
    rw [← hk, ← zpow_add₀ (by norm_num), hE, show (52 : ℤ) + (Int.log 2 q - 52) = Int.log 2 q by omega] at this
    exact absurd hL1 (not_le.2 this)
  · rcases Nat.eq_zero_or_pos k with rfl | h0
    · rw [hk] at hq; simp at hq
    · exact h0

theorem positiveBits_spec {q : ℚ} (hq : 0 < q) {m e : ℤ} (hm : |m| < 2 ^ 53) (h1 : -1074 ≤ e) (h2 : e ≤ 971) (h : q = m * 2 ^ e) :
    positiveOf (positiveBits q) = q ∧ positiveBits q < 2047 * 2 ^ 52 ∧ 0 < positiveBits q := by
  obtain ⟨k, hk, hk1, hk2, hk3, hk4, hk5⟩ := doubleExp_spec hq hm h1 h2 h
  have hpE : (0 : ℚ) < 2 ^ doubleExp q := zpow_pos (by norm_num) _
  have hfl : (q / 2 ^ doubleExp q).floor.toNat = k := by
    have : q / 2 ^ doubleExp q = ((k : ℤ) : ℚ) := by
      rw [div_eq_iff hpE.ne']
      exact_mod_cast hk
    rw [this, Rat.floor_intCast]
    rfl
  have hb : positiveBits q = if k < 2 ^ 52 then k else (doubleExp q + 1075).toNat * 2 ^ 52 + (k - 2 ^ 52) := by
    unfold positiveBits
    rw [hfl]
  rw [hb]
  split
  · rename_i hlt
    refine ⟨?_, by omega, hk5⟩
    unfold positiveOf
    rw [if_pos (Nat.div_eq_of_lt hlt)]
    rw [hk2 hlt] at hk
    exact hk.symm
  · rename_i hge
    have hx : ((doubleExp q + 1075).toNat : ℤ) = doubleExp q + 1075 := Int.toNat_of_nonneg (by omega)
    generalize hX : (doubleExp q + 1075).toNat = x at hx
    have hx1 : 1 ≤ x ∧ x ≤ 2046 := by omega
    have hd : (x * 2 ^ 52 + (k - 2 ^ 52)) / 2 ^ 52 = x := by omega
    have hr : (x * 2 ^ 52 + (k - 2 ^ 52)) % 2 ^ 52 = k - 2 ^ 52 := by omega
    refine ⟨?_, by omega, by omega⟩
    unfold positiveOf
    rw [hd, hr, if_neg (by omega), show 2 ^ 52 + (k - 2 ^ 52) = k by omega, hx, show doubleExp q + 1075 - 1075 = doubleExp q by omega]
    exact hk.symm

theorem doubleBits_spec {f : PyFloat} (h : ∀ q, f = .fin q → FiniteDouble q) : doubleBits f < 2 ^ 64 ∧ ofDoubleBits (doubleBits f) = f := by
  cases f with
  | nan => exact ⟨by decide, by decide⟩
  | pinf => exact ⟨by decide, by decide⟩
  | ninf => exact ⟨by decide, by decide⟩
  | negZero => exact ⟨by decide, by decide⟩
  | fin q =>
    obtain ⟨m, e, hm, h1, h2, hq⟩ := h q rfl
    unfold doubleBits
    dsimp only
    by_cases h0 : q = 0
    · subst h0
      refine ⟨by simp, ?_⟩
      simp [ofDoubleBits, positiveOf]
    · rw [if_neg h0]
      by_cases hp : 0 < q
      · rw [if_pos hp]
        obtain ⟨a, b, c⟩ := positiveBits_spec hp hm h1 h2 hq
        refine ⟨by omega, ?_⟩
        unfold ofDoubleBits
        rw [if_neg (by omega), if_neg (by omega), if_pos (by omega), a]
      · rw [if_neg hp]
        have hn : 0 < -q := by
          rcases lt_trichotomy q 0 with h | h | h
          · linarith
          · exact absurd h h0
          · exact absurd h hp
        obtain ⟨a, b, c⟩ := positiveBits_spec hn (m := -m) (e := e) (by rwa [abs_neg]) h1 h2 (by rw [hq]; push_cast; ring)
        refine ⟨by omega, ?_⟩
        unfold ofDoubleBits
        rw [if_neg (by omega), if_neg (by omega), if_neg (by omega), show 2 ^ 63 + positiveBits (-q) - 2 ^ 63 = positiveBits (-q) by omega, a, neg_neg]

theorem doubles_keeps {v : Value} (h : ∀ q, v = .float (.fin q) → FiniteDouble q) : doubles.Keeps v := by
  intro f hf
  obtain ⟨h1, h2⟩ := doubleBits_spec (f := f) (fun q e => h q (by rw [hf, e]))
  show ofDoubleBits (ofLeBytes (leBytes 8 (doubleBits f))) = f
  rw [ofLeBytes_leBytes 8 _ (by norm_num; omega), h2]

end Splitgill
