import Verif.Proof.FloatText
import Verif.Proof.NumberText
import Mathlib.Tactic.Zify
/-!
# Lemmas about the texts of floats
-/

namespace Splitgill

theorem decimal_cat (a b : PyStr) : decimal (a ++ b) = decimal a * 10 ^ b.length + decimal b := by
  have key : ∀ (b : PyStr) (k : Nat), b.foldl (fun n c => 10 * n + (c.toNat - '0'.toNat)) k = k * 10 ^ b.length + b.foldl (fun n c => 10 * n + (c.toNat - '0'.toNat)) 0 := by
    intro b
    induction b with
    | nil => intro k; simp
    | cons c b ih =>
      intro k
      rw [List.foldl_cons, List.foldl_cons, ih, ih (10 * 0 + _), List.length_cons, pow_succ]
      ring
  unfold decimal
  rw [List.foldl_append, key]

theorem decimal_zeros (n : Nat) : decimal (List.replicate n '0') = 0 := by
  have : decimal (List.replicate n '0') = 10 ^ n * 0 := Nat.ofDigitChars_replicate_zero (b := 10) (init := 0) (n := n)
  rw [this, Nat.mul_zero]

theorem digits_dig (n : Nat) : AllDigits (Nat.toDigits 10 n) := by
  intro c hc
  have h := Nat.isDigit_of_mem_toDigits (b := 10) (by omega) (by omega) hc
  rw [Char.isDigit, Bool.and_eq_true] at h
  exact ⟨of_decide_eq_true h.1, of_decide_eq_true h.2⟩

theorem decimal_toDigits (n : Nat) : decimal (Nat.toDigits 10 n) = n := Nat.ofDigitChars_ten_toDigits

theorem digits_length {n m : Nat} (h1 : 10 ^ n ≤ m) (h2 : m < 10 ^ (n + 1)) : (Nat.toDigits 10 m).length = n + 1 := by
  have a := (Nat.length_toDigits_le_iff (b := 10) (n := m) (k := n + 1) (by omega) (by omega)).2 h2
  have b : ¬ (Nat.toDigits 10 m).length ≤ n := by
    cases n with
    | zero =>
      have := Nat.length_toDigits_pos (b := 10) (n := m)
      omega
    | succ n =>
      intro h
      have := (Nat.length_toDigits_le_iff (b := 10) (n := m) (k := n + 1) (by omega) (by omega)).1 h
      omega
  omega

/-- Zeros at the end. -/
theorem dropZeros_split (s : PyStr) : ∃ k, s = dropZeros s ++ List.replicate k '0' := by
  refine ⟨(s.reverse.takeWhile (· == '0')).length, ?_⟩
  have h : s.reverse.takeWhile (· == '0') = List.replicate (s.reverse.takeWhile (· == '0')).length '0' := by
    rw [List.eq_replicate_iff]
    refine ⟨rfl, fun c hc => ?_⟩
    have key : ∀ l : PyStr, ∀ c ∈ l.takeWhile (· == '0'), c = '0' := by
      intro l
      induction l with
      | nil => intro c hc; cases hc
      | cons x l ih =>
        intro c hc
        rw [List.takeWhile_cons] at hc
        split at hc
        · rename_i hx
          rcases List.mem_cons.1 hc with rfl | hc
          · simpa using hx
          · exact ih c hc
        · cases hc
    exact key _ c hc
  have e := List.takeWhile_append_dropWhile (p := (· == '0')) (l := s.reverse)
  have e' := congrArg List.reverse e
  rw [List.reverse_append, List.reverse_reverse] at e'
  rw [dropZeros]
  conv_lhs => rw [← e']
  congr 1
  rw [h, List.reverse_replicate]
  simp

theorem pointText_mantissa {w part : PyStr} (hw : AllDigits w) (hne : w ≠ []) (hp : AllDigits part) :
    MantissaText (pointText w part) ((decimal (w ++ part) : ℚ) / 10 ^ part.length) := by
  obtain ⟨k, hk⟩ := dropZeros_split part
  have hval : (decimal (w ++ part) : ℚ) / 10 ^ part.length = (decimal (w ++ dropZeros part) : ℚ) / 10 ^ (dropZeros part).length := by
    generalize dropZeros part = d at hk
    subst hk
    rw [← List.append_assoc, decimal_cat (w ++ d), decimal_zeros, List.length_append, List.length_replicate, pow_add]
    push_cast
    have h1 : (10 : ℚ) ^ k ≠ 0 := by positivity
    have h2 : (10 : ℚ) ^ d.length ≠ 0 := by positivity
    field_simp
    ring
  rw [hval]
  unfold pointText
  dsimp only
  cases e : dropZeros part with
  | nil =>
    have := MantissaText.whole w hw hne
    simpa using this
  | cons c d =>
    rw [if_neg (by simp)]
    refine MantissaText.point w (c :: d) hw (fun x hx => hp x ?_) (by simp)
    rw [hk, e]
    exact List.mem_append_left _ hx

theorem expText_exponent (e : Int) : ExponentText (expText e) e := by
  unfold expText
  dsimp only
  have key : ∀ ds : PyStr, ds = (if (Nat.toDigits 10 e.natAbs).length < 2 then '0' :: Nat.toDigits 10 e.natAbs else Nat.toDigits 10 e.natAbs) →
      AllDigits ds ∧ ds ≠ [] ∧ decimal ds = e.natAbs := by
    rintro ds rfl
    split
    · refine ⟨fun c hc => ?_, by simp, ?_⟩
      · rcases List.mem_cons.1 hc with rfl | hc
        · decide
        · exact digits_dig _ c hc
      · rw [show '0' :: Nat.toDigits 10 e.natAbs = ['0'] ++ Nat.toDigits 10 e.natAbs from rfl, decimal_cat, decimal_toDigits]
        simp [decimal]
    · exact ⟨digits_dig _, Nat.toDigits_ne_nil, decimal_toDigits _⟩
  obtain ⟨h1, h2, h3⟩ := key _ rfl
  by_cases h : e < 0
  · rw [if_pos h]
    have := ExponentText.given 'e' ['-'] _ true (.inl rfl) .minus h1 h2
    rw [h3] at this
    simp only [if_true] at this
    have e1 : -(e.natAbs : Int) = e := by omega
    rw [e1] at this
    exact this
  · rw [if_neg h]
    have := ExponentText.given 'e' ['+'] _ false (.inl rfl) .plus h1 h2
    rw [h3] at this
    have e1 : (if false = true then -(e.natAbs : Int) else e.natAbs) = e := by
      simp
      omega
    rw [e1] at this
    exact this

/-- What `gText` writes. -/
theorem gText_writes {n m : Nat} (h1 : 10 ^ n ≤ m) (h2 : m < 10 ^ (n + 1)) (e : Int) :
    ∃ mant ex a b, gText (n + 1) m e = mant ++ ex ∧ MantissaText mant a ∧ ExponentText ex b ∧ a * 10 ^ b = (m : ℚ) * 10 ^ (e - n) := by
  have hl := digits_length h1 h2
  have hd := digits_dig m
  have hdec := decimal_toDigits m
  generalize hds : Nat.toDigits 10 m = ds at hl hd hdec
  have hsplit : ∀ k, AllDigits (ds.take k) ∧ AllDigits (ds.drop k) :=
    fun k => ⟨fun c hc => hd c (List.mem_of_mem_take hc), fun c hc => hd c (List.mem_of_mem_drop hc)⟩
  unfold gText
  dsimp only
  rw [hds]
  by_cases hf : -4 ≤ e ∧ e < ((n + 1 : Nat) : Int)
  · rw [if_pos hf]
    by_cases h0 : 0 ≤ e
    · rw [if_pos h0]
      obtain ⟨k, rfl⟩ := Int.eq_ofNat_of_zero_le h0
      have hk : k < n + 1 := by omega
      refine ⟨_, [], _, 0, (List.append_nil _).symm, pointText_mantissa (hsplit _).1 ?_ (hsplit _).2, .missing, ?_⟩
      · intro h
        have := congrArg List.length h
        rw [List.length_take, hl] at this
        simp at this
      · rw [List.take_append_drop, hdec, List.length_drop, hl, zpow_zero, mul_one]
        have : ((k : Int) - n) = -((n - k : Nat) : Int) := by omega
        rw [this, zpow_neg, zpow_natCast, show n + 1 - ((k : Int).toNat + 1) = n - k by omega]
        rfl
    · rw [if_neg h0]
      refine ⟨_, [], _, 0, (List.append_nil _).symm, pointText_mantissa (w := ['0']) (by intro c hc; cases List.mem_singleton.1 hc; decide) (by simp) (fun c hc => ?_), .missing, ?_⟩
      · rcases List.mem_append.1 hc with hc | hc
        · rw [(List.mem_replicate.1 hc).2]
          decide
        · exact hd c hc
      · rw [← List.append_assoc, decimal_cat, hdec, show ['0'] ++ List.replicate (-e - 1).toNat '0' = List.replicate ((-e - 1).toNat + 1) '0' from rfl, decimal_zeros,
          List.length_append, List.length_replicate, hl, zpow_zero, mul_one, zero_mul, zero_add]
        have : e - n = -(((-e - 1).toNat + (n + 1) : Nat) : Int) := by omega
        rw [this, zpow_neg, zpow_natCast]
        rfl
  · rw [if_neg hf]
    refine ⟨_, _, _, _, rfl, pointText_mantissa (hsplit _).1 ?_ (hsplit _).2, expText_exponent e, ?_⟩
    · intro h
      have := congrArg List.length h
      rw [List.length_take, hl] at this
      simp at this
    · rw [List.take_append_drop, hdec, List.length_drop, hl, zpow_sub₀ (by norm_num), zpow_natCast, Nat.add_sub_cancel]
      ring

theorem sigDigits_spec {n : Nat} {q : ℚ} (hq : 0 < q) :
    10 ^ n ≤ (sigDigits (n + 1) q).1 ∧ (sigDigits (n + 1) q).1 < 10 ^ (n + 1) ∧ ((sigDigits (n + 1) q).1 : ℚ) * 10 ^ ((sigDigits (n + 1) q).2 - n) = decPos n q := by
  obtain ⟨h1, h2⟩ := decDigits_range (n := n) hq
  have hpos : (0 : ℤ) < 10 ^ n := by positivity
  have hm : ((roundEven (q / 10 ^ decExp n q)).toNat : ℤ) = roundEven (q / 10 ^ decExp n q) := Int.toNat_of_nonneg (by linarith)
  unfold sigDigits
  dsimp only
  rw [Nat.add_sub_cancel]
  show 10 ^ n ≤ (if (roundEven (q / 10 ^ decExp n q)).toNat = 10 ^ (n + 1) then (10 ^ n, Int.log 10 q + 1) else ((roundEven (q / 10 ^ decExp n q)).toNat, Int.log 10 q)).1 ∧
    (if (roundEven (q / 10 ^ decExp n q)).toNat = 10 ^ (n + 1) then (10 ^ n, Int.log 10 q + 1) else ((roundEven (q / 10 ^ decExp n q)).toNat, Int.log 10 q)).1 < 10 ^ (n + 1) ∧
    ((if (roundEven (q / 10 ^ decExp n q)).toNat = 10 ^ (n + 1) then (10 ^ n, Int.log 10 q + 1) else ((roundEven (q / 10 ^ decExp n q)).toNat, Int.log 10 q)).1 : ℚ) *
      10 ^ ((if (roundEven (q / 10 ^ decExp n q)).toNat = 10 ^ (n + 1) then (10 ^ n, Int.log 10 q + 1) else ((roundEven (q / 10 ^ decExp n q)).toNat, Int.log 10 q)).2 - n) = decPos n q
  generalize hM : (roundEven (q / 10 ^ decExp n q)).toNat = M at hm
  have h1' : 10 ^ n ≤ M := by zify; rw [hm]; exact h1
  have h2' : M ≤ 10 ^ (n + 1) := by zify; rw [hm]; exact h2
  have hval : decPos n q = (M : ℚ) * 10 ^ decExp n q := by
    unfold decPos
    rw [← hm]
    push_cast
    rfl
  split
  · rename_i h
    refine ⟨le_refl _, Nat.pow_lt_pow_right (by omega) (by omega), ?_⟩
    dsimp only
    rw [hval, h]
    have : Int.log 10 q + 1 - (n : ℤ) = decExp n q + 1 := by unfold decExp; ring
    rw [this, zpow_add₀ (by norm_num), pow_succ]
    push_cast
    ring
  · rename_i h
    refine ⟨h1', lt_of_le_of_ne h2' h, ?_⟩
    exact hval.symm

/-- Digits and exponents are determined by the number. -/
theorem normal_unique {n m m' : Nat} {e e' : Int} (h1 : 10 ^ n ≤ m) (h2 : m < 10 ^ (n + 1)) (h1' : 10 ^ n ≤ m') (h2' : m' < 10 ^ (n + 1))
    (h : (m : ℚ) * 10 ^ (e - n) = m' * 10 ^ (e' - n)) : m = m' ∧ e = e' := by
  have key : ∀ {m m' : Nat} {e e' : Int}, 10 ^ n ≤ m → m' < 10 ^ (n + 1) → (m : ℚ) * 10 ^ (e - n) = m' * 10 ^ (e' - n) → e ≤ e' := by
    intro m m' e e' h1 h2 h
    have a1 : (10 : ℚ) ^ n ≤ m := by exact_mod_cast h1
    have a2 : (m' : ℚ) < 10 ^ (n + 1) := by exact_mod_cast h2
    have p1 : (0 : ℚ) < 10 ^ (e - n) := by positivity
    have p2 : (0 : ℚ) < 10 ^ (e' - n) := by positivity
    have : (10 : ℚ) ^ n * 10 ^ (e - n) < 10 ^ (n + 1) * 10 ^ (e' - n) := by
      calc (10 : ℚ) ^ n * 10 ^ (e - n) ≤ m * 10 ^ (e - n) := by gcongr
        _ = m' * 10 ^ (e' - n) := h
        _ < _ := by gcongr
    rw [← zpow_natCast, ← zpow_natCast, ← zpow_add₀ (by norm_num), ← zpow_add₀ (by norm_num)] at this
    have := (zpow_lt_zpow_iff_right₀ (a := (10 : ℚ)) (by norm_num)).1 this
    push_cast at this
    omega
  have he : e = e' := le_antisymm (key h1 h2' h) (key h1' h2 h.symm)
  subst he
  have p1 : (10 : ℚ) ^ (e - n) ≠ 0 := by positivity
  exact ⟨by exact_mod_cast mul_right_cancel₀ p1 h, rfl⟩

theorem digits_shift (k i : Nat) (hi : 0 < i) : Nat.toDigits 10 (i * 10 ^ k) = Nat.toDigits 10 i ++ List.replicate k '0' := by
  induction k with
  | zero => simp
  | succ k ih =>
    have := Nat.toDigits_append_toDigits (b := 10) (n := i * 10 ^ k) (d := 0) (by omega) (by positivity) (by omega)
    rw [Nat.add_zero, Nat.toDigits_zero] at this
    rw [pow_succ, show i * (10 ^ k * 10) = 10 * (i * 10 ^ k) by ring, ← this, ih, List.append_assoc, List.replicate_succ']

theorem dropZeros_zeros (k : Nat) : dropZeros (List.replicate k '0') = [] := by
  unfold dropZeros
  rw [List.reverse_replicate]
  have : (List.replicate k '0').dropWhile (· == '0') = [] := by
    induction k with
    | zero => rfl
    | succ k ih => rw [List.replicate_succ, List.dropWhile_cons_of_pos rfl, ih]
  rw [this]
  rfl

/-- A natural number with up to `n + 1` digits is written without point or exponent. -/
theorem gPositive_nat {n i : Nat} (hi : 0 < i) (h : i < 10 ^ (n + 1)) : gPositive (n + 1) (i : ℚ) = Nat.toDigits 10 i := by
  have hq : (0 : ℚ) < i := by exact_mod_cast hi
  obtain ⟨e, he1, he2⟩ : ∃ e, 10 ^ e ≤ i ∧ i < 10 ^ (e + 1) := ⟨Nat.log 10 i, Nat.pow_log_le_self 10 (by omega), Nat.lt_pow_succ_log_self (by omega) i⟩
  have hen : e ≤ n := by
    by_contra hc
    have : 10 ^ (n + 1) ≤ 10 ^ e := Nat.pow_le_pow_right (by omega) (by omega)
    omega
  obtain ⟨s1, s2, s3⟩ := sigDigits_spec (n := n) hq
  have hval : decPos n (i : ℚ) = ((i * 10 ^ (n - e) : Nat) : ℚ) * 10 ^ ((e : Int) - n) := by
    have hd : HasDigits 10 (n + 1) (i : ℚ) := ⟨i, 0, by rw [abs_of_nonneg (by omega)]; exact_mod_cast h, by simp⟩
    have h1 := (decPos_nearest (n := n) hq).2 _ hd
    rw [sub_self, abs_zero] at h1
    have h2 : (i : ℚ) - decPos n i = 0 := abs_eq_zero.1 (le_antisymm h1 (abs_nonneg _))
    have h3 : decPos n (i : ℚ) = i := by linarith
    rw [h3]
    have : (e : Int) - n = -((n - e : Nat) : Int) := by omega
    rw [this, zpow_neg, zpow_natCast]
    push_cast
    field_simp
  have b1 : 10 ^ n ≤ i * 10 ^ (n - e) := by
    calc 10 ^ n = 10 ^ e * 10 ^ (n - e) := by rw [← pow_add]; congr 1; omega
      _ ≤ _ := Nat.mul_le_mul_right _ he1
  have b2 : i * 10 ^ (n - e) < 10 ^ (n + 1) := by
    calc i * 10 ^ (n - e) < 10 ^ (e + 1) * 10 ^ (n - e) := Nat.mul_lt_mul_of_pos_right he2 (by positivity)
      _ = 10 ^ (n + 1) := by rw [← pow_add]; congr 1; omega
  obtain ⟨g1, g2⟩ := normal_unique s1 s2 b1 b2 (s3.trans hval)
  unfold gPositive
  rw [show max (n + 1) 1 = n + 1 by omega]
  dsimp only
  rw [g1, g2]
  unfold gText
  dsimp only
  rw [if_pos (by constructor <;> omega), if_pos (by omega), digits_shift _ _ hi, Int.toNat_natCast]
  have hl := digits_length he1 he2
  rw [List.take_left' hl, List.drop_left' hl]
  unfold pointText
  rw [dropZeros_zeros]
  rfl

end Splitgill
