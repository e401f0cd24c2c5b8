import Verif.Proof.JsonFloat
/-!
# The texts of floats in JSON
-/

namespace Splitgill

theorem HasDigits.mono {b p k : Nat} (hb : 1 ≤ b) (hk : p ≤ k) {s : ℚ} (h : HasDigits b p s) : HasDigits b k s := by
  obtain ⟨m, e, hm, rfl⟩ := h
  exact ⟨m, e, lt_of_lt_of_le hm (pow_le_pow_right₀ (by exact_mod_cast hb) hk), rfl⟩

theorem hasDigits_zero {b : Nat} {s : ℚ} (h : HasDigits b 0 s) : s = 0 := by
  obtain ⟨m, e, hm, rfl⟩ := h
  have : m = 0 := by
    rw [pow_zero] at hm
    exact Int.abs_lt_one_iff.1 hm
  rw [this]
  simp

theorem readAs_iff {p : Nat} {x v : ℚ} : ReadAs p x v ↔ HasDigits 10 p v ∧ fl v = x :=
  ⟨fun h => ⟨h.1, (fl_rounded v).unique h.2⟩, fun h => ⟨h.1, by rw [← h.2]; exact fl_rounded v⟩⟩

theorem findSome_range {α : Type} {f : Nat → Option α} {k : Nat} {b : α} (h : (List.range k).findSome? f = some b) :
    ∃ n < k, f n = some b ∧ ∀ i < n, f i = none := by
  obtain ⟨l1, a, l2, e, h1, h2⟩ := List.findSome?_eq_some_iff.1 h
  have hlen : l1.length < k := by
    have := congrArg List.length e
    simp at this
    omega
  have ha : a = l1.length := by
    have := congrArg (fun l => l[l1.length]?) e
    simp at this
    rw [List.getElem?_range hlen] at this
    exact (Option.some.inj this).symm
  refine ⟨a, by omega, h1, fun i hi => h2 i ?_⟩
  have := congrArg (fun l => l[i]?) e
  rw [List.getElem?_range (by omega), List.getElem?_append_left (by omega)] at this
  exact List.mem_of_getElem? this.symm

/-- What `shortDigits` finds: at most 17 digits of the shortest decimal. -/
theorem shortDigits_spec {q : ℚ} (hq : 0 < q) (hd : IsDouble q) :
    ∃ n < 17, 10 ^ n ≤ (shortDigits q).1 ∧ (shortDigits q).1 ≤ 10 ^ (n + 1) ∧ ShortestDecimal (n + 1) q ((shortDigits q).1 * 10 ^ (shortDigits q).2) := by
  have hsome : ∃ x, (List.range 17).findSome? (fun n => digitsFor (n + 1) q) = some x := by
    cases e : (List.range 17).findSome? (fun n => digitsFor (n + 1) q) with
    | some x => exact ⟨x, rfl⟩
    | none =>
      rw [List.findSome?_eq_none_iff] at e
      have h16 := (digitsFor_spec (n := 16) hq hd).1 (e 16 (by simp))
      exact absurd (doubles_kept (p := 17) le_rfl hd hq.ne' (decPos_nearest (n := 16) hq)) (h16 _ (decPos_hasDigits hq))
  obtain ⟨⟨m, u⟩, hx⟩ := hsome
  have e : shortDigits q = (m, u) := by
    unfold shortDigits
    rw [hx]
    rfl
  obtain ⟨n, hn, h1, h2⟩ := findSome_range hx
  obtain ⟨_, g1, g2, g3, g4, g5⟩ := (digitsFor_spec (n := n) hq hd).2 m u h1
  rw [e]
  refine ⟨n, hn, g1, g2, readAs_iff.2 ⟨?_, g3⟩, ?_, ?_, ?_⟩
  · rcases Nat.lt_or_eq_of_le g2 with h | h
    · exact ⟨m, u, by rw [abs_of_nonneg (by positivity)]; exact_mod_cast h, by push_cast; rfl⟩
    · refine ⟨1, u + (n + 1 : ℕ), ?_, ?_⟩
      · have : (1 : ℤ) < 10 ^ (n + 1) := one_lt_pow₀ (by norm_num) (by omega)
        simpa using this
      · dsimp only
        rw [h, Nat.cast_ofNat, zpow_add₀ (by norm_num), zpow_natCast]
        push_cast
        ring
  · intro k w hw
    rw [readAs_iff] at hw
    cases k with
    | zero =>
      have := hw.2
      rw [hasDigits_zero hw.1] at this
      simp [fl] at this
      linarith
    | succ k =>
      by_contra hc
      exact (digitsFor_spec (n := k) hq hd).1 (h2 k (by omega)) w hw.1 hw.2
  · intro w hw
    rw [readAs_iff] at hw
    exact g4 w hw.1 hw.2
  · intro w hw he hne
    rw [readAs_iff] at hw
    exact g5 w hw.1 hw.2 he hne

theorem decimal_shift (a : PyStr) (k : Nat) : decimal (a ++ List.replicate k '0') = decimal a * 10 ^ k := by
  rw [decimal_cat, decimal_zeros, List.length_replicate, Nat.add_zero]

theorem natDigits_form (k : Nat) : AllDigits (Nat.toDigits 10 k) ∧ Nat.toDigits 10 k ≠ [] ∧ decimal (Nat.toDigits 10 k) = k ∧
    ((Nat.toDigits 10 k).head? = some '0' → Nat.toDigits 10 k = ['0']) := by
  rcases Nat.eq_zero_or_pos k with rfl | h
  · exact ⟨digits_dig 0, by decide, by decide, by decide⟩
  · obtain ⟨c, w, e, hc⟩ := digits_head (Nat.pow_log_le_self 10 h.ne') (Nat.lt_pow_succ_log_self (by norm_num) k)
    refine ⟨digits_dig k, by rw [e]; simp, decimal_toDigits k, fun h0 => ?_⟩
    rw [e] at h0
    exact absurd (Option.some.inj h0) hc

theorem intStr_form (e : Int) : ∃ digits, intStr e = (if e < 0 then ['-'] else []) ++ digits ∧ AllDigits digits ∧ digits ≠ [] ∧ decimal digits = e.natAbs ∧
    (digits.head? = some '0' → digits = ['0']) := by
  cases e with
  | ofNat k =>
    obtain ⟨a, b, c, d⟩ := natDigits_form k
    exact ⟨_, by rw [if_neg (by simp)]; rfl, a, b, c, d⟩
  | negSucc k =>
    obtain ⟨a, b, c, d⟩ := natDigits_form (k + 1)
    exact ⟨_, by rw [if_pos (Int.negSucc_lt_zero k)]; rfl, a, b, c, d⟩

/-- What `layout` writes. -/
theorem layout_writes (plain : Int → Bool) {c : Char} {w p : PyStr} {d : Char} (hds : c :: w = p ++ [d]) (hdig : AllDigits (c :: w)) (hc : c ≠ '0') (hd : d ≠ '0')
    {e : Int} {v : ℚ} (hv : v = decimal (c :: w) * 10 ^ (e - w.length)) (h1 : (10 : ℚ) ^ e ≤ v) (h2 : v < 10 ^ (e + 1)) :
    WritesJson plain v (layout plain (c :: w) e) := by
  refine ⟨e, h1, h2, ?_⟩
  unfold layout
  by_cases hp : plain e = true
  · rw [if_pos hp, if_pos hp]
    by_cases h0 : 0 ≤ e
    · rw [if_pos h0]
      obtain ⟨k, rfl⟩ := Int.eq_ofNat_of_zero_le h0
      dsimp only
      rw [Int.toNat_natCast]
      by_cases hl : (c :: w).length ≤ k + 1
      · rw [if_pos hl]
        rw [List.length_cons] at hl
        refine ⟨(c :: w) ++ List.replicate (k + 1 - (c :: w).length) '0', ['0'], by simp, ?_, digits_dig 0, by simp, by simp, ?_, fun _ => rfl, ?_⟩
        · intro x hx
          rcases List.mem_append.1 hx with hx | hx
          · exact hdig x hx
          · rw [(List.mem_replicate.1 hx).2]
            decide
        · intro h
          exact absurd (Option.some.inj h) hc
        · rw [decimal_cat, decimal_shift, hv, List.length_cons, show decimal ['0'] = 0 from rfl]
          have : ((k : Int) - w.length) = ((k + 1 - (w.length + 1) : Nat) : Int) := by omega
          rw [this, zpow_natCast]
          simp
      · rw [if_neg hl]
        rw [List.length_cons] at hl
        refine ⟨(c :: w).take (k + 1), (c :: w).drop (k + 1), rfl, fun x hx => hdig x (List.mem_of_mem_take hx), fun x hx => hdig x (List.mem_of_mem_drop hx), by simp, ?_, ?_, ?_, ?_⟩
        · intro h
          have := congrArg List.length h
          rw [List.length_drop, List.length_cons] at this
          simp at this
          omega
        · rw [List.take_succ_cons]
          intro h
          exact absurd (Option.some.inj h) hc
        · intro h
          rw [List.getLast?_drop, if_neg (by rw [List.length_cons]; omega), hds] at h
          simp at h
          exact absurd h hd
        · rw [List.take_append_drop, List.length_drop, hv, List.length_cons]
          have : ((k : Int) - w.length) = -((w.length + 1 - (k + 1) : Nat) : Int) := by omega
          rw [this, zpow_neg, zpow_natCast]
          rfl
    · rw [if_neg h0]
      refine ⟨['0'], List.replicate (-e - 1).toNat '0' ++ (c :: w), rfl, digits_dig 0, ?_, by simp, by simp, fun _ => rfl, ?_, ?_⟩
      · intro x hx
        rcases List.mem_append.1 hx with hx | hx
        · rw [(List.mem_replicate.1 hx).2]
          decide
        · exact hdig x hx
      · intro h
        rw [hds, ← List.append_assoc] at h
        simp at h
        exact absurd h hd
      · rw [← List.append_assoc, show ['0'] ++ List.replicate (-e - 1).toNat '0' = List.replicate ((-e - 1).toNat + 1) '0' from rfl, decimal_cat, decimal_zeros, zero_mul,
          zero_add, List.length_append, List.length_replicate, List.length_cons, hv]
        have : e - w.length = -(((-e - 1).toNat + (w.length + 1) : Nat) : Int) := by omega
        rw [this, zpow_neg, zpow_natCast]
        rfl
  · rw [if_neg hp, if_neg hp]
    obtain ⟨digits, i1, i2, i3, i4, i5⟩ := intStr_form e
    cases w with
    | nil =>
      refine ⟨[c], _, digits, decimal [c], ?_, .whole c [] hc, .whole _ hdig (by simp), ?_, rfl, i2, i3, i4, i5⟩
      · rw [if_pos (by simp), i1]
      · rw [hv]
        simp
    | cons x w =>
      have hp' : ∃ p', x :: w = p' ++ [d] := by
        cases p with
        | nil => simp at hds
        | cons y p' => exact ⟨p', by simpa using (List.cons.inj hds).2⟩
      obtain ⟨p', hp'⟩ := hp'
      refine ⟨c :: '.' :: (x :: w), _, digits, decimal (c :: x :: w) / 10 ^ (x :: w).length, ?_, ?_, ?_, ?_, rfl, i2, i3, i4, i5⟩
      · rw [if_neg (by simp), i1]
        rfl
      · rw [hp']
        exact ShortDecimal.point c [] p' d (.inl hc) hd
      · exact MantissaText.point [c] (x :: w) (fun y hy => hdig y (by simp at hy; simp [hy])) (fun y hy => hdig y (List.mem_cons_of_mem _ hy)) (by simp)
      · rw [hv, zpow_sub₀ (by norm_num), zpow_natCast]
        ring

/-- The text of a positive float writes its shortest decimal. -/
theorem jsonPositive_writes (plain : Int → Bool) {q : ℚ} (hq : 0 < q) (hd : IsDouble q) :
    ∃ p v, p ≤ 17 ∧ 0 < v ∧ ShortestDecimal p q v ∧ WritesJson plain v (jsonPositive plain q) := by
  obtain ⟨n, hn, s1, s2, s3⟩ := shortDigits_spec hq hd
  have hk : ∃ k, 10 ^ k ≤ (shortDigits q).1 ∧ (shortDigits q).1 < 10 ^ (k + 1) := by
    rcases Nat.lt_or_eq_of_le s2 with h | h
    · exact ⟨n, s1, h⟩
    · exact ⟨n + 1, h.ge, by rw [h]; exact Nat.pow_lt_pow_right (by norm_num) (by omega)⟩
  obtain ⟨k, k1, k2⟩ := hk
  have hv : (0 : ℚ) < (shortDigits q).1 * 10 ^ (shortDigits q).2 := by
    have : 0 < (shortDigits q).1 := lt_of_lt_of_le (by positivity) k1
    positivity
  refine ⟨n + 1, _, by omega, hv, s3, ?_⟩
  unfold jsonPositive
  dsimp only
  generalize (shortDigits q).1 = m at *
  generalize (shortDigits q).2 = u at *
  have hl := digits_length k1 k2
  rw [hl, Nat.add_sub_cancel]
  obtain ⟨c, w, hds, hc⟩ := digits_head k1 k2
  obtain ⟨p, d, hpd, hd0⟩ := dropZeros_last (dropZeros_mem (s := Nat.toDigits 10 m) (c := c) (by rw [hds]; simp) hc)
  obtain ⟨z, hz⟩ := dropZeros_split (Nat.toDigits 10 m)
  have hm : decimal (dropZeros (Nat.toDigits 10 m)) * 10 ^ z = m := by
    rw [← decimal_shift, ← hz, decimal_toDigits]
  have hdig : AllDigits (dropZeros (Nat.toDigits 10 m)) := by
    intro x hx
    exact digits_dig m x (by rw [hz]; exact List.mem_append_left _ hx)
  have hlen : (dropZeros (Nat.toDigits 10 m)).length + z = k + 1 := by
    rw [← hl]
    conv_rhs => rw [hz]
    simp
  have hhead : ∃ w', dropZeros (Nat.toDigits 10 m) = c :: w' := by
    cases e : dropZeros (Nat.toDigits 10 m) with
    | nil => rw [e] at hpd; simp at hpd
    | cons y w' =>
      rw [e, hds] at hz
      rw [(List.cons.inj hz).1]
      exact ⟨w', rfl⟩
  obtain ⟨w', hw'⟩ := hhead
  rw [hw'] at hpd hm hdig hlen ⊢
  have a1 : (10 : ℚ) ^ k ≤ m := by exact_mod_cast k1
  have a2 : (m : ℚ) < 10 ^ (k + 1) := by exact_mod_cast k2
  have hu : (0 : ℚ) < 10 ^ u := by positivity
  refine layout_writes plain hpd hdig hc hd0 ?_ ?_ ?_
  · rw [← hm]
    push_cast
    have : u + k - (w'.length : Int) = z + u := by
      rw [List.length_cons] at hlen
      omega
    rw [this, zpow_add₀ (by norm_num), zpow_natCast]
    ring
  · rw [add_comm, zpow_add₀ (by norm_num), zpow_natCast]
    gcongr
  · rw [show u + k + 1 = ((k + 1 : Nat) : Int) + u by push_cast; ring, zpow_add₀ (by norm_num), zpow_natCast]
    gcongr

end Splitgill
