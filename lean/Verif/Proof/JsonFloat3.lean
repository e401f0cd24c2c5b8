import Verif.Proof.JsonFloat2
import Verif.Proof.Bson3
import Verif.Spec.Life
/-!
# The texts of floats in JSON are read as they were written
-/

namespace Splitgill

theorem ShortestDecimal.unique {p k : Nat} {x v v' : ℚ} (h : ShortestDecimal p x v) (h' : ShortestDecimal k x v') : p = k ∧ v = v' := by
  obtain ⟨a1, a2, a3, a4⟩ := h
  obtain ⟨b1, b2, b3, b4⟩ := h'
  have hp : p = k := le_antisymm (a2 _ _ b1) (b2 _ _ a1)
  subst hp
  refine ⟨rfl, ?_⟩
  by_contra hne
  have hd : |x - v'| = |x - v| := le_antisymm (b3 _ a1) (a3 _ b1)
  obtain ⟨m, l, e, e1, e2, e3, e4⟩ := a4 _ b1 hd (Ne.symm hne)
  obtain ⟨m', l', e', e1', e2', e3', e4'⟩ := b4 _ a1 hd.symm hne
  have f1 : |v - v'| = 10 ^ e := by
    rw [e1, e2, ← sub_mul, abs_mul, abs_of_pos (by positivity : (0 : ℚ) < 10 ^ e)]
    have : |((m - l : ℤ) : ℚ)| = 1 := by exact_mod_cast e3
    push_cast at this
    rw [this, one_mul]
  have f2 : |v - v'| = 10 ^ e' := by
    rw [e1', e2', ← sub_mul, abs_mul, abs_of_pos (by positivity : (0 : ℚ) < 10 ^ e')]
    have : |((l' - m' : ℤ) : ℚ)| = 1 := by
      rw [abs_sub_comm] at e3'
      exact_mod_cast e3'
    push_cast at this
    rw [this, one_mul]
  have f3 : e = e' := zpow_right_injective₀ (by norm_num) (by norm_num) (f1.symm.trans f2)
  subst f3
  have f4 : (l : ℚ) = m' := mul_right_cancel₀ (by positivity : (10 : ℚ) ^ e ≠ 0) (e2.symm.trans e1')
  have f5 : l = m' := by exact_mod_cast f4
  subst f5
  rcases e4 with ⟨a, rfl⟩
  rcases e4' with ⟨b, rfl⟩
  have := abs_eq (by norm_num : (0 : ℤ) ≤ 1) |>.1 e3
  omega

/-- The text of a positive decimal in JSON writes it. -/
theorem WritesJson.numeral {plain : Int → Bool} {v : ℚ} {s : PyStr} (h : WritesJson plain v s) :
    ∃ mant ex a b, s = mant ++ ex ∧ MantissaText mant a ∧ ExponentText ex b ∧ a * 10 ^ b = v := by
  obtain ⟨e, _, _, h⟩ := h
  split at h
  · obtain ⟨whole, part, rfl, h1, h2, h3, h4, h5, h6, h7⟩ := h
    refine ⟨_, [], _, 0, (List.append_nil _).symm, .point whole part h1 h2 (by simp [h3]), .missing, ?_⟩
    rw [zpow_zero, mul_one]
    exact h7
  · obtain ⟨mant, sign, digits, a, rfl, h1, h2, h3, h4, h5, h6, h7, h8⟩ := h
    refine ⟨mant, _, a, e, rfl, h2, ?_, h3.symm⟩
    by_cases hn : e < 0
    · rw [if_pos hn] at h4
      subst h4
      have := ExponentText.given 'e' ['-'] digits true (.inl rfl) .minus h5 h6
      rw [if_pos rfl, h7] at this
      have e1 : -(e.natAbs : Int) = e := by omega
      rwa [e1] at this
    · rw [if_neg hn] at h4
      subst h4
      have := ExponentText.given 'e' [] digits false (.inl rfl) .missing h5 h6
      rw [if_neg (by simp), h7] at this
      have e1 : (e.natAbs : Int) = e := by omega
      rwa [e1] at this

theorem digit_isDigit {c : Char} (h : '0'.toNat ≤ c.toNat ∧ c.toNat ≤ '9'.toNat) : c.isDigit = true := by
  simp only [Char.isDigit, Bool.and_eq_true, decide_eq_true_eq]
  exact h

theorem digit_numChar {c : Char} (h : '0'.toNat ≤ c.toNat ∧ c.toNat ≤ '9'.toNat) : isNumChar c = true := by
  unfold isNumChar
  rw [digit_isDigit h]
  rfl

theorem MantissaText.chars {w : PyStr} {q : ℚ} (h : MantissaText w q) : ∀ c ∈ w, isNumChar c = true := by
  cases h with
  | whole w h1 h2 => exact fun c hc => digit_numChar (h1 c hc)
  | point w p h1 h2 h3 =>
    intro c hc
    rcases List.mem_append.1 hc with hc | hc
    · exact digit_numChar (h1 c hc)
    · rcases List.mem_cons.1 hc with rfl | hc
      · decide
      · exact digit_numChar (h2 c hc)

theorem decimal_lt {w : PyStr} (h : AllDigits w) : decimal w < 10 ^ w.length := by
  induction w with
  | nil => decide
  | cons x w ih =>
    have h1 := ih (fun c hc => h c (List.mem_cons_of_mem _ hc))
    have h2 := (h x List.mem_cons_self).2
    rw [show x :: w = [x] ++ w from rfl, decimal_cat, List.length_append]
    have e1 : decimal [x] = x.toNat - 48 := by
      show 10 * 0 + (x.toNat - '0'.toNat) = _
      rw [show '0'.toNat = 48 from rfl]
      omega
    have e2 : x.toNat - 48 ≤ 9 := by
      have : '9'.toNat = 57 := rfl
      omega
    rw [e1, pow_add]
    have : (x.toNat - 48) * 10 ^ w.length ≤ 9 * 10 ^ w.length := Nat.mul_le_mul_right _ e2
    rw [show List.length [x] = 1 from rfl]
    omega

/-- The form of such a text: the characters of a number, a digit first, and a point or an exponent. -/
theorem WritesJson.form {plain : Int → Bool} {v : ℚ} {s : PyStr} (h : WritesJson plain v s) :
    (∀ c ∈ s, isNumChar c = true) ∧ (∃ c r, s = c :: r ∧ c.isDigit = true) ∧ ∃ c ∈ s, c = '.' ∨ c = 'e' ∨ c = 'E' := by
  obtain ⟨e, hlo, _, h⟩ := h
  split at h
  · obtain ⟨whole, part, rfl, h1, h2, h3, h4, h5, h6, h7⟩ := h
    refine ⟨(MantissaText.point whole part h1 h2 (by simp [h3])).chars, ?_, ⟨'.', by simp, .inl rfl⟩⟩
    cases whole with
    | nil => exact absurd rfl h3
    | cons c r => exact ⟨c, _, rfl, digit_isDigit (h1 c List.mem_cons_self)⟩
  · obtain ⟨mant, sign, digits, a, rfl, h1, h2, h3, h4, h5, h6, h7, h8⟩ := h
    refine ⟨?_, ?_, ⟨'e', by simp, .inr (.inl rfl)⟩⟩
    · intro c hc
      rcases List.mem_append.1 hc with hc | hc
      · exact h2.chars c hc
      · rcases List.mem_cons.1 hc with rfl | hc
        · decide
        · rcases List.mem_append.1 hc with hc | hc
          · rw [h4] at hc
            split at hc
            · rw [List.mem_singleton.1 hc]
              decide
            · cases hc
          · exact digit_numChar (h5 c hc)
    · cases h2 with
      | whole w g1 g2 =>
        cases mant with
        | nil => exact absurd rfl g2
        | cons c r => exact ⟨c, _, rfl, digit_isDigit (g1 c List.mem_cons_self)⟩
      | point w p g1 g2 g3 =>
        cases w with
        | nil =>
          exfalso
          have g4 : (decimal p : ℚ) < 10 ^ p.length := by exact_mod_cast decimal_lt g2
          have g5 : (decimal ([] ++ p) : ℚ) / 10 ^ p.length < 1 := by
            rw [List.nil_append, div_lt_one (by positivity)]
            exact g4
          rw [h3] at hlo
          have hk : (0 : ℚ) < 10 ^ e := by positivity
          nlinarith
        | cons c r => exact ⟨c, _, rfl, digit_isDigit (g1 c List.mem_cons_self)⟩

/-- A positive float is read as it was written. -/
theorem jsonPositive_read (plain : Int → Bool) {q : ℚ} (hq : 0 < q) (hd : IsDouble q) (neg : Bool) :
    ∃ v, textNumber ((if neg then ['-'] else []) ++ jsonPositive plain q) = some (neg, v) ∧ 0 < v ∧ fl v = q := by
  obtain ⟨p, v, _, hv, hs, hw⟩ := jsonPositive_writes plain hq hd
  obtain ⟨mant, ex, a, b, h1, h2, h3, h4⟩ := hw.numeral
  refine ⟨v, textNumber_iff.2 ⟨[], if neg then ['-'] else [], mant, ex, [], a, b, ?_, fun c hc => (nomatch hc), fun c hc => (nomatch hc), ?_, h2, h3, h4.symm⟩, hv,
    (readAs_iff.1 hs.1).2⟩
  · rw [h1]
    simp
  · cases neg
    · exact .missing
    · exact .minus

theorem fl_neg' {v : ℚ} (h : 0 < v) : fl (-v) = - fl v := by
  unfold fl
  rw [if_neg (by linarith), if_neg (by linarith), if_neg h.ne', if_pos h, neg_neg]

/-- **Keeps**: all finite doubles. -/
theorem jsonFloats_keeps (plain : Int → Bool) {f : PyFloat} (hf : f = .negZero ∨ ∃ q, f = .fin q ∧ IsDouble q) : (jsonFloats plain).Keeps f := by
  rcases hf with rfl | ⟨q, rfl, hd⟩
  · exact ⟨by show (textNumber "-0.0".toList).map floatOf = _; decide +kernel, by show ∀ c ∈ "-0.0".toList, _; decide, ⟨'-', _, rfl, .inr rfl⟩, ⟨'.', by show '.' ∈ "-0.0".toList; decide, .inl rfl⟩⟩
  · rcases lt_trichotomy q 0 with h | rfl | h
    · have hd' : IsDouble (-q) := by
        obtain ⟨m, e, hm, rfl⟩ := hd
        exact ⟨-m, e, by rwa [abs_neg], by push_cast; ring⟩
      have e : (jsonFloats plain).write (.fin q) = '-' :: jsonPositive plain (-q) := by
        show (if q = 0 then _ else if q < 0 then _ else _) = _
        rw [if_neg h.ne, if_pos h]
      obtain ⟨v, h1, h2, h3⟩ := jsonPositive_read plain (q := -q) (by linarith) hd' true
      obtain ⟨_, _, _, _, _, hw⟩ := jsonPositive_writes plain (q := -q) (by linarith) hd'
      obtain ⟨g1, g2, c, hc, g3⟩ := hw.form
      refine ⟨?_, ?_, ⟨'-', _, e, .inr rfl⟩, ⟨c, by rw [e]; exact List.mem_cons_of_mem _ hc, g3⟩⟩
      · rw [e]
        show (textNumber ('-' :: jsonPositive plain (-q))).map floatOf = _
        rw [show '-' :: jsonPositive plain (-q) = (if true then ['-'] else []) ++ jsonPositive plain (-q) from rfl, h1]
        simp only [Option.map_some, floatOf]
        rw [if_neg h2.ne', if_pos trivial, fl_neg' h2, h3, neg_neg]
      · intro c hc
        rw [e] at hc
        rcases List.mem_cons.1 hc with rfl | hc
        · decide
        · exact g1 c hc
    · exact ⟨by show (textNumber "0.0".toList).map floatOf = _; decide +kernel, by show ∀ c ∈ "0.0".toList, _; decide, ⟨'0', _, rfl, .inl (by decide)⟩, ⟨'.', by show '.' ∈ "0.0".toList; decide, .inl rfl⟩⟩
    · have e : (jsonFloats plain).write (.fin q) = jsonPositive plain q := by
        show (if q = 0 then _ else if q < 0 then _ else _) = _
        rw [if_neg h.ne', if_neg (by linarith)]
      obtain ⟨v, h1, h2, h3⟩ := jsonPositive_read plain h hd false
      obtain ⟨_, _, _, _, _, hw⟩ := jsonPositive_writes plain h hd
      obtain ⟨g1, ⟨c0, r, g2, g4⟩, c, hc, g3⟩ := hw.form
      refine ⟨?_, ?_, ⟨c0, r, e.trans g2, .inl g4⟩, ⟨c, by rw [e]; exact hc, g3⟩⟩
      · rw [e]
        show (textNumber (jsonPositive plain q)).map floatOf = _
        rw [show jsonPositive plain q = (if false then ['-'] else []) ++ jsonPositive plain q from rfl, h1]
        simp only [Option.map_some, floatOf]
        rw [if_neg h2.ne', if_neg (by simp), h3]
      · rw [e]
        exact g1

theorem floatFits_of_double (plain : Int → Bool) {v : Value} (h : DoubleValue v) : FloatFits (jsonFloats plain) v := by
  intro f hf
  have := h f hf
  cases f with
  | nan => exact .inl rfl
  | pinf => exact .inr (.inl rfl)
  | ninf => exact .inr (.inr (.inl rfl))
  | negZero => exact .inr (.inr (.inr (jsonFloats_keeps plain (.inl rfl))))
  | fin q => exact .inr (.inr (.inr (jsonFloats_keeps plain (.inr ⟨q, rfl, this⟩))))

/-! ## What is stored, from what was given -/

theorem runCalls_leaves {p : Value → Prop} {U : Unicode} {db : PyStr} : ∀ (calls : List ApiCall) (m : Mongo), CollLeaves p (m.data db) →
    (∀ r ∈ calls.flatMap ApiCall.stream, AllLeavesDict p (prepareRecordData U r)) →
    CollLeaves p ((runCalls U m (calls.map (fun c => (db, c)))).data db)
  | [], _, h, _ => h
  | c :: calls, m, h, hg => by
    have h2 := fun r (hr : r ∈ calls.flatMap ApiCall.stream) => hg r (by rw [List.flatMap_cons]; exact List.mem_append_right _ hr)
    refine runCalls_leaves calls ((c.run U db m).2) ?_ h2
    cases c with
    | ingest mf rs dc cl =>
      have h3 : ∀ r ∈ rs, AllLeavesDict p (prepareRecordData U r) := fun r hr => hg r (by rw [List.flatMap_cons]; exact List.mem_append_left _ hr)
      have key : ∀ c', ingest U mf (m.data db) rs = .ok c' → CollLeaves p ((m.setData db c').data db) := by
        intro c' hc'
        have : (m.setData db c').data db = c' := by simp [Mongo.setData]
        rw [this]
        unfold ingest at hc'
        cases hs : ingestSized U mf 200 (m.data db) rs with
        | error e => rw [hs] at hc'; cases hc'
        | ok s =>
          rw [hs] at hc'
          cases hc'
          rw [ingestSized_coll hs]
          exact h.bulkWrite (ingestSized_leaves h h3 hs)
      simp only [ApiCall.run]
      split
      · exact h
      · rename_i c' hc'
        split
        · exact commit_leaves (key _ hc')
        · exact key _ hc'
    | rollbackRecords =>
      simp only [ApiCall.run]
      split
      · exact h
      · rename_i c' hc'
        have : (m.setData db c').data db = c' := by simp [Mongo.setData]
        rw [this]
        unfold rollbackRecords at hc'
        split at hc'
        · split at hc'
          · cases hc'
          · rename_i ops ho
            cases hc'
            rw [foldl_bulkWrite, partition_flatten (by decide)]
            exact h.bulkWrite (rollbackOps_leaves h ho)
        · cases hc'
          exact h
    | commit cl => exact run_leaves (by simp) (by simp) h
    | updateOptions o dc cl => exact run_leaves (by simp) (by simp) h
    | rollbackOptions => exact run_leaves (by simp) (by simp) h

end Splitgill
