import Verif.Proof.FloatText3
import Verif.Props.NumberText
/-!
# C111: the texts of floats
-/

namespace Splitgill.Props
open Splitgill

theorem positive_text {p : Nat} (hp : 1 ≤ p) {q : ℚ} (hq : 0 < q) :
    ∃ v, RoundedDecimal p q v ∧ 0 < v ∧ WritesDecimal p v (gPositive p q) ∧
      ∃ mant ex a b, gPositive p q = mant ++ ex ∧ MantissaText mant a ∧ ExponentText ex b ∧ a * 10 ^ b = v := by
  obtain ⟨n, rfl⟩ : ∃ n, p = n + 1 := ⟨p - 1, by omega⟩
  obtain ⟨s1, s2, s3⟩ := sigDigits_spec (n := n) hq
  have e : gPositive (n + 1) q = gText (n + 1) (sigDigits (n + 1) q).1 (sigDigits (n + 1) q).2 := by
    unfold gPositive
    rw [show max (n + 1) 1 = n + 1 by omega]
  refine ⟨_, decPos_rounded hq, ?_, ?_, ?_⟩
  · rw [← s3]
    have : 0 < (sigDigits (n + 1) q).1 := lt_of_lt_of_le (by positivity) s1
    positivity
  · rw [e, ← s3]
    exact gText_form s1 s2 _
  · rw [e, ← s3]
    exact gText_writes s1 s2 _

/-- **C111**: the text of a float writes the decimal with `p` digits that is nearest to the float, of two the one with an even last digit, with its sign and
without needless zeros. -/
theorem C111_text {p : Nat} (hp : 1 ≤ p) {q : ℚ} (hq : q ≠ 0) :
    ∃ v, RoundedDecimal p q v ∧ (∃ r, Numeral (formatG p (.fin q)) (decide (q < 0)) r ∧ signed (decide (q < 0)) r = v) ∧
      ∃ s, WritesDecimal p |v| s ∧ formatG p (.fin q) = if q < 0 then '-' :: s else s := by
  rcases lt_or_gt_of_ne hq with h | h
  · obtain ⟨v, h1, h2, h3, mant, ex, a, b, h4, h5, h6, h7⟩ := positive_text hp (q := -q) (by linarith)
    refine ⟨-v, by simpa using h1.neg, ⟨v, ⟨[], ['-'], mant, ex, [], a, b, ?_, fun c hc => (nomatch hc), fun c hc => (nomatch hc), ?_, h5, h6, h7.symm⟩, ?_⟩, gPositive p (-q), ?_, ?_⟩
    · show (if q = 0 then _ else if q < 0 then _ else _) = _
      rw [if_neg hq, if_pos h, h4]
      simp
    · rw [decide_eq_true h]
      exact .minus
    · rw [decide_eq_true h]
      rfl
    · rw [abs_neg, abs_of_pos h2]
      exact h3
    · show (if q = 0 then _ else if q < 0 then _ else _) = _
      rw [if_neg hq, if_pos h, if_pos h]
  · obtain ⟨v, h1, h2, h3, mant, ex, a, b, h4, h5, h6, h7⟩ := positive_text hp h
    have hn : ¬ q < 0 := by linarith
    refine ⟨v, h1, ⟨v, ⟨[], [], mant, ex, [], a, b, ?_, fun c hc => (nomatch hc), fun c hc => (nomatch hc), ?_, h5, h6, h7.symm⟩, ?_⟩, gPositive p q, ?_, ?_⟩
    · show (if q = 0 then _ else if q < 0 then _ else _) = _
      rw [if_neg hq, if_neg hn, h4]
      simp
    · rw [decide_eq_false hn]
      exact .missing
    · rw [decide_eq_false hn]
      rfl
    · rw [abs_of_pos h2]
      exact h3
    · show (if q = 0 then _ else if q < 0 then _ else _) = _
      rw [if_neg hq, if_neg hn, if_neg hn]

/-- The texts of the other floats: zeros write zero, and infinities and NaN the words for them, which are no numerals. -/
theorem C111_special (p : Nat) : formatG p (.fin 0) = "0".toList ∧ formatG p .negZero = "-0".toList ∧
    formatG p .nan = "nan".toList ∧ formatG p .pinf = "inf".toList ∧ formatG p .ninf = "-inf".toList ∧
    ∀ x, x = .nan ∨ x = .pinf ∨ x = .ninf → ∀ neg r, ¬ Numeral (formatG p x) neg r := by
  refine ⟨rfl, rfl, rfl, rfl, rfl, ?_⟩
  rintro x (rfl | rfl | rfl) neg r h
  · have := textNumber_iff.2 h
    rw [show textNumber (formatG p .nan) = none from rfl] at this
    cases this
  · have := textNumber_iff.2 h
    rw [show textNumber (formatG p .pinf) = none from rfl] at this
    cases this
  · have := textNumber_iff.2 h
    rw [show textNumber (formatG p .ninf) = none from rfl] at this
    cases this

/-- A precision of 0 is one of 1. -/
theorem C111_none (x : PyFloat) : formatG 0 x = formatG 1 x := by
  cases x <;> rfl

/-- **C111**: two floats have the same text if and only if they are rounded to the same decimal. -/
theorem C111_same {p : Nat} (hp : 1 ≤ p) {q q' : ℚ} (hq : q ≠ 0) (hq' : q' ≠ 0) :
    formatG p (.fin q) = formatG p (.fin q') ↔ ∃ v, RoundedDecimal p q v ∧ RoundedDecimal p q' v := by
  constructor
  · intro h
    obtain ⟨v, h1, ⟨r, h2, h3⟩, _⟩ := C111_text hp hq
    obtain ⟨v', h1', ⟨r', h2', h3'⟩, _⟩ := C111_text hp hq'
    rw [← h] at h2'
    obtain ⟨e1, e2⟩ := C110_unique h2 h2'
    rw [← e1, ← e2, h3] at h3'
    exact ⟨v, h1, h3' ▸ h1'⟩
  · rintro ⟨v, h, h'⟩
    obtain ⟨n, rfl⟩ : ∃ n, p = n + 1 := ⟨p - 1, by omega⟩
    have key : ∀ {x y v : ℚ}, 0 < x → 0 < y → RoundedDecimal (n + 1) x v → RoundedDecimal (n + 1) y v → gPositive (n + 1) x = gPositive (n + 1) y := by
      intro x y v hx hy h h'
      obtain ⟨s1, s2, s3⟩ := sigDigits_spec (n := n) hx
      obtain ⟨t1, t2, t3⟩ := sigDigits_spec (n := n) hy
      have e : decPos n x = decPos n y := ((decPos_rounded hx).unique h).trans ((decPos_rounded hy).unique h').symm
      obtain ⟨g1, g2⟩ := normal_unique s1 s2 t1 t2 (s3.trans (e.trans t3.symm))
      unfold gPositive
      rw [show max (n + 1) 1 = n + 1 by omega]
      dsimp only
      rw [g1, g2]
    have sgn : ∀ {x v : ℚ}, x < 0 → RoundedDecimal (n + 1) x v → v < 0 := by
      intro x v hx h
      obtain ⟨w, h1, h2, _⟩ := positive_text (p := n + 1) (by omega) (q := -x) (by linarith)
      have := h.neg.unique h1
      linarith
    have sgn' : ∀ {x v : ℚ}, 0 < x → RoundedDecimal (n + 1) x v → 0 < v := by
      intro x v hx h
      obtain ⟨w, h1, h2, _⟩ := positive_text (p := n + 1) (by omega) (q := x) hx
      rw [h.unique h1]
      exact h2
    show (if q = 0 then _ else if q < 0 then '-' :: gPositive (n + 1) (-q) else gPositive (n + 1) q) =
      (if q' = 0 then _ else if q' < 0 then '-' :: gPositive (n + 1) (-q') else gPositive (n + 1) q')
    rw [if_neg hq, if_neg hq']
    rcases lt_or_gt_of_ne hq with a | a <;> rcases lt_or_gt_of_ne hq' with b | b
    · rw [if_pos a, if_pos b, key (by linarith) (by linarith) h.neg h'.neg]
    · exact absurd (sgn a h) (not_lt.2 (sgn' b h').le)
    · exact absurd (sgn b h') (not_lt.2 (sgn' a h).le)
    · rw [if_neg (by linarith), if_neg (by linarith), key a b h h']

/-- **C111**: a float that is an int with at most `p` digits has the text of this int. -/
theorem C111_ints {p : Nat} (hp : 1 ≤ p) (i : Int) (hi : |i| < 10 ^ p) : formatG p (.fin i) = (toString i).toList := by
  rw [← intStr_eq]
  obtain ⟨n, rfl⟩ : ∃ n, p = n + 1 := ⟨p - 1, by omega⟩
  cases i with
  | ofNat k =>
    rcases Nat.eq_zero_or_pos k with rfl | hk
    · rfl
    · have h : k < 10 ^ (n + 1) := by
        have : |(k : ℤ)| < 10 ^ (n + 1) := hi
        rw [abs_of_nonneg (by omega)] at this
        exact_mod_cast this
      have hq : (0 : ℚ) < (k : ℚ) := by exact_mod_cast hk
      show (if ((Int.ofNat k : ℤ) : ℚ) = 0 then _ else if ((Int.ofNat k : ℤ) : ℚ) < 0 then _ else gPositive (n + 1) ((Int.ofNat k : ℤ) : ℚ)) = _
      rw [show ((Int.ofNat k : ℤ) : ℚ) = (k : ℚ) by simp, if_neg hq.ne', if_neg (by linarith), gPositive_nat hk h]
      rfl
  | negSucc k =>
    have h : k + 1 < 10 ^ (n + 1) := by
      rw [Int.negSucc_eq, abs_neg, abs_of_nonneg (by omega)] at hi
      exact_mod_cast hi
    have hq : ((Int.negSucc k : ℤ) : ℚ) = -((k + 1 : Nat) : ℚ) := by
      rw [Int.negSucc_eq]
      push_cast
      ring
    have hpos : (0 : ℚ) < ((k + 1 : Nat) : ℚ) := by positivity
    show (if ((Int.negSucc k : ℤ) : ℚ) = 0 then "0".toList else if ((Int.negSucc k : ℤ) : ℚ) < 0 then '-' :: gPositive (n + 1) (-((Int.negSucc k : ℤ) : ℚ)) else gPositive (n + 1) ((Int.negSucc k : ℤ) : ℚ)) = _
    rw [hq, if_neg (by linarith), if_pos (by linarith), neg_neg, gPositive_nat (by omega) h]
    rfl

/-- **C111**: of a float made from a decimal with at most 15 digits, the text writes this decimal. -/
theorem C111_digits {p : Nat} (hp : 1 ≤ p) (hp' : p ≤ 15) {d : ℚ} (hd : HasDigits 10 p d) (h0 : d ≠ 0) :
    ∃ neg r, Numeral (formatG p (.fin (fl d))) neg r ∧ signed neg r = d := by
  have hne : fl d ≠ 0 := by
    intro h
    have := fl_close d
    rw [h, sub_zero] at this
    have h1 := abs_pos.2 h0
    have h2 : (1 : ℚ) < 2 ^ (53 : ℕ) := by norm_num
    nlinarith
  obtain ⟨v, h1, ⟨r, h2, h3⟩, _⟩ := C111_text hp hne
  exact ⟨_, r, h2, h3.trans (digits_kept hp' hd h1.1)⟩

/-- **C111**: with 17 digits or more the text tells which float it was: read as a number it is this float. -/
theorem C111_back {p : Nat} (hp : 17 ≤ p) {q : ℚ} (hd : IsDouble q) (h0 : q ≠ 0) :
    ∃ neg r, Numeral (formatG p (.fin q)) neg r ∧ IsRounded (signed neg r) q := by
  obtain ⟨v, h1, ⟨r, h2, h3⟩, _⟩ := C111_text (show 1 ≤ p by omega) h0
  refine ⟨_, r, h2, ?_⟩
  rw [h3]
  have := C54_rounding v
  rwa [doubles_kept hp hd h0 h1.1] at this

/-- The default format. -/
theorem C111_default : startOptions.floatFormat = gFormat 15 := by decide

/-- **C111**: a float that is an int with at most `p` digits is indexed as this int is: with the same text, keyword, number, boolean and date. -/
theorem C111_like_ints (Q : QueryEnv) (E : ParseEnv) (hE : E.FormatsG) (o : ParsingOptions) {p : Nat} (hp : 1 ≤ p) (hp' : p < 2 ^ 31 - 1) (ho : o.floatFormat = gFormat p)
    (i : Int) (hi : |i| < 10 ^ p) :
    textOf E o (.float (.fin i)) = textOf E o (.int i) ∧ keywordOf Q E o (.float (.fin i)) = keywordOf Q E o (.int i) ∧
    numberOf E o (.float (.fin i)) = numberOf E o (.int i) ∧ boolOf E o (.float (.fin i)) = boolOf E o (.int i) ∧
    dateOf E o (.float (.fin i)) = dateOf E o (.int i) := by
  have h : textOf E o (.float (.fin i)) = textOf E o (.int i) := by
    show E.formatFloat o.floatFormat (.fin i) = (toString i).toList
    rw [ho, hE p hp', C111_ints hp i hi]
  refine ⟨h, ?_, rfl, ?_, ?_⟩
  · unfold keywordOf
    rw [h]
  · show (if E.lower (textOf E o (.float (.fin i))) ∈ o.trueValues then _ else _) = _
    rw [h]
    rfl
  · unfold dateOf
    rw [h]

/-- **C111**: a record with a float made from a decimal is found by a term query for the text of this float, and so is one with any other float that is rounded to
the same decimal. -/
theorem C111_found (Q : QueryEnv) (E : ParseEnv) (hE : E.FormatsG) (o : ParsingOptions) {p : Nat} (hp : 1 ≤ p) (hp' : p < 2 ^ 31 - 1) (ho : o.floatFormat = gFormat p)
    (hn : 0 ≤ o.keywordLength) (d : Dict) (pd : ParsedData)
    (hw : (Value.dict d).wf = true) (hf : FieldNames (.dict d)) (h : parse E o d = .ok pd) (path : Path) (q q' v : ℚ) (h0 : q ≠ 0) (h0' : q' ≠ 0)
    (hd : getAt path (.dict d) = some (.float (.fin q))) (hv : RoundedDecimal p q v) (hv' : RoundedDecimal p q' v)
    (hl : ((formatG p (.fin q')).length : Int) ≤ o.keywordLength) :
    ∃ query, termQuery Q (fieldPath path) (.value (.str (formatG p (.fin q')))) none = .ok query ∧ query.matches Q pd.parsed = true := by
  obtain ⟨query, h1, h2⟩ := C50_strings_partial Q E o d pd hn hw hf h (fieldPath path) (formatG p (.fin q'))
  refine ⟨query, h1, h2.2 ⟨path, _, rfl, hd, rfl, ?_⟩⟩
  show Q.normalise ((E.formatFloat o.floatFormat (.fin q)).take o.keywordLength.toNat) = _
  rw [ho, hE p hp', (C111_same hp h0 h0').2 ⟨v, hv, hv'⟩, List.take_of_length_le (by omega)]

/-- Some texts: as Python writes them. -/
example : [(15, (1 / 10 : ℚ)), (15, 3 / 10 + 1 / 10 ^ 16), (15, 100), (15, 10 ^ 14 + 1 / 2), (15, 10 ^ 15 - 1), (15, 10 ^ 15), (15, 123456789012345678), (15, 1 / 10 ^ 4),
      (15, 12 / 10 ^ 6), (15, -5 / 2), (3, 12345), (3, 9996 / 10), (1, 5 / 2), (1, 7 / 2), (0, 77), (15, 1 / 10 ^ 100), (17, fl (1 / 10))].map (fun x => formatG x.1 (.fin x.2)) =
    ["0.1", "0.3", "100", "100000000000000", "999999999999999", "1e+15", "1.23456789012346e+17", "0.0001", "1.2e-05", "-2.5", "1.23e+04", "1e+03", "2", "4", "8e+01",
      "1e-100", "0.10000000000000001"].map String.toList := by
  decide +kernel

/-- Floats as `str.format` writes them. -/
def exFormats : ParseEnv := { exNumbers with formatFloat := fun f x => formatG (decimal ((f.drop 4).take (f.length - 6))) x }

theorem exFormats_formats : exFormats.FormatsG := by
  intro p _ x
  have e : ((gFormat p).drop 4).take ((gFormat p).length - 6) = Nat.toDigits 10 p := by
    unfold gFormat
    rw [List.drop_left' (show "{0:.".toList.length = 4 by decide), List.length_append, List.length_append, show "{0:.".toList.length = 4 by decide,
      show "g}".toList.length = 2 by decide]
    exact List.take_left' (by omega)
  show formatG (decimal (((gFormat p).drop 4).take ((gFormat p).length - 6))) x = _
  rw [e, decimal_toDigits]

/-- The hypotheses are met: 0.1 and 0.1 + 2/10^17 are rounded to the same decimal of 15 digits, but are not the same float. -/
example : (∃ v, RoundedDecimal 15 (1 / 10) v ∧ RoundedDecimal 15 (1 / 10 + 2 / 10 ^ 17) v) ∧ fl (1 / 10) ≠ fl (1 / 10 + 2 / 10 ^ 17) ∧ HasDigits 10 15 (1 / 10) ∧ IsDouble (fl (1 / 10)) :=
  ⟨(C111_same (by omega) (by norm_num) (by norm_num)).1 (by decide +kernel), by decide +kernel, ⟨1, -1, by norm_num, by norm_num⟩, (fl_nearest _).1⟩

end Splitgill.Props
