import Verif.Proof.NumberText
import Verif.Props.DateReads
import Verif.Props.Query
import Verif.Props.Time
/-!
# C110: which texts are indexed as numbers, and as which
-/

namespace Splitgill.Props
open Splitgill

/-- **C110**: a text writes at most one number. -/
theorem C110_unique {s : PyStr} {neg neg' : Bool} {q q' : ℚ} (h : Numeral s neg q) (h' : Numeral s neg' q') : neg = neg' ∧ q = q' := by
  have h1 := textNumber_iff.2 h
  rw [textNumber_iff.2 h'] at h1
  cases h1
  exact ⟨rfl, rfl⟩

theorem floatOf_number (x : Bool × ℚ) : (floatOf x).number? = some (fl (signed x.1 x.2)) := by
  unfold floatOf signed
  split
  · rename_i h
    rw [h]
    cases x.1 <;> simp [PyFloat.number?, fl]
  · rfl

/-- **C110**: a text is indexed as a number if and only if it writes one, and then as the nearest double. -/
theorem C110_numbers (E : ParseEnv) (hE : E.ReadsNumbers) (o : ParsingOptions) (s : PyStr) (hs : Printable s)
    (hd : ∀ neg q, Numeral s neg q → InDoubles q) :
    (∀ neg q, Numeral s neg q → ∃ x, numberOf E o (.str s) = some x ∧ IsRounded (signed neg q) x) ∧
    (∀ x, numberOf E o (.str s) = some x → ∃ neg q, Numeral s neg q ∧ IsRounded (signed neg q) x) := by
  have key : ∀ neg q, Numeral s neg q → numberOf E o (.str s) = some (fl (signed neg q)) := by
    intro neg q h
    show (E.toNumber s).bind PyFloat.number? = _
    rw [(hE s hs).2 neg q (textNumber_iff.2 h) (hd neg q h)]
    exact floatOf_number (neg, q)
  refine ⟨fun neg q h => ⟨_, key neg q h, C54_rounding _⟩, fun x hx => ?_⟩
  cases e : textNumber s with
  | none =>
    have : (E.toNumber s).bind PyFloat.number? = some x := hx
    rw [(hE s hs).1 e] at this
    cases this
  | some y =>
    have h := textNumber_iff.1 e
    rw [key y.1 y.2 h] at hx
    cases hx
    exact ⟨y.1, y.2, h, C54_rounding _⟩

/-- What is indexed for a text that writes no number. -/
theorem C110_none (E : ParseEnv) (hE : E.ReadsNumbers) (o : ParsingOptions) (s : PyStr) (hs : Printable s) (hn : ∀ neg q, ¬ Numeral s neg q) :
    numberOf E o (.str s) = none := by
  show (E.toNumber s).bind PyFloat.number? = _
  rw [(hE s hs).1]
  · rfl
  · cases e : textNumber s with
    | none => rfl
    | some y => exact absurd (textNumber_iff.1 e) (hn _ _)

/-- **C110**: a record with a text that writes a number is found by a term query for this number. -/
theorem C110_found (Q : QueryEnv) (E : ParseEnv) (hE : E.ReadsNumbers) (o : ParsingOptions) (d : Dict) (pd : ParsedData)
    (hw : (Value.dict d).wf = true) (hf : FieldNames (.dict d)) (h : parse E o d = .ok pd) (p : Path) (s : PyStr) (hp : getAt p (.dict d) = some (.str s))
    (hs : Printable s) (neg : Bool) (q : ℚ) (hq : Numeral s neg q) (hd : InDoubles q) (n : Num) (hn : n.rat = signed neg q) :
    ∃ query, termQuery Q (fieldPath p) (.value n.value) none = .ok query ∧ query.matches Q pd.parsed = true := by
  obtain ⟨query, h1, h2⟩ := C50_numbers_partial Q E o d pd hw hf h (fieldPath p) n
  refine ⟨query, h1, h2.2 ⟨p, .str s, rfl, hp, ?_, fl (signed neg q), ?_, ?_⟩⟩
  · cases s with
    | nil =>
      have := textNumber_iff.2 hq
      exact absurd this (by rw [show textNumber [] = none from rfl]; simp)
    | cons c s => rfl
  · show (E.toNumber s).bind PyFloat.number? = _
    rw [(hE s hs).2 neg q (textNumber_iff.2 hq) hd]
    exact floatOf_number (neg, q)
  · rw [hn]
    exact fl_double (fl_nearest _).1

theorem decimal_digits (n : Nat) : decimal (Nat.toDigits 10 n) = n := Nat.ofDigitChars_ten_toDigits

/-- **C110**: `str(i)` of an int writes this int, so a text such as `"12"` is found as the int 12 is. -/
theorem C110_ints (i : Int) : ∃ neg q, Numeral (toString i).toList neg q ∧ signed neg q = i := by
  rw [← intStr_eq]
  have key : ∀ n : Nat, MantissaText (Nat.toDigits 10 n) (n : ℚ) := by
    intro n
    have := MantissaText.whole (Nat.toDigits 10 n) (fun c hc => ?_) (digits_ne n)
    · rwa [decimal_digits] at this
    · have h := Nat.isDigit_of_mem_toDigits (b := 10) (by omega) (by omega) hc
      rw [Char.isDigit, Bool.and_eq_true] at h
      exact ⟨of_decide_eq_true h.1, of_decide_eq_true h.2⟩
  cases i with
  | ofNat n =>
    refine ⟨false, n, ⟨[], [], Nat.toDigits 10 n, [], [], n, 0, ?_, fun c hc => (nomatch hc), fun c hc => (nomatch hc), .missing, key n, .missing, by simp⟩, by simp [signed]⟩
    simp [intStr]
  | negSucc n =>
    refine ⟨true, (n + 1 : Nat), ⟨[], ['-'], Nat.toDigits 10 (n + 1), [], [], _, 0, ?_, fun c hc => (nomatch hc), fun c hc => (nomatch hc), .minus, key (n + 1), .missing,
      by simp⟩, ?_⟩
    · simp [intStr]
    · simp [signed, Int.negSucc_eq]

/-- **C110**: booleans are not indexed as numbers. -/
theorem C110_bools (E : ParseEnv) (hE : E.ReadsNumbers) (o : ParsingOptions) (b : Bool) : numberOf E o (.bool b) = none := by
  cases b with
  | true =>
    show (E.toNumber "True".toList).bind PyFloat.number? = _
    rw [(hE "True".toList (by unfold Printable; decide)).1 (by rfl)]
    rfl
  | false =>
    show (E.toNumber "False".toList).bind PyFloat.number? = _
    rw [(hE "False".toList (by unfold Printable; decide)).1 (by rfl)]
    rfl

/-- Digits that are followed by a minus write no number. -/
theorem not_numeral {w r : PyStr} (hw : AllDigits w) (hne : w ≠ []) (neg : Bool) (q : ℚ) : ¬ Numeral (w ++ '-' :: r) neg q := by
  rintro ⟨before, sign, mantissa, exponent, after, m, e, h, hb, ha, hs, hm, he, -⟩
  have h1 : readMantissa (w ++ '-' :: r) = some ((decimal w : ℚ), '-' :: r) := readMantissa_of (.whole w hw hne) (fun c s h => by cases h; decide)
  cases w with
  | nil => exact hne rfl
  | cons c w =>
    have hc := hw c List.mem_cons_self
    have hb' : before = [] := by
      cases before with
      | nil => rfl
      | cons x before =>
        have hx : c = x := (List.cons.inj h).1
        subst hx
        have := isBlank_iff.2 (hb c List.mem_cons_self)
        rw [dig_not_blank hc] at this
        cases this
    subst hb'
    have hs' : sign = [] := by
      cases hs with
      | missing => rfl
      | plus => rw [(List.cons.inj h).1] at hc; exact absurd hc (by decide)
      | minus => rw [(List.cons.inj h).1] at hc; exact absurd hc (by decide)
    subst hs'
    rw [List.nil_append, List.nil_append] at h
    have h2 : readMantissa (mantissa ++ (exponent ++ after)) = some (m, exponent ++ after) := by
      refine readMantissa_of hm (fun x s hx => ?_)
      cases he with
      | missing =>
        have hx' : after = x :: s := hx
        have := isBlank_iff.2 (ha x (by rw [hx']; exact List.mem_cons_self))
        refine ⟨?_, ?_⟩
        · cases hd : isDig x with
          | false => rfl
          | true =>
            rw [dig_not_blank (isDig_iff'.1 hd)] at this
            cases this
        · rintro rfl
          revert this
          decide
      | given e' _ _ _ he' =>
        cases hx
        rcases he' with rfl | rfl <;> decide
    rw [← h, h1] at h2
    have h3 : '-' :: r = exponent ++ after := by
      have := (Option.some.inj h2)
      exact congrArg Prod.snd this
    cases he with
    | missing =>
      have h3 : '-' :: r = after := h3
      have := isBlank_iff.2 (ha '-' (by rw [← h3]; exact List.mem_cons_self))
      revert this
      decide
    | given e' _ _ _ he' =>
      cases h3
      rcases he' with he' | he' <;> revert he' <;> decide

/-- **C110**: a text of a default date format does not write a number, so none is indexed as both. -/
theorem C110_dates (f s : PyStr) (hf : f ∈ startOptions.dateFormats) (t : DateTime) (hm : Means f s t) : ∀ neg q, ¬ Numeral s neg q := by
  intro neg q
  obtain ⟨ds, h1, h2, _⟩ := hm
  have hds : ∃ rest, ds = .Y :: .lit '-' :: rest := by
    simp only [startOptions, List.mem_cons, List.not_mem_nil, or_false] at hf
    rcases hf with rfl | rfl | rfl
    · exact ⟨_, (Option.some.inj (h1.symm.trans (show formatDirs _ = some (dateDirs ++ (timeDirs ++ [.z])) by decide))).trans rfl⟩
    · exact ⟨_, (Option.some.inj (h1.symm.trans (show formatDirs _ = some dateDirs by decide))).trans rfl⟩
    · exact ⟨_, (Option.some.inj (h1.symm.trans (show formatDirs _ = some (dateDirs ++ timeDirs) by decide))).trans rfl⟩
  obtain ⟨rest, rfl⟩ := hds
  cases h2 with
  | cons p1 h2 =>
    cases h2 with
    | cons p2 h2 =>
      cases p1 with
      | Y w _ hw hl =>
        cases p2 with
        | lit _ x _ hx =>
          have : x = '-' := lower_small (by decide) hx.symm
          subst this
          exact not_numeral hw (by rintro rfl; cases hl) neg q

/-- Texts that write numbers, and some that do not. -/
example : ["12", " -1.50\n", "+.5", "5.", "1e3", "2.5E-1", "-0", "", ".", "e5", "1e", "1_000", "1,5", "0x1F", "inf", "nan", "1 2", "--1", "2021-02-03", "1.2.3"].map
    (fun s => (textNumber s.toList).map (fun x => signed x.1 x.2)) =
    [some 12, some (-3 / 2), some (1 / 2), some 5, some 1000, some (1 / 4), some 0, none, none, none, none, none, none, none, none, none, none, none, none, none] := by
  decide +kernel

/-- A reader of numbers as `try_float`. -/
def exNumbers : ParseEnv := { exEnv with toNumber := fun s => (textNumber s).map floatOf }

theorem exNumbers_reads : exNumbers.ReadsNumbers := fun s _ => ⟨fun h => by simp [exNumbers, h], fun neg q h _ => by simp [exNumbers, h]⟩

/-- The hypotheses are met: the text `" 0.1 "` is indexed as the double 0.1, and found by it. -/
example : Numeral " 0.1 ".toList false (1 / 10) ∧ InDoubles (1 / 10) ∧ Printable " 0.1 ".toList ∧ (Num.float (1 / 10)).rat = signed false (1 / 10) := by
  refine ⟨textNumber_iff.1 (by decide +kernel), .inr ⟨?_, ?_⟩, by unfold Printable; decide, rfl⟩
  · exact Nat.cast_one (R := ℚ) ▸ (by decide +kernel)
  · decide +kernel

end Splitgill.Props
