import Verif.Proof.DateReads
import Verif.Proof.Json
import Verif.Spec.NumberText
/-! # Lemmas: reading numbers -/

namespace Splitgill

theorem isBlank_iff {c : Char} : isBlank c = true ↔ c = ' ' ∨ ('\t'.toNat ≤ c.toNat ∧ c.toNat ≤ '\r'.toNat) := by
  simp [isBlank, inRange]

theorem isDig_iff' {c : Char} : isDig c = true ↔ '0'.toNat ≤ c.toNat ∧ c.toNat ≤ '9'.toNat := by
  simp [isDig, inRange]

theorem allDigits_iff {w : PyStr} : AllDigits w ↔ w.all isDig = true := by
  rw [List.all_eq_true]
  exact forall_congr' (fun c => imp_congr_right (fun _ => isDig_iff'.symm))

theorem digitsNumber_eq (w : PyStr) : digitsNumber w = decimal w := rfl

theorem takeWhile_of {p : Char → Bool} : ∀ {w r : PyStr}, (∀ c ∈ w, p c = true) → (∀ c s, r = c :: s → p c = false) →
    (w ++ r).takeWhile p = w ∧ (w ++ r).dropWhile p = r
  | [], [], _, _ => ⟨rfl, rfl⟩
  | [], c :: r, _, h => by
    have := h c r rfl
    simp [List.takeWhile_cons, List.dropWhile_cons, this]
  | c :: w, r, hw, h => by
    have h1 := hw c List.mem_cons_self
    obtain ⟨h2, h3⟩ := takeWhile_of (w := w) (r := r) (fun c hc => hw c (List.mem_cons_of_mem _ hc)) h
    rw [List.cons_append, List.takeWhile_cons, List.dropWhile_cons, h1]
    simp [h2, h3]

theorem dropWhile_start {p : Char → Bool} : ∀ (l : PyStr) {c : Char} {s : PyStr}, l.dropWhile p = c :: s → p c = false
  | [], _, _, h => by cases h
  | a :: l, c, s, h => by
    rw [List.dropWhile_cons] at h
    split at h
    · exact dropWhile_start l h
    · cases h
      simpa using ‹¬ p _ = true›

theorem takeWhile_all {p : Char → Bool} : ∀ (l : PyStr), ∀ c ∈ l.takeWhile p, p c = true
  | [], _, h => by cases h
  | a :: l, c, h => by
    rw [List.takeWhile_cons] at h
    split at h
    · rcases List.mem_cons.1 h with rfl | h
      · assumption
      · exact takeWhile_all l c h
    · cases h

/-- What is left without blanks at the start and at the end. -/
theorem strip_eq {a s b : PyStr} (ha : AllBlanks a) (hb : AllBlanks b) (h1 : ∀ c r, s = c :: r → isBlank c = false)
    (h2 : ∀ c r, s = r ++ [c] → isBlank c = false) (hne : s ≠ []) : stripBlanks (a ++ (s ++ b)) = s := by
  have e1 : (a ++ (s ++ b)).dropWhile isBlank = s ++ b := by
    refine (takeWhile_of (fun c hc => isBlank_iff.2 (ha c hc)) ?_).2
    intro c r h
    cases s with
    | nil => exact absurd rfl hne
    | cons x s => cases h; exact h1 _ _ rfl
  rw [stripBlanks, e1, List.reverse_append]
  have e2 : (b.reverse ++ s.reverse).dropWhile isBlank = s.reverse := by
    refine (takeWhile_of (fun c hc => isBlank_iff.2 (hb c (List.mem_reverse.1 hc))) ?_).2
    intro c r h
    refine h2 c r.reverse ?_
    rw [← List.reverse_reverse s, h]
    simp
  rw [e2, List.reverse_reverse]

theorem strip_split (s : PyStr) : ∃ a b, s = a ++ (stripBlanks s ++ b) ∧ AllBlanks a ∧ AllBlanks b := by
  refine ⟨s.takeWhile isBlank, ((s.dropWhile isBlank).reverse.takeWhile isBlank).reverse, ?_, fun c hc => isBlank_iff.1 (takeWhile_all _ _ hc),
    fun c hc => isBlank_iff.1 (takeWhile_all _ _ (List.mem_reverse.1 hc))⟩
  have : stripBlanks s ++ ((s.dropWhile isBlank).reverse.takeWhile isBlank).reverse = s.dropWhile isBlank := by
    rw [stripBlanks, ← List.reverse_append, List.takeWhile_append_dropWhile, List.reverse_reverse]
  rw [this, List.takeWhile_append_dropWhile]

theorem onlyDigits_iff {s : PyStr} {n : Nat} : onlyDigits s = some n ↔ AllDigits s ∧ s ≠ [] ∧ decimal s = n := by
  rw [onlyDigits, allDigits_iff]
  cases s with
  | nil => simp
  | cons c s =>
    cases h : (c :: s).all isDig with
    | true => simp [h, digitsNumber_eq]
    | false => simp [h]

theorem digit_ne {c x : Char} (h : '0'.toNat ≤ c.toNat ∧ c.toNat ≤ '9'.toNat) (hx : x.toNat < '0'.toNat ∨ '9'.toNat < x.toNat) : c ≠ x := by
  rintro rfl
  omega

theorem signedDigits_iff {s : PyStr} {e : Int} : signedDigits s = some e ↔
    ∃ sign digits neg, s = sign ++ digits ∧ SignText sign neg ∧ AllDigits digits ∧ digits ≠ [] ∧ e = if neg then -(decimal digits : Int) else decimal digits := by
  constructor
  · intro h
    unfold signedDigits at h
    split at h
    · obtain ⟨n, h1, rfl⟩ := Option.map_eq_some_iff.1 h
      obtain ⟨g1, g2, rfl⟩ := onlyDigits_iff.1 h1
      exact ⟨['-'], _, true, rfl, .minus, g1, g2, rfl⟩
    · obtain ⟨n, h1, rfl⟩ := Option.map_eq_some_iff.1 h
      obtain ⟨g1, g2, rfl⟩ := onlyDigits_iff.1 h1
      exact ⟨['+'], _, false, rfl, .plus, g1, g2, rfl⟩
    · obtain ⟨n, h1, rfl⟩ := Option.map_eq_some_iff.1 h
      obtain ⟨g1, g2, rfl⟩ := onlyDigits_iff.1 h1
      exact ⟨[], _, false, rfl, .missing, g1, g2, rfl⟩
  · rintro ⟨sign, digits, neg, rfl, hs, hd, hne, rfl⟩
    have hr : onlyDigits digits = some (decimal digits) := onlyDigits_iff.2 ⟨hd, hne, rfl⟩
    cases hs with
    | missing =>
      cases digits with
      | nil => exact absurd rfl hne
      | cons x ds =>
        have hx := hd x List.mem_cons_self
        unfold signedDigits
        split
        · rename_i heq
          cases heq
          exact absurd rfl (digit_ne hx (x := '-') (by decide))
        · rename_i heq
          cases heq
          exact absurd rfl (digit_ne hx (x := '+') (by decide))
        · rw [List.nil_append, hr]; rfl
    | plus =>
      show (onlyDigits digits).map _ = _
      rw [hr]; rfl
    | minus =>
      show (onlyDigits digits).map _ = _
      rw [hr]; rfl

theorem textExponent_iff {s : PyStr} {e : Int} : textExponent s = some e ↔ ExponentText s e := by
  constructor
  · intro h
    cases s with
    | nil => cases h; exact .missing
    | cons c r =>
      rw [textExponent] at h
      split at h
      · rename_i hc
        obtain ⟨sign, digits, neg, rfl, h1, h2, h3, rfl⟩ := signedDigits_iff.1 h
        exact .given c sign digits neg (by simpa using hc) h1 h2 h3
      · cases h
  · intro h
    cases h with
    | missing => rfl
    | given c sign digits neg hc hs hd hne =>
      have hc : (decide (c = 'e') || decide (c = 'E')) = true := by simpa using hc
      rw [textExponent, if_pos hc]
      exact signedDigits_iff.2 ⟨sign, digits, neg, rfl, hs, hd, hne, rfl⟩

/-- What is read as digits, with a point or not, at the start. -/
theorem readMantissa_some {s r : PyStr} {q : ℚ} (h : readMantissa s = some (q, r)) :
    ∃ w, s = w ++ r ∧ MantissaText w q := by
  have hs := List.takeWhile_append_dropWhile (p := isDig) (l := s)
  have hd : AllDigits (s.takeWhile isDig) := fun c hc => isDig_iff'.1 (takeWhile_all _ _ hc)
  unfold readMantissa at h
  dsimp only at h
  split at h
  · rename_i r' hr'
    split at h
    · cases h
    · rename_i hne
      cases h
      refine ⟨s.takeWhile isDig ++ '.' :: r'.takeWhile isDig, ?_, ?_⟩
      · rw [List.append_assoc, List.cons_append, List.takeWhile_append_dropWhile, ← hr', hs]
      · refine .point _ _ hd (fun c hc => isDig_iff'.1 (takeWhile_all _ _ hc)) ?_
        intro e
        rw [List.append_eq_nil_iff] at e
        exact hne (by rw [e.1, e.2]; rfl)
  · split at h
    · cases h
    · rename_i hne
      cases h
      refine ⟨s.takeWhile isDig, hs.symm, .whole _ hd ?_⟩
      intro e
      exact hne (by rw [e]; rfl)

theorem readMantissa_of {w r : PyStr} {q : ℚ} (h : MantissaText w q) (hr : ∀ c s, r = c :: s → isDig c = false ∧ c ≠ '.') :
    readMantissa (w ++ r) = some (q, r) := by
  cases h with
  | whole w hd hne =>
    obtain ⟨e1, e2⟩ := takeWhile_of (r := r) (fun c hc => isDig_iff'.2 (hd c hc)) (fun c s h => (hr c s h).1)
    unfold readMantissa
    rw [e1, e2]
    dsimp only
    have hne' : w.isEmpty = false := by cases w <;> first | rfl | exact absurd rfl hne
    split
    · exact absurd rfl (hr _ _ rfl).2
    · rw [hne']; rfl
  | point w p hw hp hne =>
    obtain ⟨e1, e2⟩ := takeWhile_of (r := '.' :: (p ++ r)) (fun c hc => isDig_iff'.2 (hw c hc)) (fun c s h => by cases h; decide)
    obtain ⟨e3, e4⟩ := takeWhile_of (r := r) (fun c hc => isDig_iff'.2 (hp c hc)) (fun c s h => (hr c s h).1)
    unfold readMantissa
    rw [List.append_assoc, List.cons_append, e1, e2]
    show (if (w.isEmpty && ((p ++ r).takeWhile isDig).isEmpty) = true then none
      else some ((digitsNumber (w ++ (p ++ r).takeWhile isDig) : ℚ) / 10 ^ ((p ++ r).takeWhile isDig).length, (p ++ r).dropWhile isDig)) = _
    rw [show (p ++ r).takeWhile isDig = p from e3, show (p ++ r).dropWhile isDig = r from e4]
    have hne' : (w.isEmpty && p.isEmpty) = false := by
      cases w with
      | nil =>
        cases p with
        | nil => exact absurd rfl hne
        | cons => rfl
      | cons => rfl
    rw [hne']
    rfl

theorem readUnsigned_iff {s : PyStr} {q : ℚ} : readUnsigned s = some q ↔
    ∃ (m : PyStr) (e : PyStr) (x : ℚ) (k : Int), s = m ++ e ∧ MantissaText m x ∧ ExponentText e k ∧ q = x * 10 ^ k := by
  constructor
  · intro h
    obtain ⟨⟨x, r⟩, h1, h2⟩ := Option.bind_eq_some_iff.1 h
    obtain ⟨k, h3, rfl⟩ := Option.map_eq_some_iff.1 h2
    obtain ⟨w, rfl, h4⟩ := readMantissa_some h1
    exact ⟨w, r, x, k, rfl, h4, textExponent_iff.1 h3, rfl⟩
  · rintro ⟨m, e, x, k, rfl, h1, h2, rfl⟩
    have hr : ∀ c s, e = c :: s → isDig c = false ∧ c ≠ '.' := by
      intro c s h
      cases h2 with
      | missing => cases h
      | given c' sign digits neg hc =>
        cases h
        rcases hc with rfl | rfl <;> decide
    rw [readUnsigned, readMantissa_of h1 hr]
    show (textExponent e).map _ = _
    rw [textExponent_iff.2 h2]
    rfl

/-- The start of a mantissa is a digit or a point. -/
theorem MantissaText.head {w : PyStr} {q : ℚ} (h : MantissaText w q) : ∃ c r, w = c :: r ∧ (isDig c = true ∨ c = '.') := by
  cases h with
  | whole w hd hne =>
    cases w with
    | nil => exact absurd rfl hne
    | cons c w => exact ⟨c, w, rfl, .inl (isDig_iff'.2 (hd c List.mem_cons_self))⟩
  | point w p hw hp hne =>
    cases w with
    | nil => exact ⟨'.', p, rfl, .inr rfl⟩
    | cons c w => exact ⟨c, w ++ '.' :: p, rfl, .inl (isDig_iff'.2 (hw c List.mem_cons_self))⟩

theorem textSigned_iff {s : PyStr} {neg : Bool} {q : ℚ} : textSigned s = some (neg, q) ↔
    ∃ (g : PyStr) (u : PyStr), s = g ++ u ∧ SignText g neg ∧ readUnsigned u = some q := by
  constructor
  · intro h
    unfold textSigned at h
    split at h
    · obtain ⟨x, h1, h2⟩ := Option.map_eq_some_iff.1 h
      cases h2
      exact ⟨['-'], _, rfl, .minus, h1⟩
    · obtain ⟨x, h1, h2⟩ := Option.map_eq_some_iff.1 h
      cases h2
      exact ⟨['+'], _, rfl, .plus, h1⟩
    · obtain ⟨x, h1, h2⟩ := Option.map_eq_some_iff.1 h
      cases h2
      exact ⟨[], _, rfl, .missing, h1⟩
  · rintro ⟨g, u, rfl, h1, h2⟩
    cases h1 with
    | minus => show (readUnsigned u).map _ = _; rw [h2]; rfl
    | plus => show (readUnsigned u).map _ = _; rw [h2]; rfl
    | missing =>
      obtain ⟨m, e, x, k, rfl, h3, _⟩ := readUnsigned_iff.1 h2
      obtain ⟨c, r, rfl, hc⟩ := h3.head
      unfold textSigned
      split
      · rename_i heq; cases heq; exact absurd hc (by decide)
      · rename_i heq; cases heq; exact absurd hc (by decide)
      · rw [List.nil_append, h2]; rfl

theorem dig_not_blank {c : Char} (h : '0'.toNat ≤ c.toNat ∧ c.toNat ≤ '9'.toNat) : isBlank c = false := by
  rw [Bool.eq_false_iff]
  intro hb
  rcases isBlank_iff.1 hb with rfl | h'
  · revert h; decide
  · have e1 : '0'.toNat = 48 := rfl
    have e2 : '\r'.toNat = 13 := rfl
    omega

/-- The end of a mantissa is a digit or a point. -/
theorem MantissaText.last {w : PyStr} {q : ℚ} (h : MantissaText w q) {c : Char} {r : PyStr} (hr : w = r ++ [c]) : isBlank c = false := by
  cases h with
  | whole w hd hne => exact dig_not_blank (hd c (by rw [hr]; simp))
  | point w p hw hp hne =>
    rcases List.eq_nil_or_concat p with rfl | ⟨p', x, rfl⟩
    · have := (List.append_inj_right' (show w ++ ['.'] = r ++ [c] from hr) rfl)
      cases this
      decide
    · have : (w ++ '.' :: p') ++ [x] = r ++ [c] := by simpa using hr
      have := List.append_inj_right' this rfl
      cases this
      exact dig_not_blank (hp _ (by simp))

theorem ExponentText.last {w : PyStr} {k : Int} (h : ExponentText w k) {c : Char} {r : PyStr} (hr : w = r ++ [c]) : isBlank c = false := by
  cases h with
  | missing => simp at hr
  | given e sign digits neg he hs hd hne =>
    rcases List.eq_nil_or_concat digits with rfl | ⟨p', x, rfl⟩
    · exact absurd rfl hne
    · have : (e :: (sign ++ p')) ++ [x] = r ++ [c] := by simpa using hr
      have := List.append_inj_right' this rfl
      cases this
      exact dig_not_blank (hd _ (by simp))

/-- A text is read as a number if and only if it is one of this number. -/
theorem textNumber_iff {s : PyStr} {neg : Bool} {q : ℚ} : textNumber s = some (neg, q) ↔ Numeral s neg q := by
  constructor
  · intro h
    obtain ⟨a, b, h1, h2, h3⟩ := strip_split s
    obtain ⟨g, u, h4, h5, h6⟩ := textSigned_iff.1 h
    obtain ⟨m, e, x, k, h7, h8, h9, h10⟩ := readUnsigned_iff.1 h6
    refine ⟨a, g, m, e, b, x, k, ?_, h2, h3, h5, h8, h9, h10⟩
    rw [h1, h4, h7]
    simp
  · rintro ⟨a, g, m, e, b, x, k, rfl, h2, h3, h5, h8, h9, rfl⟩
    have hst : stripBlanks (a ++ (g ++ (m ++ (e ++ b)))) = g ++ (m ++ e) := by
      have : a ++ (g ++ (m ++ (e ++ b))) = a ++ ((g ++ (m ++ e)) ++ b) := by simp
      rw [this]
      obtain ⟨c, r, hm, hc⟩ := h8.head
      refine strip_eq h2 h3 ?_ ?_ ?_
      · intro c' r' h
        cases h5 with
        | missing =>
          rw [hm] at h
          cases h
          rcases hc with hc | rfl
          · exact dig_not_blank (isDig_iff'.1 hc)
          · decide
        | plus => cases h; decide
        | minus => cases h; decide
      · intro c' r' h
        rcases List.eq_nil_or_concat e with rfl | ⟨e', y, rfl⟩
        · rcases List.eq_nil_or_concat m with rfl | ⟨m', y, rfl⟩
          · cases hm
          · have : (g ++ m') ++ [y] = r' ++ [c'] := by simpa using h
            have := List.append_inj_right' this rfl
            cases this
            exact h8.last (r := m') (by simp)
        · have : (g ++ (m ++ e')) ++ [y] = r' ++ [c'] := by simpa using h
          have := List.append_inj_right' this rfl
          cases this
          exact h9.last (r := e') (by simp)
      · rw [hm]
        simp
    rw [textNumber, hst]
    exact textSigned_iff.2 ⟨g, m ++ e, rfl, h5, readUnsigned_iff.2 ⟨m, e, x, k, rfl, h8, h9, rfl⟩⟩

end Splitgill
