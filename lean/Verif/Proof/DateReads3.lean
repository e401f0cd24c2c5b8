import Verif.Proof.DateReads2
/-!
# Lemmas: no text has two of the default formats
-/

namespace Splitgill

/-- The directives that write a number. -/
def Dir.isNumber : Dir → Bool
  | .lit _ => false
  | .z => false
  | _ => true

/-- The signs that the texts of time zones start with. -/
def isSign (c : Char) : Bool := c == '+' || c == '-' || c == 'Z'

theorem Piece.number_chars {d : Dir} {w : PyStr} {t t' : DateTime} (h : Piece d w t t') (hd : d.isNumber = true) : ∀ c ∈ w, isDig c = true ∨ c = ' ' := by
  have key : AllDigits w → ∀ c ∈ w, isDig c = true ∨ c = ' ' := fun h c hc => .inl (isDig_iff.2 (h c hc))
  cases h with
  | lit => cases hd
  | Y _ _ h1 => exact key h1
  | m _ _ _ h1 => exact key h1.1
  | d _ _ _ h1 => exact key h1.1
  | dSpace c _ h1 =>
    intro x hx
    rw [List.mem_cons, List.mem_singleton] at hx
    rcases hx with rfl | rfl
    · exact .inr rfl
    · exact .inl (isDig_iff.2 (allDigits_one.1 h1))
  | H _ _ _ h1 => exact key h1.1
  | M _ _ _ h1 => exact key h1.1
  | S _ _ _ h1 => exact key h1.1
  | f _ _ _ h1 => exact key h1.1
  | ahead => cases hd
  | behind => cases hd
  | zulu => cases hd

theorem Piece.number_count {d : Dir} {w : PyStr} {t t' : DateTime} (h : Piece d w t t') (hd : d.isNumber = true) :
    w.countP isSign = 0 ∧ w.countP (· == ':') = 0 := by
  refine ⟨List.countP_eq_zero.2 (fun c hc => ?_), List.countP_eq_zero.2 (fun c hc => ?_)⟩ <;>
    rcases h.number_chars hd c hc with h | rfl
  · intro e
    unfold isSign at e
    simp only [Bool.or_eq_true, beq_iff_eq] at e
    rcases e with (rfl | rfl) | rfl <;> revert h <;> decide
  · decide
  · intro e
    rw [beq_iff_eq] at e
    subst e
    revert h; decide
  · decide

theorem Piece.lit_char {c : Char} {w : PyStr} {t t' : DateTime} (h : Piece (.lit c) w t t') : ∃ x, w = [x] ∧ x.toLower = c.toLower := by
  cases h with
  | lit _ x _ hx => exact ⟨x, rfl, hx⟩

theorem Piece.lit_same {c : Char} (hc : c.toNat < 65) {w : PyStr} {t t' : DateTime} (h : Piece (.lit c) w t t') : w = [c] := by
  obtain ⟨x, rfl, hx⟩ := h.lit_char
  rw [lower_small hc hx.symm]

theorem Piece.lit_T {w : PyStr} {t t' : DateTime} (h : Piece (.lit 'T') w t t') : w.countP isSign = 0 ∧ w.countP (· == ':') = 0 := by
  obtain ⟨x, rfl, hx⟩ := h.lit_char
  have h1 : isSign x = false := by
    cases e : isSign x with
    | false => rfl
    | true =>
      unfold isSign at e
      simp only [Bool.or_eq_true, beq_iff_eq] at e
      rcases e with (rfl | rfl) | rfl <;> revert hx <;> decide
  have h2 : (x == ':') = false := by
    cases e : x == ':' with
    | false => rfl
    | true => rw [beq_iff_eq] at e; subst e; revert hx; decide
  constructor
  · rw [List.countP_cons, h1]; rfl
  · rw [List.countP_cons, h2]; rfl

/-- How many of some characters the texts of a format have. -/
theorem Writes.count {p : Char → Bool} {f : Dir → Nat} {ds : List Dir} {s : PyStr} {t t' : DateTime} (h : Writes ds s t t')
    (hf : ∀ d ∈ ds, ∀ w t t', Piece d w t t' → w.countP p = f d) : s.countP p = (ds.map f).sum := by
  induction h with
  | nil => rfl
  | cons hp _ ih =>
    rw [List.countP_append, hf _ List.mem_cons_self _ _ _ hp, ih (fun d hd => hf d (List.mem_cons_of_mem _ hd)), List.map_cons, List.sum_cons]

theorem Writes.split : ∀ (ds ds' : List Dir) {s : PyStr} {t t'' : DateTime}, Writes (ds ++ ds') s t t'' →
    ∃ s1 s2 t', s = s1 ++ s2 ∧ Writes ds s1 t t' ∧ Writes ds' s2 t' t''
  | [], _, s, t, _, h => ⟨[], s, t, rfl, .nil t, h⟩
  | d :: ds, ds', _, _, _, h => by
    cases h with
    | @cons _ _ w s _ _ _ hp hw =>
      obtain ⟨s1, s2, t', rfl, h1, h2⟩ := Writes.split ds ds' hw
      exact ⟨w ++ s1, s2, t', (List.append_assoc _ _ _).symm, .cons hp h1, h2⟩

/-- The number of signs in the texts of a directive of the formats without time zone. -/
def signsOf : Dir → Nat
  | .lit '-' => 1
  | _ => 0

/-- The number of colons in the texts of such a directive. -/
def colonsOf : Dir → Nat
  | .lit ':' => 1
  | _ => 0

theorem piece_counts {d : Dir} (hd : d ∈ dateDirs ++ timeDirs) {w : PyStr} {t t' : DateTime} (h : Piece d w t t') :
    w.countP isSign = signsOf d ∧ w.countP (· == ':') = colonsOf d := by
  simp only [dateDirs, timeDirs, List.cons_append, List.nil_append, List.mem_cons, List.not_mem_nil, or_false] at hd
  rcases hd with rfl | rfl | rfl | rfl | rfl | rfl | rfl | rfl | rfl | rfl | rfl | rfl | rfl
  · exact h.number_count rfl
  · rw [h.lit_same (by decide)]; decide
  · exact h.number_count rfl
  · rw [h.lit_same (by decide)]; decide
  · exact h.number_count rfl
  · exact h.lit_T
  · exact h.number_count rfl
  · rw [h.lit_same (by decide)]; decide
  · exact h.number_count rfl
  · rw [h.lit_same (by decide)]; decide
  · exact h.number_count rfl
  · rw [h.lit_same (by decide)]; decide
  · exact h.number_count rfl

theorem date_counts {s : PyStr} {t t' : DateTime} (h : Writes dateDirs s t t') : s.countP (· == ':') = 0 :=
  h.count (f := colonsOf) (fun _ hd _ _ _ hp => (piece_counts (List.mem_append_left _ hd) hp).2)

theorem naive_counts {s : PyStr} {t t' : DateTime} (h : Writes (dateDirs ++ timeDirs) s t t') : s.countP (· == ':') = 2 ∧ s.countP isSign = 2 :=
  ⟨h.count (f := colonsOf) (fun _ hd _ _ _ hp => (piece_counts hd hp).2), h.count (f := signsOf) (fun _ hd _ _ _ hp => (piece_counts hd hp).1)⟩

theorem aware_counts {s : PyStr} {t t' : DateTime} (h : Writes (dateDirs ++ (timeDirs ++ [.z])) s t t') :
    2 ≤ s.countP (· == ':') ∧ 3 ≤ s.countP isSign := by
  rw [← List.append_assoc] at h
  obtain ⟨s1, s2, u, rfl, h1, h2⟩ := Writes.split _ _ h
  obtain ⟨g1, g2⟩ := naive_counts h1
  rw [List.countP_append, List.countP_append, g1, g2]
  refine ⟨by omega, ?_⟩
  have : 1 ≤ s2.countP isSign := by
    cases h2 with
    | cons hp _ =>
      cases hp with
      | ahead => rw [List.cons_append, List.countP_cons_of_pos (by decide)]; omega
      | behind => rw [List.cons_append, List.countP_cons_of_pos (by decide)]; omega
      | zulu => rw [List.cons_append, List.countP_cons_of_pos (by decide)]; omega
  omega

theorem separated_default : SeparatedDirs dateDirs = true ∧ SeparatedDirs (dateDirs ++ timeDirs) = true ∧
    SeparatedDirs (dateDirs ++ (timeDirs ++ [.z])) = true := by decide

/-- Texts of a separated format mean one moment. -/
theorem Writes.unique {ds : List Dir} (hs : SeparatedDirs ds = true) {s : PyStr} {t t1 t2 : DateTime} (h1 : Writes ds s t t1) (h2 : Writes ds s t t2) :
    t1 = t2 := by
  have e := (matchDirs_complete ds s hs h1).symm.trans (matchDirs_complete ds s hs h2)
  simpa using e

/-- No text has two of the default formats. -/
theorem default_unique {s : PyStr} {f g : PyStr} {df dg : List Dir} {t t1 t2 : DateTime} (hf : f ∈ startOptions.dateFormats)
    (hg : g ∈ startOptions.dateFormats) (ef : parseFormat f = some df) (eg : parseFormat g = some dg) (h1 : Writes df s t t1)
    (h2 : Writes dg s t t2) : df = dg ∧ t1 = t2 := by
  simp only [startOptions, List.mem_cons, List.not_mem_nil, or_false] at hf hg
  have s1 := separated_default
  rcases hf with rfl | rfl | rfl <;> rcases hg with rfl | rfl | rfl
  · rw [format_aware] at ef eg; cases ef; cases eg; exact ⟨rfl, h1.unique s1.2.2 h2⟩
  · rw [format_aware] at ef; rw [format_date] at eg; cases ef; cases eg
    have := aware_counts h1; have := date_counts h2; omega
  · rw [format_aware] at ef; rw [format_naive] at eg; cases ef; cases eg
    have := aware_counts h1; have := naive_counts h2; omega
  · rw [format_date] at ef; rw [format_aware] at eg; cases ef; cases eg
    have := aware_counts h2; have := date_counts h1; omega
  · rw [format_date] at ef eg; cases ef; cases eg; exact ⟨rfl, h1.unique s1.1 h2⟩
  · rw [format_date] at ef; rw [format_naive] at eg; cases ef; cases eg
    have := naive_counts h2; have := date_counts h1; omega
  · rw [format_naive] at ef; rw [format_aware] at eg; cases ef; cases eg
    have := aware_counts h2; have := naive_counts h1; omega
  · rw [format_naive] at ef; rw [format_date] at eg; cases ef; cases eg
    have := naive_counts h1; have := date_counts h2; omega
  · rw [format_naive] at ef eg; cases ef; cases eg; exact ⟨rfl, h1.unique s1.2.1 h2⟩

end Splitgill
