import Verif.Spec.Names
import Verif.Proof.Search
import Mathlib.Data.List.Infix
/-!
# Lemmas about the names of indices
-/

namespace Splitgill

/-! ## Patterns -/

theorem glob_star (p s : PyStr) : glob ('*' :: p) s = true ↔ ∃ a b, s = a ++ b ∧ glob p b = true := by
  simp only [glob, if_true, List.any_eq_true, List.mem_tails]
  constructor
  · rintro ⟨b, ⟨a, rfl⟩, h⟩; exact ⟨a, b, rfl, h⟩
  · rintro ⟨a, b, rfl, h⟩; exact ⟨b, ⟨a, rfl⟩, h⟩

theorem glob_nil (s : PyStr) : glob [] s = true ↔ s = [] := by
  simp [glob, List.isEmpty_iff]

theorem glob_lit : ∀ {p : PyStr}, '*' ∉ p → ∀ q s, glob (p ++ q) s = true ↔ ∃ t, s = p ++ t ∧ glob q t = true
  | [], _, q, s => by simp
  | c :: p, h, q, s => by
    have hc : c ≠ '*' := fun e => h (by rw [e]; exact List.mem_cons_self)
    have hp : '*' ∉ p := fun e => h (List.mem_cons_of_mem _ e)
    cases s with
    | nil => simp [glob, hc]
    | cons d s =>
      have ih := glob_lit hp q s
      simp only [List.cons_append, glob, hc, if_false, Bool.and_eq_true, decide_eq_true_eq, ih, List.cons.injEq]
      constructor
      · rintro ⟨rfl, t, rfl, hg⟩; exact ⟨t, ⟨rfl, rfl⟩, hg⟩
      · rintro ⟨t, ⟨rfl, rfl⟩, hg⟩; exact ⟨rfl, t, rfl, hg⟩

theorem glob_any (s : PyStr) : glob ['*'] s = true := (glob_star [] s).2 ⟨s, [], by simp, rfl⟩

/-! ## Names -/

theorem digits_dash (n : Nat) : '-' ∉ Nat.toDigits 10 n := by
  intro h
  have := Nat.isDigit_of_mem_toDigits (b := 10) (by omega) (by omega) h
  exact absurd this (by decide)

theorem digits_inj {n n' : Nat} (h : Nat.toDigits 10 n = Nat.toDigits 10 n') : n = n' := by
  have := congrArg (fun l => Nat.ofDigitChars 10 l 0) h
  simpa [Nat.ofDigitChars_ten_toDigits] using this

theorem digits_last (n : Nat) : ∃ l c, Nat.toDigits 10 n = l ++ [c] ∧ c.isDigit = true := by
  obtain ⟨l, c, h⟩ : ∃ l c, Nat.toDigits 10 n = l ++ [c] := by
    have := List.dropLast_append_getLast (Nat.toDigits_ne_nil (n := n) (b := 10))
    exact ⟨_, _, this.symm⟩
  exact ⟨l, c, h, Nat.isDigit_of_mem_toDigits (b := 10) (n := n) (by omega) (by omega) (by rw [h]; simp)⟩

/-- After the database. -/
def ixSuffix : Ix → PyStr
  | .latest => "latest".toList
  | .arc n => "arc".toList ++ '-' :: Nat.toDigits 10 n

theorem indexName_arc (db : PyStr) (n : Nat) : indexName db (.arc n) =
    "data-".toList ++ db ++ "-arc".toList ++ "-".toList ++ Nat.toDigits 10 n := by
  unfold indexName
  dsimp only

theorem ixSuffix_arc (n : Nat) : ixSuffix (.arc n) = "arc".toList ++ '-' :: Nat.toDigits 10 n := by
  unfold ixSuffix
  dsimp only

theorem indexName_eq (db : PyStr) (ix : Ix) : indexName db ix = "data-".toList ++ (db ++ '-' :: ixSuffix ix) := by
  cases ix with
  | latest => exact List.append_assoc _ _ _
  | arc n =>
    rw [indexName_arc, ixSuffix_arc]
    generalize Nat.toDigits 10 n = ds
    simp only [List.append_assoc]; rfl

/-- A text has one dash at most once after a part without dashes. -/
theorem dash_split : ∀ {u u' v v' : PyStr}, '-' ∉ u → '-' ∉ u' → u ++ '-' :: v = u' ++ '-' :: v' → u = u' ∧ v = v'
  | [], [], v, v', _, _, h => by simpa using h
  | [], c :: u', v, v', _, h', h => by
    simp only [List.nil_append, List.cons_append, List.cons.injEq] at h
    exact absurd (by rw [h.1]; exact List.mem_cons_self) h'
  | c :: u, [], v, v', h', _, h => by
    simp only [List.nil_append, List.cons_append, List.cons.injEq] at h
    exact absurd (by rw [← h.1]; exact List.mem_cons_self) h'
  | c :: u, c' :: u', v, v', hu, hu', h => by
    simp only [List.cons_append, List.cons.injEq] at h
    obtain ⟨rfl, h⟩ := h
    obtain ⟨h1, h2⟩ := dash_split (fun e => hu (List.mem_cons_of_mem _ e)) (fun e => hu' (List.mem_cons_of_mem _ e)) h
    exact ⟨by rw [h1], h2⟩

/-- Where a dash of the part after the database can be. -/
theorem suffix_dash {ix : Ix} {a t : PyStr} (h : ixSuffix ix = a ++ '-' :: t) :
    ∃ n, ix = .arc n ∧ a = "arc".toList ∧ t = Nat.toDigits 10 n := by
  cases ix with
  | latest =>
    have : '-' ∈ ixSuffix .latest := by rw [h]; simp
    exact absurd this (by decide)
  | arc n =>
    have ha : '-' ∉ a := by
      intro hm
      obtain ⟨x, y, rfl⟩ := List.append_of_mem hm
      -- two dashes
      have h1 : ("arc".toList ++ '-' :: Nat.toDigits 10 n).count '-' = 1 := by
        rw [List.count_append, List.count_cons_self, List.count_eq_zero.2 (digits_dash n)]; rfl
      have h2 : (x ++ '-' :: y ++ '-' :: t).count '-' = x.count '-' + (y.count '-' + 1) + (t.count '-' + 1) := by
        rw [List.count_append, List.count_append, List.count_cons_self, List.count_cons_self]
      have h3 := congrArg (List.count '-') h
      change ("arc".toList ++ '-' :: Nat.toDigits 10 n).count '-' = _ at h3
      omega
    obtain ⟨h1, h2⟩ := dash_split (u := "arc".toList) (by decide) ha h
    exact ⟨n, rfl, h1.symm, h2.symm⟩

/-- Which indices the wildcard of a database matches. -/
theorem wildcard_match {db : PyStr} (hdb : '*' ∉ db) (d : PyStr) (ix : Ix) :
    glob (wildcardName db) (indexName d ix) = true ↔
      d = db ∨ (db ++ "-".toList) <+: d ∨ (db = d ++ "-arc".toList ∧ ∃ n, ix = .arc n) := by
  have hlit : '*' ∉ "data-".toList ++ db ++ "-".toList := by
    simp only [List.mem_append, not_or]
    exact ⟨⟨by decide, hdb⟩, by decide⟩
  have e : wildcardName db = ("data-".toList ++ db ++ "-".toList) ++ ['*'] := by simp [wildcardName]
  rw [e, glob_lit hlit]
  simp only [glob_any, and_true, indexName_eq, List.append_assoc, List.append_cancel_left_eq]
  constructor
  · rintro ⟨t, h⟩
    rcases List.append_eq_append_iff.1 h with ⟨a, h1, h2⟩ | ⟨b, h1, h2⟩
    · -- db is longer
      cases a with
      | nil => exact .inl (by simpa using h1.symm)
      | cons x a =>
        simp only [List.cons_append, List.cons.injEq] at h2
        obtain ⟨rfl, h2⟩ := h2
        obtain ⟨n, h3, h4, _⟩ := suffix_dash (a := a) (t := t) (by simpa using h2)
        exact .inr (.inr ⟨by rw [h1, h4]; rfl, n, h3⟩)
    · cases b with
      | nil => exact .inl (by simpa using h1)
      | cons x b =>
        have h2' : '-' :: t = x :: (b ++ '-' :: ixSuffix ix) := by simpa using h2
        simp only [List.cons.injEq] at h2'
        obtain ⟨rfl, _⟩ := h2'
        exact .inr (.inl ⟨b, by rw [h1]; simp⟩)
  · rintro (rfl | ⟨t, rfl⟩ | ⟨rfl, n, rfl⟩)
    · exact ⟨ixSuffix ix, by simp⟩
    · exact ⟨t ++ '-' :: ixSuffix ix, by simp⟩
    · exact ⟨Nat.toDigits 10 n, by simp [ixSuffix]⟩

theorem arcWildcard_eq (db : PyStr) : arcWildcardName db = wildcardName (db ++ "-arc".toList) := by
  simp [arcWildcardName, wildcardName]

/-- Which indices the wildcard of the archives of a database matches. -/
theorem arcWildcard_match {db : PyStr} (hdb : '*' ∉ db) (d : PyStr) (ix : Ix) :
    glob (arcWildcardName db) (indexName d ix) = true ↔
      (d = db ∧ ∃ n, ix = .arc n) ∨ d = db ++ "-arc".toList ∨ (db ++ "-arc-".toList) <+: d := by
  rw [arcWildcard_eq, wildcard_match (by simp only [List.mem_append, not_or]; exact ⟨hdb, by decide⟩)]
  have e : db ++ "-arc".toList ++ "-".toList = db ++ "-arc-".toList := by rw [List.append_assoc]; rfl
  rw [e]
  constructor
  · rintro (h | h | ⟨h, n⟩)
    · exact .inr (.inl h)
    · exact .inr (.inr h)
    · exact .inl ⟨(List.append_cancel_right h).symm, n⟩
  · rintro (⟨rfl, n⟩ | h | h)
    · exact .inr (.inr ⟨rfl, n⟩)
    · exact .inl h
    · exact .inr (.inl h)

theorem indexName_inj {d d' : PyStr} {ix ix' : Ix} (h : indexName d ix = indexName d' ix') : d = d' ∧ ix = ix' := by
  rw [indexName_eq, indexName_eq, List.append_cancel_left_eq] at h
  have hlast : ∀ (a b : PyStr) (n : Nat), a ++ '-' :: ixSuffix .latest ≠ b ++ '-' :: ixSuffix (.arc n) := by
    intro a b n e
    obtain ⟨l, c, hl, hc⟩ := digits_last n
    have e1 : a ++ '-' :: ixSuffix .latest = (a ++ "-lates".toList) ++ ['t'] := by simp [ixSuffix]
    have e2 : b ++ '-' :: ixSuffix (.arc n) = (b ++ "-arc-".toList ++ l) ++ [c] := by simp [ixSuffix, hl]
    rw [e1, e2] at e
    have := List.append_inj_right' e rfl
    simp only [List.cons.injEq, and_true] at this
    subst this
    exact absurd hc (by decide)
  cases ix with
  | latest =>
    cases ix' with
    | latest => exact ⟨List.append_cancel_right h, rfl⟩
    | arc n => exact absurd h (hlast d d' n)
  | arc n =>
    cases ix' with
    | latest => exact absurd h.symm (hlast d' d n)
    | arc n' =>
      -- the digits are what is after the last dash
      have h' := congrArg List.reverse h
      simp only [ixSuffix, List.reverse_append, List.reverse_cons, List.append_assoc, List.singleton_append] at h'
      obtain ⟨h1, h2⟩ := dash_split (by simpa using digits_dash n) (by simpa using digits_dash n') h'
      have hn := digits_inj (List.reverse_injective h1)
      subst hn
      exact ⟨List.append_cancel_right h, rfl⟩

theorem lastPart_arc (db : PyStr) (n : Nat) : lastPart (indexName db (.arc n)) = Nat.toDigits 10 n := by
  have e : indexName db (.arc n) = ("data-".toList ++ db ++ "-arc".toList) ++ '-' :: Nat.toDigits 10 n := by
    rw [indexName_arc]
    generalize Nat.toDigits 10 n = ds
    simp only [List.append_assoc]; rfl
  unfold lastPart
  rw [e, List.reverse_append, List.reverse_cons, List.append_assoc, List.singleton_append,
    List.takeWhile_append_of_pos]
  · rw [List.takeWhile_cons_of_neg (by simp), List.append_nil, List.reverse_reverse]
  · intro c hc
    rw [List.mem_reverse] at hc
    simp only [decide_eq_true_eq]
    rintro rfl
    exact digits_dash n hc

theorem pyInt_digits (n : Nat) : pyInt (Nat.toDigits 10 n) = some n := by
  unfold pyInt
  rw [if_pos, Nat.ofDigitChars_ten_toDigits]
  rw [Bool.and_eq_true, List.all_eq_true]
  refine ⟨?_, fun c hc => Nat.isDigit_of_mem_toDigits (by omega) (by omega) hc⟩
  have := Nat.toDigits_ne_nil (n := n) (b := 10)
  cases h : Nat.toDigits 10 n with
  | nil => exact absurd h this
  | cons c l => rfl

/-! ## Templates -/

theorem latest_pattern (name : PyStr) : glob Template.latest.pattern name = true ↔
    ∃ a, name = "data-".toList ++ (a ++ "-latest".toList) := by
  have e : Template.latest.pattern = "data-".toList ++ ('*' :: "-latest".toList) := rfl
  rw [e, glob_lit (by decide)]
  simp only [glob_star]
  constructor
  · rintro ⟨t, rfl, a, b, rfl, h⟩
    rw [← List.append_nil "-latest".toList, glob_lit (by decide)] at h
    obtain ⟨t, rfl, h⟩ := h
    rw [glob_nil] at h
    subst h
    exact ⟨a, by simp⟩
  · rintro ⟨a, rfl⟩
    refine ⟨_, rfl, a, _, rfl, ?_⟩
    decide

theorem arc_pattern (name : PyStr) : glob Template.arc.pattern name = true ↔
    ∃ a b, name = "data-".toList ++ (a ++ ("-arc-".toList ++ b)) := by
  have e : Template.arc.pattern = "data-".toList ++ ('*' :: ("-arc-".toList ++ ['*'])) := rfl
  rw [e, glob_lit (by decide)]
  simp only [glob_star]
  constructor
  · rintro ⟨t, rfl, a, b, rfl, h⟩
    rw [glob_lit (by decide)] at h
    obtain ⟨t, rfl, h⟩ := h
    exact ⟨a, t, rfl⟩
  · rintro ⟨a, b, rfl⟩
    refine ⟨_, rfl, a, _, rfl, ?_⟩
    rw [glob_lit (by decide)]
    exact ⟨b, rfl, glob_any b⟩

end Splitgill
