import Verif.Proof.DateText
import Verif.Spec.DateReads
/-!
# Lemmas: the texts that `strptime` reads
-/

namespace Splitgill

theorem isDig_iff {c : Char} : isDig c = true ↔ 48 ≤ c.toNat ∧ c.toNat ≤ 57 := by
  unfold isDig inRange
  rw [decide_eq_true_iff]
  rfl

theorem dateRange_iff {a b c : Char} : inRange a b c = true ↔ a.toNat ≤ c.toNat ∧ c.toNat ≤ b.toNat := by
  unfold inRange
  rw [decide_eq_true_iff]

theorem allDigits_one {a : Char} : AllDigits [a] ↔ 48 ≤ a.toNat ∧ a.toNat ≤ 57 := by
  unfold AllDigits
  rw [List.forall_mem_singleton]
  rfl

theorem allDigits_cons {a : Char} {w : PyStr} : AllDigits (a :: w) ↔ (48 ≤ a.toNat ∧ a.toNat ≤ 57) ∧ AllDigits w := by
  unfold AllDigits
  rw [List.forall_mem_cons]
  rfl

theorem allDigits_nil : AllDigits [] := fun _ h => nomatch h

theorem decimal_one (a : Char) : decimal [a] = a.toNat - 48 := by
  show 10 * 0 + (a.toNat - 48) = _
  omega

theorem decimal_two (a b : Char) : decimal [a, b] = 10 * (a.toNat - 48) + (b.toNat - 48) := by
  show 10 * (10 * 0 + (a.toNat - 48)) + (b.toNat - 48) = _
  omega

theorem decimal_snoc (w : PyStr) (c : Char) : decimal (w ++ [c]) = 10 * decimal w + (c.toNat - 48) := by
  unfold decimal
  rw [List.foldl_append]
  rfl

/-! ## What is read is written -/

theorem mem_two_iff {p q : Char → Bool} {s : PyStr} {v : Nat × PyStr} :
    v ∈ two p q s ↔ ∃ a b, s = a :: b :: v.2 ∧ p a = true ∧ q b = true ∧ v.1 = 10 * (a.toNat - 48) + (b.toNat - 48) := by
  unfold two
  split
  · rename_i x y r
    split
    · rename_i h
      rw [Bool.and_eq_true] at h
      rw [List.mem_singleton]
      constructor
      · rintro rfl; exact ⟨x, y, rfl, h.1, h.2, rfl⟩
      · rintro ⟨a, b, e, _, _, h3⟩
        cases e
        exact Prod.ext h3 rfl
    · rename_i h
      rw [Bool.and_eq_true] at h
      constructor
      · exact fun h => nomatch h
      · rintro ⟨a, b, e, h1, h2, _⟩
        cases e
        exact absurd ⟨h1, h2⟩ h
  · rename_i h
    constructor
    · exact fun h => nomatch h
    · rintro ⟨a, b, rfl, _⟩
      exact absurd rfl (h a b v.2)

theorem mem_one_iff {p : Char → Bool} {s : PyStr} {v : Nat × PyStr} :
    v ∈ one p s ↔ ∃ a, s = a :: v.2 ∧ p a = true ∧ v.1 = a.toNat - 48 := by
  unfold one
  split
  · rename_i x r
    split
    · rename_i h
      rw [List.mem_singleton]
      constructor
      · rintro rfl; exact ⟨x, rfl, h, rfl⟩
      · rintro ⟨a, e, _, h3⟩
        cases e
        exact Prod.ext h3 rfl
    · rename_i h
      constructor
      · exact fun h => nomatch h
      · rintro ⟨a, e, h1, _⟩
        cases e
        exact absurd h1 h
  · rename_i h
    constructor
    · exact fun h => nomatch h
    · rintro ⟨a, rfl, _⟩
      exact absurd rfl (h a v.2)

theorem short_two {a b : Char} (ha : isDig a = true) (hb : isDig b = true) {n : Nat} (h : n = 10 * (a.toNat - 48) + (b.toNat - 48)) :
    ShortNumber [a, b] n :=
  ⟨allDigits_cons.2 ⟨isDig_iff.1 ha, allDigits_one.2 (isDig_iff.1 hb)⟩, .inr rfl, (decimal_two a b).trans h.symm⟩

theorem short_one {a : Char} (ha : isDig a = true) {n : Nat} (h : n = a.toNat - 48) : ShortNumber [a] n :=
  ⟨allDigits_one.2 (isDig_iff.1 ha), .inl rfl, (decimal_one a).trans h.symm⟩

theorem mem_two_short {a b a' b' : Char} {s : PyStr} {v : Nat × PyStr} (h : v ∈ two (inRange a b) (inRange a' b') s)
    (h1 : 48 ≤ a.toNat) (h2 : b.toNat ≤ 57) (h3 : 48 ≤ a'.toNat) (h4 : b'.toNat ≤ 57) :
    ∃ w, s = w ++ v.2 ∧ ShortNumber w v.1 ∧ 10 * (a.toNat - 48) + (a'.toNat - 48) ≤ v.1 ∧ v.1 ≤ 10 * (b.toNat - 48) + (b'.toNat - 48) := by
  obtain ⟨x, y, rfl, e1, e2, e3⟩ := mem_two_iff.1 h
  rw [dateRange_iff] at e1 e2
  exact ⟨[x, y], rfl, short_two (isDig_iff.2 (by omega)) (isDig_iff.2 (by omega)) e3, by omega, by omega⟩

theorem mem_one_short {a b : Char} {s : PyStr} {v : Nat × PyStr} (h : v ∈ one (inRange a b) s) (h1 : 48 ≤ a.toNat) (h2 : b.toNat ≤ 57) :
    ∃ w, s = w ++ v.2 ∧ ShortNumber w v.1 ∧ a.toNat - 48 ≤ v.1 ∧ v.1 ≤ b.toNat - 48 := by
  obtain ⟨x, rfl, e1, e3⟩ := mem_one_iff.1 h
  rw [dateRange_iff] at e1
  exact ⟨[x], rfl, short_one (isDig_iff.2 (by omega)) e3, by omega, by omega⟩

theorem fraction_sound : ∀ (n acc scale : Nat) (s : PyStr) (v : Nat × PyStr), v ∈ fraction n acc scale s →
    ∃ w, s = w ++ v.2 ∧ AllDigits w ∧ 1 ≤ w.length ∧ w.length ≤ n ∧ v.1 = (w.foldl (fun n c => 10 * n + (c.toNat - '0'.toNat)) acc) * (scale / 10 ^ w.length)
  | 0, _, _, _, _, h => by simp [fraction] at h
  | n + 1, acc, scale, s, v, h => by
    cases s with
    | nil => simp [fraction] at h
    | cons c r =>
      rw [fraction] at h
      split at h
      · rename_i hc
        rw [List.mem_append, List.mem_singleton] at h
        rcases h with h | rfl
        · obtain ⟨w, e1, e2, e3, e4, e5⟩ := fraction_sound n _ _ r v h
          refine ⟨c :: w, by rw [e1]; rfl, allDigits_cons.2 ⟨isDig_iff.1 hc, e2⟩, by simp, by simp; omega, ?_⟩
          rw [e5, List.length_cons, pow_succ', ← Nat.div_div_eq_div_mul]
          rfl
        · refine ⟨[c], rfl, allDigits_one.2 (isDig_iff.1 hc), by simp, by simp, ?_⟩
          show _ = _ * (scale / 10 ^ 1)
          rw [pow_one]
          rfl
      · exact nomatch h

theorem fraction_millionths {s : PyStr} {v : Nat × PyStr} (h : v ∈ fraction 6 0 1000000 s) : ∃ w, s = w ++ v.2 ∧ Millionths w v.1 := by
  obtain ⟨w, e1, e2, e3, e4, e5⟩ := fraction_sound _ _ _ _ _ h
  refine ⟨w, e1, e2, e3, e4, e5.trans ?_⟩
  congr 1
  have : ∀ n, 1 ≤ n → n ≤ 6 → 1000000 / 10 ^ n = 10 ^ (6 - n) := by
    intro n h1 h2
    have : n = 1 ∨ n = 2 ∨ n = 3 ∨ n = 4 ∨ n = 5 ∨ n = 6 := by omega
    rcases this with rfl | rfl | rfl | rfl | rfl | rfl <;> rfl
  exact this _ e3 e4

theorem mem_optColon {s : PyStr} {v : Bool × PyStr} (h : v ∈ optColon s) : ∃ colon, s = colon ++ v.2 ∧ (v.1 = true ∧ colon = [':'] ∨ v.1 = false ∧ colon = []) := by
  unfold optColon at h
  split at h
  · rename_i r
    simp only [List.mem_cons, List.not_mem_nil, or_false] at h
    rcases h with rfl | rfl
    · exact ⟨[':'], rfl, .inl ⟨rfl, rfl⟩⟩
    · exact ⟨[], rfl, .inr ⟨rfl, rfl⟩⟩
  · rw [List.mem_singleton] at h
    subst h
    exact ⟨[], rfl, .inr ⟨rfl, rfl⟩⟩

theorem mem_pair {p : Char → Bool} (hp : ∀ c, p c = true → isDig c = true) {s : PyStr} {v : Nat × PyStr} (h : v ∈ two p isDig s) :
    ∃ w, s = w ++ v.2 ∧ AllDigits w ∧ w.length = 2 ∧ decimal w = v.1 := by
  obtain ⟨a, b, rfl, e1, e2, e3⟩ := mem_two_iff.1 h
  exact ⟨[a, b], rfl, allDigits_cons.2 ⟨isDig_iff.1 (hp a e1), allDigits_one.2 (isDig_iff.1 e2)⟩, rfl, (decimal_two a b).trans e3.symm⟩

theorem mem_sixty {s : PyStr} {v : Nat × PyStr} (h : v ∈ two (inRange '0' '5') isDig s) :
    ∃ w, s = w ++ v.2 ∧ AllDigits w ∧ w.length = 2 ∧ decimal w = v.1 ∧ decimal w < 60 := by
  have hp : ∀ c, inRange '0' '5' c = true → isDig c = true := fun c hc => by
    rw [dateRange_iff] at hc
    rw [isDig_iff]
    exact ⟨hc.1, le_trans hc.2 (by decide)⟩
  obtain ⟨w, e1, e2, e3, e4⟩ := mem_pair hp h
  refine ⟨w, e1, e2, e3, e4, ?_⟩
  obtain ⟨a, b, _, g1, g2, g3⟩ := mem_two_iff.1 h
  rw [dateRange_iff] at g1
  rw [isDig_iff] at g2
  have : '5'.toNat = 53 := rfl
  omega

theorem zoneTail_sound {s : PyStr} {n : Nat} {r : PyStr} (h : (some n, r) ∈ zoneTail s) : ∃ w, s = w ++ r ∧ Offset w n := by
  unfold zoneTail at h
  obtain ⟨hh, h1, h⟩ := List.mem_flatMap.1 h
  replace h := List.mem_flatMap.1 h
  obtain ⟨c1, h2, h⟩ := h
  replace h := List.mem_flatMap.1 h
  obtain ⟨mi, h3, h⟩ := h
  obtain ⟨wh, a0, a1, a2, a3⟩ := mem_pair (fun _ h => h) h1
  obtain ⟨colon, hc, hcc⟩ := mem_optColon h2
  obtain ⟨wm, b1, b2, b3, b4, b5⟩ := mem_sixty h3
  have hcol : colon = [] ∨ colon = [':'] := by rcases hcc with ⟨_, e⟩ | ⟨_, e⟩ <;> simp [e]
  rw [a0, hc, b1]
  rw [List.mem_append] at h
  rcases h with h | h
  · obtain ⟨c2, h4, h⟩ := List.mem_flatMap.1 h
    obtain ⟨se, h5, h⟩ := List.mem_flatMap.1 h
    obtain ⟨colon2, hd, hdd⟩ := mem_optColon h4
    obtain ⟨ws, d1, d2, d3, d4, d5⟩ := mem_sixty h5
    have heq : c1.1 = c2.1 → colon2 = colon := by
      intro e
      rcases hcc with ⟨x1, x2⟩ | ⟨x1, x2⟩ <;> rcases hdd with ⟨y1, y2⟩ | ⟨y1, y2⟩ <;> simp_all
    rw [hd, d1]
    dsimp only at h
    rw [List.mem_append] at h
    rcases h with h | h
    · split at h
      · rename_i r' hr'
        obtain ⟨fr, h6, h⟩ := List.mem_map.1 h
        obtain ⟨wf, e1, e2⟩ := fraction_millionths h6
        rw [Prod.mk.injEq] at h
        obtain ⟨g1, g2⟩ := h
        split at g1
        · rename_i hcc'
          rw [hr', e1, ← g2, heq hcc']
          cases g1
          refine ⟨wh ++ (colon ++ (wm ++ (colon ++ (ws ++ '.' :: wf)))), by simp, ?_⟩
          rw [← a3, ← b4, ← d4]
          exact .fraction wh wm ws colon wf fr.1 a1 a2 b2 b3 b5 d2 d3 d5 hcol e2
        · cases g1
      · exact nomatch h
    · rw [List.mem_singleton, Prod.mk.injEq] at h
      obtain ⟨g1, g2⟩ := h
      split at g1
      · rename_i hcc'
        rw [← g2, heq hcc']
        cases g1
        refine ⟨wh ++ (colon ++ (wm ++ (colon ++ ws))), by simp, ?_⟩
        rw [← a3, ← b4, ← d4]
        exact .seconds wh wm ws colon a1 a2 b2 b3 b5 d2 d3 d5 hcol
      · cases g1
  · rw [List.mem_singleton, Prod.mk.injEq] at h
    obtain ⟨g1, g2⟩ := h
    cases g1
    rw [← g2]
    refine ⟨wh ++ (colon ++ wm), by simp, ?_⟩
    rw [← a3, ← b4]
    exact .minutes wh wm colon a1 a2 b2 b3 b5 hcol

theorem four_sound {s : PyStr} {v : Nat × PyStr} (h : v ∈ four s) : ∃ w, s = w ++ v.2 ∧ AllDigits w ∧ w.length = 4 ∧ decimal w = v.1 := by
  unfold four at h
  split at h
  · rename_i a b c d r
    split at h
    · rename_i hd
      simp only [Bool.and_eq_true, isDig_iff] at hd
      rw [List.mem_singleton] at h
      subst h
      refine ⟨[a, b, c, d], rfl, ?_, rfl, ?_⟩
      · simp only [allDigits_cons]
        exact ⟨hd.1.1.1, hd.1.1.2, hd.1.2, hd.2, allDigits_nil⟩
      · show 10 * (10 * (10 * (10 * 0 + (a.toNat - 48)) + (b.toNat - 48)) + (c.toNat - 48)) + (d.toNat - 48) =
          1000 * (a.toNat - 48) + 100 * (b.toNat - 48) + 10 * (c.toNat - 48) + (d.toNat - 48)
        omega
    · exact nomatch h
  · exact nomatch h

/-- What a directive reads is a text for it. -/
theorem reads_sound {d : Dir} {s : PyStr} {v} (h : v ∈ d.reads s) {t t' : DateTime} (ht : v.1 t = some t') :
    ∃ w, s = w ++ v.2 ∧ Piece d w t t' := by
  cases d with
  | lit c =>
    unfold Dir.reads at h
    dsimp only at h
    split at h
    · rename_i x r
      split at h
      · rename_i hx
        rw [List.mem_singleton] at h
        subst h
        refine ⟨[x], rfl, ?_⟩
        cases ht
        exact .lit c x t hx
      · exact nomatch h
    · exact nomatch h
  | Y =>
    obtain ⟨v, hv, rfl⟩ := List.mem_map.1 h
    obtain ⟨w, e1, e2, e3, e4⟩ := four_sound hv
    refine ⟨w, e1, ?_⟩
    cases ht
    rw [← e4]
    exact .Y w t e2 e3
  | m =>
    obtain ⟨v, hv, rfl⟩ := List.mem_map.1 h
    rw [List.mem_append, List.mem_append] at hv
    have : ∃ w, s = w ++ v.2 ∧ ShortNumber w v.1 ∧ 1 ≤ v.1 ∧ v.1 ≤ 12 := by
      rcases hv with (hv | hv) | hv
      · obtain ⟨w, e1, e2, e3, e4⟩ := mem_two_short hv (by decide) (by decide) (by decide) (by decide)
        exact ⟨w, e1, e2, le_trans (by decide) e3, e4⟩
      · obtain ⟨w, e1, e2, e3, e4⟩ := mem_two_short hv (by decide) (by decide) (by decide) (by decide)
        exact ⟨w, e1, e2, e3, le_trans e4 (by decide)⟩
      · obtain ⟨w, e1, e2, e3, e4⟩ := mem_one_short hv (by decide) (by decide)
        exact ⟨w, e1, e2, e3, le_trans e4 (by decide)⟩
    obtain ⟨w, e1, e2, e3, e4⟩ := this
    refine ⟨w, e1, ?_⟩
    cases ht
    exact .m w v.1 t e2 e3 e4
  | d =>
    obtain ⟨v, hv, rfl⟩ := List.mem_map.1 h
    rw [List.mem_append, List.mem_append, List.mem_append, List.mem_append] at hv
    have : (∃ w, s = w ++ v.2 ∧ ShortNumber w v.1 ∧ 1 ≤ v.1 ∧ v.1 ≤ 31) ∨
        ∃ c, s = [' ', c] ++ v.2 ∧ AllDigits [c] ∧ 1 ≤ decimal [c] ∧ decimal [c] = v.1 := by
      rcases hv with (((hv | hv) | hv) | hv) | hv
      · obtain ⟨w, e1, e2, e3, e4⟩ := mem_two_short hv (by decide) (by decide) (by decide) (by decide)
        exact .inl ⟨w, e1, e2, le_trans (by decide) e3, e4⟩
      · obtain ⟨w, e1, e2, e3, e4⟩ := mem_two_short hv (by decide) (by decide) (by decide) (by decide)
        exact .inl ⟨w, e1, e2, le_trans (by decide) e3, le_trans e4 (by decide)⟩
      · obtain ⟨w, e1, e2, e3, e4⟩ := mem_two_short hv (by decide) (by decide) (by decide) (by decide)
        exact .inl ⟨w, e1, e2, e3, le_trans e4 (by decide)⟩
      · obtain ⟨w, e1, e2, e3, e4⟩ := mem_one_short hv (by decide) (by decide)
        exact .inl ⟨w, e1, e2, e3, le_trans e4 (by decide)⟩
      · obtain ⟨a, b, e1, e2, e3, e4⟩ := mem_two_iff.1 hv
        rw [dateRange_iff] at e2 e3
        have h1 : a.toNat = 32 := Nat.le_antisymm e2.2 e2.1
        have h2 : a = ' ' := Char.toNat_inj.1 h1
        subst h2
        have k1 : '1'.toNat = 49 := rfl
        have k2 : '9'.toNat = 57 := rfl
        refine .inr ⟨b, e1, allDigits_one.2 (by omega), ?_, ?_⟩
        · rw [decimal_one]; omega
        · rw [decimal_one]; omega
    rcases this with ⟨w, e1, e2, e3, e4⟩ | ⟨c, e1, e2, e3, e4⟩
    · refine ⟨w, e1, ?_⟩
      cases ht
      exact .d w v.1 t e2 e3 e4
    · refine ⟨_, e1, ?_⟩
      cases ht
      rw [← e4]
      exact .dSpace c t e2 e3
  | H =>
    obtain ⟨v, hv, rfl⟩ := List.mem_map.1 h
    rw [List.mem_append, List.mem_append] at hv
    have : ∃ w, s = w ++ v.2 ∧ ShortNumber w v.1 ∧ v.1 < 24 := by
      rcases hv with (hv | hv) | hv
      · obtain ⟨w, e1, e2, e3, e4⟩ := mem_two_short hv (by decide) (by decide) (by decide) (by decide)
        exact ⟨w, e1, e2, lt_of_le_of_lt e4 (by decide)⟩
      · obtain ⟨w, e1, e2, e3, e4⟩ := mem_two_short hv (by decide) (by decide) (by decide) (by decide)
        exact ⟨w, e1, e2, lt_of_le_of_lt e4 (by decide)⟩
      · obtain ⟨w, e1, e2, e3, e4⟩ := mem_one_short hv (by decide) (by decide)
        exact ⟨w, e1, e2, lt_of_le_of_lt e4 (by decide)⟩
    obtain ⟨w, e1, e2, e3⟩ := this
    refine ⟨w, e1, ?_⟩
    cases ht
    exact .H w v.1 t e2 e3
  | M =>
    obtain ⟨v, hv, rfl⟩ := List.mem_map.1 h
    rw [List.mem_append] at hv
    have : ∃ w, s = w ++ v.2 ∧ ShortNumber w v.1 ∧ v.1 < 60 := by
      rcases hv with hv | hv
      · obtain ⟨w, e1, e2, e3, e4⟩ := mem_two_short hv (by decide) (by decide) (by decide) (by decide)
        exact ⟨w, e1, e2, lt_of_le_of_lt e4 (by decide)⟩
      · obtain ⟨w, e1, e2, e3, e4⟩ := mem_one_short hv (by decide) (by decide)
        exact ⟨w, e1, e2, lt_of_le_of_lt e4 (by decide)⟩
    obtain ⟨w, e1, e2, e3⟩ := this
    refine ⟨w, e1, ?_⟩
    cases ht
    exact .M w v.1 t e2 e3
  | S =>
    obtain ⟨v, hv, rfl⟩ := List.mem_map.1 h
    rw [List.mem_append, List.mem_append] at hv
    have : ∃ w, s = w ++ v.2 ∧ ShortNumber w v.1 ∧ v.1 < 62 := by
      rcases hv with (hv | hv) | hv
      · obtain ⟨w, e1, e2, e3, e4⟩ := mem_two_short hv (by decide) (by decide) (by decide) (by decide)
        exact ⟨w, e1, e2, lt_of_le_of_lt e4 (by decide)⟩
      · obtain ⟨w, e1, e2, e3, e4⟩ := mem_two_short hv (by decide) (by decide) (by decide) (by decide)
        exact ⟨w, e1, e2, lt_of_le_of_lt e4 (by decide)⟩
      · obtain ⟨w, e1, e2, e3, e4⟩ := mem_one_short hv (by decide) (by decide)
        exact ⟨w, e1, e2, lt_of_le_of_lt e4 (by decide)⟩
    obtain ⟨w, e1, e2, e3⟩ := this
    refine ⟨w, e1, ?_⟩
    cases ht
    exact .S w v.1 t e2 e3
  | f =>
    obtain ⟨v, hv, rfl⟩ := List.mem_map.1 h
    obtain ⟨w, e1, e2⟩ := fraction_millionths hv
    refine ⟨w, e1, ?_⟩
    cases ht
    exact .f w v.1 t e2
  | z =>
    unfold Dir.reads at h
    dsimp only at h
    split at h
    · rename_i r
      obtain ⟨⟨o, r'⟩, hv, rfl⟩ := List.mem_map.1 h
      cases o with
      | none => exact nomatch ht
      | some n =>
        obtain ⟨w, rfl, e2⟩ := zoneTail_sound hv
        refine ⟨'+' :: w, rfl, ?_⟩
        cases ht
        exact .ahead w n t e2
    · rename_i r
      obtain ⟨⟨o, r'⟩, hv, rfl⟩ := List.mem_map.1 h
      cases o with
      | none => exact nomatch ht
      | some n =>
        obtain ⟨w, rfl, e2⟩ := zoneTail_sound hv
        refine ⟨'-' :: w, rfl, ?_⟩
        cases ht
        exact .behind w n t e2
    · rw [List.mem_singleton] at h
      subst h
      cases ht
      exact ⟨['Z'], rfl, .zulu t⟩
    · exact nomatch h

theorem matchDirs_none : ∀ (ds : List Dir) (s : PyStr) {x : Option DateTime} {r : PyStr}, matchDirs ds s none = some (x, r) → x = none
  | [], _, _, _, h => by rw [matchDirs] at h; cases h; rfl
  | d :: ds, s, x, r, h => by
    rw [matchDirs] at h
    obtain ⟨v, _, hv⟩ := List.exists_of_findSome?_eq_some h
    exact matchDirs_none ds v.2 hv

theorem matchDirs_sound : ∀ (ds : List Dir) (s : PyStr) {t t' : DateTime}, matchDirs ds s (some t) = some (some t', []) → Writes ds s t t'
  | [], s, t, t', h => by rw [matchDirs] at h; cases h; exact .nil t
  | d :: ds, s, t, t', h => by
    rw [matchDirs] at h
    obtain ⟨v, hm, hv⟩ := List.exists_of_findSome?_eq_some h
    have hv : matchDirs ds v.2 (v.1 t) = some (some t', []) := hv
    cases e : v.1 t with
    | none => rw [e] at hv; exact nomatch matchDirs_none _ _ hv
    | some t1 =>
      rw [e] at hv
      obtain ⟨w, rfl, hp⟩ := reads_sound hm e
      exact .cons hp (matchDirs_sound ds _ hv)

theorem strptime_sound {ds : List Dir} {s : PyStr} {t : DateTime} (h : strptime ds s = some t) : Writes ds s {} t ∧ t.valid = true := by
  unfold strptime at h
  split at h
  · rename_i t' e
    split at h
    · rename_i hv
      cases h
      exact ⟨matchDirs_sound _ _ e, hv⟩
    · cases h
  · cases h

end Splitgill
