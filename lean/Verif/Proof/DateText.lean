import Verif.Spec.DateText
import Verif.Spec.Query
import Mathlib.Tactic.IntervalCases
/-!
# Datetimes are read back from their texts
-/

namespace Splitgill

/-! ## Digits -/

theorem digitChar_dig : ∀ n, n < 10 → isDig (digitChar n) = true ∧ digitVal (digitChar n) = n := by decide

theorem digitsN_two (n : Nat) : digitsN 2 n = [digitChar (n / 10 % 10), digitChar (n % 10)] := rfl

theorem digitsN_four (n : Nat) : digitsN 4 n =
    [digitChar (n / 10 / 10 / 10 % 10), digitChar (n / 10 / 10 % 10), digitChar (n / 10 % 10), digitChar (n % 10)] := rfl

theorem digitsN_six (n : Nat) : digitsN 6 n =
    [digitChar (n / 10 / 10 / 10 / 10 / 10 % 10), digitChar (n / 10 / 10 / 10 / 10 % 10), digitChar (n / 10 / 10 / 10 % 10),
      digitChar (n / 10 / 10 % 10), digitChar (n / 10 % 10), digitChar (n % 10)] := rfl

theorem dig_mod (n : Nat) : isDig (digitChar (n % 10)) = true ∧ digitVal (digitChar (n % 10)) = n % 10 :=
  digitChar_dig _ (Nat.mod_lt _ (by omega))

theorem digitsN_dig : ∀ (w n : Nat), ∀ c ∈ digitsN w n, isDig c = true
  | 0, _, _, h => nomatch h
  | w + 1, n, c, h => by
    rw [digitsN, List.mem_append, List.mem_singleton] at h
    rcases h with h | rfl
    · exact digitsN_dig w _ c h
    · exact (dig_mod n).1

/-! ## What the directives read first -/

theorem reads_Y {y : Nat} (h : y ≤ 9999) (r : PyStr) :
    Dir.reads (digitsN 4 y ++ r) .Y = [(fun t => some { t with year := y }, r)] := by
  rw [digitsN_four]
  simp only [List.cons_append, List.nil_append, Dir.reads, four, (dig_mod _).1, (dig_mod _).2, Bool.and_self, if_true, List.map_cons,
    List.map_nil]
  have : 1000 * (y / 10 / 10 / 10 % 10) + 100 * (y / 10 / 10 % 10) + 10 * (y / 10 % 10) + y % 10 = y := by omega
  rw [this]

theorem reads_m {n : Nat} (h1 : 1 ≤ n) (h2 : n ≤ 12) (r : PyStr) :
    ∃ o, Dir.reads (digitsN 2 n ++ r) .m = (fun t => some { t with month := n }, r) :: o := by
  interval_cases n <;> exact ⟨_, rfl⟩

theorem reads_d {n : Nat} (h1 : 1 ≤ n) (h2 : n ≤ 31) (r : PyStr) :
    ∃ o, Dir.reads (digitsN 2 n ++ r) .d = (fun t => some { t with day := n }, r) :: o := by
  interval_cases n <;> exact ⟨_, rfl⟩

theorem reads_H {n : Nat} (h : n < 24) (r : PyStr) :
    ∃ o, Dir.reads (digitsN 2 n ++ r) .H = (fun t => some { t with hour := n }, r) :: o := by
  interval_cases n <;> exact ⟨_, rfl⟩

theorem reads_M {n : Nat} (h : n < 60) (r : PyStr) :
    ∃ o, Dir.reads (digitsN 2 n ++ r) .M = (fun t => some { t with minute := n }, r) :: o := by
  interval_cases n <;> exact ⟨_, rfl⟩

theorem reads_S {n : Nat} (h : n < 60) (r : PyStr) :
    ∃ o, Dir.reads (digitsN 2 n ++ r) .S = (fun t => some { t with second := n }, r) :: o := by
  interval_cases n <;> exact ⟨_, rfl⟩

theorem fraction_six {n : Nat} (h : n < 1000000) (r : PyStr) :
    ∃ o, fraction 6 0 1000000 (digitsN 6 n ++ r) = (n, r) :: o := by
  rw [digitsN_six]
  simp only [List.cons_append, List.nil_append, fraction, (dig_mod _).1, (dig_mod _).2, if_true]
  have : (10 * (10 * (10 * (10 * (10 * (10 * 0 + n / 10 / 10 / 10 / 10 / 10 % 10) + n / 10 / 10 / 10 / 10 % 10) + n / 10 / 10 / 10 % 10)
    + n / 10 / 10 % 10) + n / 10 % 10) + n % 10) * (1000000 / 10 / 10 / 10 / 10 / 10 / 10) = n := by omega
  rw [this]
  exact ⟨_, rfl⟩

theorem reads_f {n : Nat} (h : n < 1000000) (r : PyStr) :
    ∃ o, Dir.reads (digitsN 6 n ++ r) .f = (fun t => some { t with micro := n }, r) :: o := by
  obtain ⟨o, e⟩ := fraction_six h r
  exact ⟨_, by rw [Dir.reads, e, List.map_cons]⟩

theorem two_digits {n : Nat} (h : n < 100) (r : PyStr) : two isDig isDig (digitsN 2 n ++ r) = [(n, r)] := by
  rw [digitsN_two]
  simp only [List.cons_append, List.nil_append, two, (dig_mod _).1, (dig_mod _).2, Bool.and_self, if_true]
  have : 10 * (n / 10 % 10) + n % 10 = n := by omega
  rw [this]

theorem two_sixty {n : Nat} (h : n < 60) (r : PyStr) : two (inRange '0' '5') isDig (digitsN 2 n ++ r) = [(n, r)] := by
  interval_cases n <;> rfl

theorem optColon_digits (n : Nat) (r : PyStr) : optColon (digitsN 2 n ++ r) = [(false, digitsN 2 n ++ r)] := by
  have : ∀ k, k < 10 → digitChar k ≠ ':' := by decide
  rw [digitsN_two]
  simp only [List.cons_append, List.nil_append]
  unfold optColon
  split
  · next e =>
    injection e with e _
    exact absurd e (this _ (Nat.mod_lt _ (by omega)))
  · rfl

/-- The text of an offset, without the sign. -/
theorem zoneTail_text {us : Nat} (h : us < 86400000000) :
    ∃ o, zoneTail (digitsN 2 (us / 3600000000) ++ digitsN 2 (us / 60000000 % 60) ++
      if us % 60000000 = 0 then []
      else digitsN 2 (us / 1000000 % 60) ++ if us % 1000000 = 0 then [] else '.' :: digitsN 6 (us % 1000000)) =
        (some us, []) :: o := by
  unfold zoneTail
  rw [List.append_assoc, two_digits (by omega)]
  simp only [List.flatMap_cons, List.flatMap_nil, List.append_nil]
  rw [optColon_digits]
  simp only [List.flatMap_cons, List.flatMap_nil, List.append_nil]
  rw [two_sixty (by omega)]
  simp only [List.flatMap_cons, List.flatMap_nil, List.append_nil]
  by_cases h1 : us % 60000000 = 0
  · simp only [if_pos h1]
    refine ⟨[], ?_⟩
    have e : (us / 3600000000 * 3600 + us / 60000000 % 60 * 60) * 1000000 = us := by omega
    simp [optColon, two, e]
  · simp only [if_neg h1]
    rw [optColon_digits]
    simp only [List.flatMap_cons, List.flatMap_nil, List.append_nil]
    rw [two_sixty (by omega)]
    simp only [List.flatMap_cons, List.flatMap_nil, List.append_nil]
    by_cases h2 : us % 1000000 = 0
    · simp only [if_pos h2]
      have e : (us / 3600000000 * 3600 + us / 60000000 % 60 * 60 + us / 1000000 % 60) * 1000000 = us := by omega
      simp [e]
    · simp only [if_neg h2]
      obtain ⟨o, ef⟩ := fraction_six (n := us % 1000000) (by omega) []
      rw [List.append_nil] at ef
      rw [ef]
      have e : (us / 3600000000 * 3600 + us / 60000000 % 60 * 60 + us / 1000000 % 60) * 1000000 + us % 1000000 = us := by omega
      simp [e]

theorem reads_z {o : Int} (h1 : -86400000000 < o) (h2 : o < 86400000000) :
    ∃ os, Dir.reads (offsetText (some o)) .z = (fun t => some { t with offset := some o }, []) :: os := by
  obtain ⟨os, e⟩ := zoneTail_text (us := o.natAbs) (by omega)
  by_cases h : o < 0
  · simp only [offsetText, if_pos h, Dir.reads]
    rw [e, List.map_cons]
    have : -((o.natAbs : Nat) : Int) = o := by omega
    refine ⟨_, congrArg (· :: _) (congrArg (·, []) (funext fun t => ?_))⟩
    exact congrArg (fun x : Int => some { t with offset := some x }) this
  · simp only [offsetText, if_neg h, Dir.reads]
    rw [e, List.map_cons]
    have : ((o.natAbs : Nat) : Int) = o := by omega
    refine ⟨_, congrArg (· :: _) (congrArg (·, []) (funext fun t => ?_))⟩
    exact congrArg (fun x : Int => some { t with offset := some x }) this

/-! ## Matching -/

theorem matchDirs_cons {d : Dir} {ds : List Dir} {s r : PyStr} {u : DateTime → Option DateTime} {o} {t : Option DateTime}
    {x : Option DateTime × PyStr} (h : d.reads s = (u, r) :: o) (h2 : matchDirs ds r (t.bind u) = some x) :
    matchDirs (d :: ds) s t = some x := by
  rw [matchDirs, h, List.findSome?_cons]
  dsimp only
  rw [h2]

theorem matchDirs_lit {c : Char} {ds : List Dir} {r : PyStr} {t : Option DateTime} :
    matchDirs (.lit c :: ds) (c :: r) t = matchDirs ds r t := by
  rw [matchDirs]
  simp only [Dir.reads, if_true, List.findSome?_cons, List.findSome?_nil]
  have : t.bind some = t := by cases t <;> rfl
  rw [this]
  cases matchDirs ds r t <;> rfl

theorem matchDirs_lit_none {c x : Char} {ds : List Dir} {r : PyStr} {t : Option DateTime} (h : x.toLower ≠ c.toLower) :
    matchDirs (.lit c :: ds) (x :: r) t = none := by
  rw [matchDirs]
  simp [Dir.reads, h]

theorem matchDirs_lit_nil {c : Char} {ds : List Dir} {t : Option DateTime} : matchDirs (.lit c :: ds) [] t = none := rfl

/-- The directives of the three formats. -/
def dateDirs : List Dir := [.Y, .lit '-', .m, .lit '-', .d]
def timeDirs : List Dir := [.lit 'T', .H, .lit ':', .M, .lit ':', .S, .lit '.', .f]

theorem format_aware : parseFormat "%Y-%m-%dT%H:%M:%S.%f%z".toList = some (dateDirs ++ (timeDirs ++ [.z])) := by decide
theorem format_date : parseFormat "%Y-%m-%d".toList = some dateDirs := by decide
theorem format_naive : parseFormat "%Y-%m-%dT%H:%M:%S.%f".toList = some (dateDirs ++ timeDirs) := by decide

theorem DateTime.valid_iff {t : DateTime} : t.valid = true ↔
    (1 ≤ t.year ∧ t.year ≤ 9999 ∧ 1 ≤ t.month ∧ t.month ≤ 12 ∧ 1 ≤ t.day ∧ t.day ≤ daysInMonth t.year t.month ∧
    t.hour < 24 ∧ t.minute < 60 ∧ t.second < 60 ∧ t.micro < 1000000) ∧
    ∀ o, t.offset = some o → -86400000000 < o ∧ o < 86400000000 := by
  unfold DateTime.valid
  rw [Bool.and_eq_true, decide_eq_true_eq]
  refine and_congr_right fun _ => ?_
  cases t.offset with
  | none => simp
  | some o => simp

theorem daysInMonth_le (y m : Nat) : daysInMonth y m ≤ 31 := by
  unfold daysInMonth
  repeat' split
  all_goals omega

theorem yearText_four {pad : Bool} {y : Nat} (h : pad = true ∨ 1000 ≤ y) : yearText pad y = digitsN 4 y := if_pos h

variable {pad : Bool} {t : DateTime}

/-- The date is read from the text of a date. -/
theorem match_date (hv : t.valid = true) (hp : pad = true ∨ 1000 ≤ t.year) (ds : List Dir) (r : PyStr) (t0 : DateTime)
    (x : Option DateTime × PyStr)
    (h : matchDirs ds r (some { t0 with year := t.year, month := t.month, day := t.day }) = some x) :
    matchDirs (dateDirs ++ ds) (dateText pad t ++ r) (some t0) = some x := by
  obtain ⟨⟨h1, h2, h3, h4, h5, h6, _⟩, _⟩ := DateTime.valid_iff.1 hv
  have h7 := daysInMonth_le t.year t.month
  have e : dateText pad t ++ r = digitsN 4 t.year ++ ('-' :: (digitsN 2 t.month ++ ('-' :: (digitsN 2 t.day ++ r)))) := by
    rw [dateText, yearText_four hp]
    simp only [List.append_assoc, List.cons_append]
  rw [e]
  simp only [dateDirs, List.cons_append, List.nil_append]
  refine matchDirs_cons (reads_Y h2 _) ?_
  rw [matchDirs_lit]
  obtain ⟨o1, e1⟩ := reads_m h3 h4 ('-' :: (digitsN 2 t.day ++ r))
  refine matchDirs_cons e1 ?_
  rw [matchDirs_lit]
  obtain ⟨o2, e2⟩ := reads_d h5 (Nat.le_trans h6 h7) r
  exact matchDirs_cons e2 h

/-- The text of the time of day. -/
def timeText (t : DateTime) : PyStr :=
  'T' :: (digitsN 2 t.hour ++ ':' :: (digitsN 2 t.minute ++ ':' :: (digitsN 2 t.second ++ '.' :: digitsN 6 t.micro)))

theorem datetimeText_eq (pad : Bool) (t : DateTime) : datetimeText pad t = dateText pad t ++ (timeText t ++ offsetText t.offset) := by
  simp [datetimeText, timeText]

/-- The time is read from the text of a datetime. -/
theorem match_time (hv : t.valid = true) (ds : List Dir) (r : PyStr) (t0 : DateTime) (x : Option DateTime × PyStr)
    (h : matchDirs ds r (some { t0 with hour := t.hour, minute := t.minute, second := t.second, micro := t.micro }) = some x) :
    matchDirs (timeDirs ++ ds) (timeText t ++ r) (some t0) = some x := by
  obtain ⟨⟨_, _, _, _, _, _, h1, h2, h3, h4⟩, _⟩ := DateTime.valid_iff.1 hv
  simp only [timeText, timeDirs, List.cons_append, List.append_assoc, List.nil_append]
  rw [matchDirs_lit]
  obtain ⟨o1, e1⟩ := reads_H h1 (':' :: (digitsN 2 t.minute ++ ':' :: (digitsN 2 t.second ++ '.' :: (digitsN 6 t.micro ++ r))))
  refine matchDirs_cons e1 ?_
  rw [matchDirs_lit]
  obtain ⟨o2, e2⟩ := reads_M h2 (':' :: (digitsN 2 t.second ++ '.' :: (digitsN 6 t.micro ++ r)))
  refine matchDirs_cons e2 ?_
  rw [matchDirs_lit]
  obtain ⟨o3, e3⟩ := reads_S h3 ('.' :: (digitsN 6 t.micro ++ r))
  refine matchDirs_cons e3 ?_
  rw [matchDirs_lit]
  obtain ⟨o4, e4⟩ := reads_f h4 r
  exact matchDirs_cons e4 h

/-- Reading from the start. -/
def fresh : DateTime := {}

theorem strptime_of {ds : List Dir} {s : PyStr} {t : DateTime} (h : matchDirs ds s (some {}) = some (some t, [])) (hv : t.valid = true) :
    strptime ds s = some t := by
  rw [strptime, h]
  exact if_pos hv

theorem strptime_left {ds : List Dir} {s : PyStr} {t : Option DateTime} {r : PyStr} (h : matchDirs ds s (some {}) = some (t, r))
    (hr : r ≠ []) : strptime ds s = none := by
  rw [strptime, h]
  cases r with
  | nil => exact absurd rfl hr
  | cons _ _ => cases t <;> rfl

theorem strptime_no {ds : List Dir} {s : PyStr} (h : matchDirs ds s (some {}) = none) : strptime ds s = none := by
  rw [strptime, h]

/-! ### Texts of aware datetimes -/

theorem offsetText_ne {o : Int} : offsetText (some o) ≠ [] := by
  unfold offsetText
  intro h
  exact nomatch h

theorem aware_aware {o : Int} (hv : t.valid = true) (hp : pad = true ∨ 1000 ≤ t.year) (ho : t.offset = some o) :
    strptime (dateDirs ++ (timeDirs ++ [.z])) (datetimeText pad t) = some t := by
  refine strptime_of ?_ hv
  rw [datetimeText_eq]
  refine match_date hv hp _ _ _ _ (match_time hv _ _ _ _ ?_)
  obtain ⟨h1, h2⟩ := (DateTime.valid_iff.1 hv).2 o ho
  obtain ⟨os, e⟩ := reads_z h1 h2
  rw [ho]
  refine matchDirs_cons e ?_
  rw [matchDirs]
  obtain ⟨y, mo, d, hh, mi, s, us, off⟩ := t
  dsimp only at ho
  subst ho
  rfl

theorem aware_naive {o : Int} (hv : t.valid = true) (hp : pad = true ∨ 1000 ≤ t.year) (ho : t.offset = some o) :
    strptime (dateDirs ++ timeDirs) (datetimeText pad t) = none := by
  have h := match_date hv hp (timeDirs ++ []) (timeText t ++ offsetText t.offset) {} _ (match_time hv [] (offsetText t.offset) _ _ rfl)
  rw [List.append_nil, ← datetimeText_eq] at h
  refine strptime_left h ?_
  rw [ho]
  exact offsetText_ne

theorem aware_date (hv : t.valid = true) (hp : pad = true ∨ 1000 ≤ t.year) : strptime dateDirs (datetimeText pad t) = none := by
  have h := match_date hv hp [] (timeText t ++ offsetText t.offset) {} _ rfl
  rw [List.append_nil, ← datetimeText_eq] at h
  exact strptime_left h (nofun)

/-! ### Texts of naive datetimes -/

theorem naive_naive (hv : t.valid = true) (hp : pad = true ∨ 1000 ≤ t.year) (ho : t.offset = none) :
    strptime (dateDirs ++ timeDirs) (datetimeText pad t) = some t := by
  refine strptime_of ?_ hv
  have h := match_date hv hp (timeDirs ++ []) (timeText t ++ offsetText t.offset) {} _ (match_time hv [] (offsetText t.offset) _ _ rfl)
  rw [List.append_nil, ← datetimeText_eq] at h
  rw [h, ho]
  obtain ⟨y, mo, d, hh, mi, s, us, off⟩ := t
  dsimp only at ho
  subst ho
  rfl

theorem date_date (hv : t.valid = true) (hp : pad = true ∨ 1000 ≤ t.year) :
    strptime dateDirs (dateText pad t) = some { year := t.year, month := t.month, day := t.day } := by
  have h := match_date hv hp [] [] {} _ rfl
  rw [List.append_nil, List.append_nil] at h
  refine strptime_of h ?_
  obtain ⟨⟨h1, h2, h3, h4, h5, h6, _⟩, _⟩ := DateTime.valid_iff.1 hv
  exact DateTime.valid_iff.2 ⟨⟨h1, h2, h3, h4, h5, h6, by simp, by simp, by simp, by simp⟩, nofun⟩

/-! ### Formats which do not match -/

/-- A directive for a number of one or two digits. -/
def Dir.small : Dir → Bool
  | .m | .d | .H | .M | .S => true
  | _ => false

theorem mem_two {p q : Char → Bool} {s : PyStr} {v : Nat × PyStr} (h : v ∈ two p q s) : ∃ a b, s = a :: b :: v.2 := by
  unfold two at h
  split at h
  · split at h
    · rw [List.mem_singleton] at h; subst h; exact ⟨_, _, rfl⟩
    · exact nomatch h
  · exact nomatch h

theorem mem_one {p : Char → Bool} {s : PyStr} {v : Nat × PyStr} (h : v ∈ one p s) : ∃ a, s = a :: v.2 := by
  unfold one at h
  split at h
  · split at h
    · rw [List.mem_singleton] at h; subst h; exact ⟨_, rfl⟩
    · exact nomatch h
  · exact nomatch h

theorem small_reads {d : Dir} (hd : d.small = true) {a b : Char} {r : PyStr} {v} (h : v ∈ d.reads (a :: b :: r)) :
    v.2 = r ∨ v.2 = b :: r := by
  have key : ∀ (l : List (Nat × PyStr)) (f : Nat → DateTime → Option DateTime),
      (∀ w ∈ l, (∃ a' b', a :: b :: r = a' :: b' :: w.2) ∨ ∃ a', a :: b :: r = a' :: w.2) →
      v ∈ l.map (fun w => (f w.1, w.2)) → v.2 = r ∨ v.2 = b :: r := by
    intro l f hl hm
    obtain ⟨w, hw, rfl⟩ := List.mem_map.1 hm
    rcases hl w hw with ⟨_, _, e⟩ | ⟨_, e⟩
    · injection e with _ e; injection e with _ e; exact Or.inl e.symm
    · injection e with _ e; exact Or.inr e.symm
  cases d with
  | m =>
    refine key _ (fun n t => some { t with month := n }) (fun w hw => ?_) h
    simp only [List.mem_append] at hw
    rcases hw with (hw | hw) | hw
    · exact Or.inl (mem_two hw)
    · exact Or.inl (mem_two hw)
    · exact Or.inr (mem_one hw)
  | d =>
    refine key _ (fun n t => some { t with day := n }) (fun w hw => ?_) h
    simp only [List.mem_append] at hw
    rcases hw with (((hw | hw) | hw) | hw) | hw
    · exact Or.inl (mem_two hw)
    · exact Or.inl (mem_two hw)
    · exact Or.inl (mem_two hw)
    · exact Or.inr (mem_one hw)
    · exact Or.inl (mem_two hw)
  | H =>
    refine key _ (fun n t => some { t with hour := n }) (fun w hw => ?_) h
    simp only [List.mem_append] at hw
    rcases hw with (hw | hw) | hw
    · exact Or.inl (mem_two hw)
    · exact Or.inl (mem_two hw)
    · exact Or.inr (mem_one hw)
  | M =>
    refine key _ (fun n t => some { t with minute := n }) (fun w hw => ?_) h
    simp only [List.mem_append] at hw
    rcases hw with hw | hw
    · exact Or.inl (mem_two hw)
    · exact Or.inr (mem_one hw)
  | S =>
    refine key _ (fun n t => some { t with second := n }) (fun w hw => ?_) h
    simp only [List.mem_append] at hw
    rcases hw with (hw | hw) | hw
    · exact Or.inl (mem_two hw)
    · exact Or.inl (mem_two hw)
    · exact Or.inr (mem_one hw)
  | lit _ | Y | f | z => exact nomatch hd

theorem digit_not : ∀ n, n < 10 → ∀ c ∈ ['-', 'T', ':', '.'], (digitChar n).toLower ≠ Char.toLower c := by decide

theorem small_none {d : Dir} (hd : d.small = true) {c : Char} (hc : c ∈ ['-', 'T', ':', '.']) {ds : List Dir} {n : Nat} {r : PyStr}
    (h : ∀ t, matchDirs (.lit c :: ds) r t = none) (t : Option DateTime) :
    matchDirs (d :: .lit c :: ds) (digitsN 2 n ++ r) t = none := by
  rw [matchDirs, List.findSome?_eq_none_iff]
  intro v hv
  rw [digitsN_two] at hv
  rcases small_reads hd hv with e | e
  · rw [e]; exact h _
  · rw [e]; exact matchDirs_lit_none (digit_not _ (Nat.mod_lt _ (by omega)) c hc)

theorem year_none {y : Nat} (hy : y ≤ 9999) {ds : List Dir} {r : PyStr} (h : ∀ t, matchDirs ds r t = none) (t : Option DateTime) :
    matchDirs (.Y :: ds) (digitsN 4 y ++ r) t = none := by
  rw [matchDirs, reads_Y hy, List.findSome?_cons, List.findSome?_nil]
  dsimp only
  rw [h]

theorem lit_none {c : Char} {ds : List Dir} {r : PyStr} (h : ∀ t, matchDirs ds r t = none) (t : Option DateTime) :
    matchDirs (.lit c :: ds) (c :: r) t = none := by
  rw [matchDirs_lit]; exact h t

theorem mem_fraction : ∀ (n acc scale : Nat) (s : PyStr) (v : Nat × PyStr), v ∈ fraction n acc scale s → v.2 <:+ s
  | 0, _, _, _, _, h => by simp [fraction] at h
  | n + 1, acc, scale, s, v, h => by
    cases s with
    | nil => simp [fraction] at h
    | cons c r =>
      rw [fraction] at h
      split at h
      · rw [List.mem_append, List.mem_singleton] at h
        rcases h with h | rfl
        · exact (mem_fraction n _ _ r v h).trans (List.suffix_cons c r)
        · exact List.suffix_cons c r
      · exact nomatch h

theorem dig_not_zone {c : Char} (h : isDig c = true) : c ≠ '+' ∧ c ≠ '-' ∧ c ≠ 'Z' := by
  refine ⟨?_, ?_, ?_⟩ <;> (rintro rfl; exact absurd h (by decide))

theorem zone_digits {s : PyStr} (h : ∀ c ∈ s, isDig c = true) : Dir.reads s .z = [] := by
  cases s with
  | nil => rfl
  | cons c r =>
    obtain ⟨h1, h2, h3⟩ := dig_not_zone (h c (List.mem_cons_self ..))
    unfold Dir.reads
    dsimp only
    split
    · next e => injection e with e _; exact absurd e h1
    · next e => injection e with e _; exact absurd e h2
    · next e => injection e with e _; exact absurd e h3
    · rfl

theorem frac_zone_none {s : PyStr} (h : ∀ c ∈ s, isDig c = true) (t : Option DateTime) : matchDirs [.f, .z] s t = none := by
  rw [matchDirs, List.findSome?_eq_none_iff]
  intro v hv
  obtain ⟨w, hw, rfl⟩ := List.mem_map.1 hv
  rw [matchDirs, zone_digits (fun c hc => h c ((mem_fraction _ _ _ _ _ hw).subset hc))]
  rfl

theorem naive_aware (hv : t.valid = true) (hp : pad = true ∨ 1000 ≤ t.year) (ho : t.offset = none) :
    strptime (dateDirs ++ (timeDirs ++ [.z])) (datetimeText pad t) = none := by
  refine strptime_no ?_
  have e : datetimeText pad t = digitsN 4 t.year ++ ('-' :: (digitsN 2 t.month ++ ('-' :: (digitsN 2 t.day ++ timeText t)))) := by
    rw [datetimeText_eq, dateText, yearText_four hp, ho]
    simp [offsetText]
  rw [e]
  simp only [dateDirs, timeDirs, timeText, List.cons_append, List.nil_append]
  refine year_none (DateTime.valid_iff.1 hv).1.2.1 (lit_none (small_none rfl (by decide) (lit_none (small_none rfl (by decide)
    (lit_none (small_none rfl (by decide) (lit_none (small_none rfl (by decide) (lit_none (small_none rfl (by decide)
    (lit_none fun x => ?_))))))))))) _
  exact frac_zone_none (digitsN_dig 6 _) x

theorem date_other (hv : t.valid = true) (hp : pad = true ∨ 1000 ≤ t.year) (ds : List Dir) :
    strptime (dateDirs ++ (timeDirs ++ ds)) (dateText pad t) = none := by
  refine strptime_no ?_
  have e : dateText pad t = digitsN 4 t.year ++ ('-' :: (digitsN 2 t.month ++ ('-' :: (digitsN 2 t.day ++ [])))) := by
    rw [dateText, yearText_four hp]
    simp
  rw [e]
  simp only [dateDirs, timeDirs, List.cons_append, List.nil_append]
  exact year_none (DateTime.valid_iff.1 hv).1.2.1 (lit_none (small_none rfl (by decide) (lit_none (small_none rfl (by decide)
    fun _ => matchDirs_lit_nil)))) _

/-! ## ASCII -/

theorem dig_ascii {c : Char} (h : isDig c = true) : c.toNat < 128 := by
  simp only [isDig, inRange, Bool.and_eq_true, decide_eq_true_eq] at h
  have := h.2
  have e : ('9' : Char).toNat = 57 := rfl
  omega

theorem ascii_digits (w n : Nat) : Ascii (digitsN w n) := fun c hc => dig_ascii (digitsN_dig w n c hc)

theorem ascii_append {a b : PyStr} (ha : Ascii a) (hb : Ascii b) : Ascii (a ++ b) := fun c hc =>
  (List.mem_append.1 hc).elim (ha c) (hb c)

theorem ascii_cons {x : Char} {b : PyStr} (hx : x.toNat < 128) (hb : Ascii b) : Ascii (x :: b) := fun c hc => by
  rcases List.mem_cons.1 hc with rfl | h
  · exact hx
  · exact hb c h

theorem ascii_nil : Ascii [] := fun _ h => nomatch h

theorem ascii_date (pad : Bool) (t : DateTime) : Ascii (dateText pad t) := by
  refine ascii_append ?_ (ascii_cons (by decide) (ascii_append (ascii_digits _ _) (ascii_cons (by decide) (ascii_digits _ _))))
  unfold yearText
  repeat' split
  all_goals exact ascii_digits _ _

theorem ascii_offset (o : Option Int) : Ascii (offsetText o) := by
  cases o with
  | none => exact ascii_nil
  | some o =>
    refine ascii_cons (by split <;> decide) (ascii_append (ascii_append (ascii_digits _ _) (ascii_digits _ _)) ?_)
    split
    · exact ascii_nil
    · refine ascii_append (ascii_digits _ _) ?_
      split
      · exact ascii_nil
      · exact ascii_cons (by decide) (ascii_digits _ _)

theorem ascii_datetime (pad : Bool) (t : DateTime) : Ascii (datetimeText pad t) := by
  rw [datetimeText_eq]
  refine ascii_append (ascii_date pad t) (ascii_append ?_ (ascii_offset _))
  exact ascii_cons (by decide) (ascii_append (ascii_digits _ _) (ascii_cons (by decide) (ascii_append (ascii_digits _ _)
    (ascii_cons (by decide) (ascii_append (ascii_digits _ _) (ascii_cons (by decide) (ascii_digits _ _)))))))

/-! ## Formats in turn -/

theorem findSome_agree {α β : Type} {f : α → Option β} {x : β} {l : List α} (h : ∀ a ∈ l, ∀ y, f a = some y → y = x) {a : α} (ha : a ∈ l)
    (hx : f a = some x) : l.findSome? f = some x := by
  cases e : l.findSome? f with
  | none => rw [List.findSome?_eq_none_iff] at e; exact absurd (hx.symm.trans (e a ha)) nofun
  | some y =>
    obtain ⟨b, hb, hy⟩ := List.exists_of_findSome?_eq_some e
    rw [h b hb y hy]

theorem dateOf_text {E : ParseEnv} {o : ParsingOptions} {s : PyStr} {ts : Int} (hn : NoOtherReading E o s ts)
    (h3 : ∀ f ∈ startOptions.dateFormats, ∀ x, E.parseDate s f = some x → x = ts) {f : PyStr} (hf : f ∈ o.dateFormats)
    (hx : E.parseDate s f = some ts) : dateOf E o (.str s) = some ts := by
  refine findSome_agree (fun g hg y hy => ?_) hf hx
  rcases hn g hg with h | h
  · exact h3 g h y hy
  · exact h y hy

/-- A reader of dates: as the model does it. -/
theorem reads_three {E : ParseEnv} (hE : E.ReadsDates) {s : PyStr} (hs : Ascii s) {ts : Int}
    (h1 : ∀ t, strptime (dateDirs ++ (timeDirs ++ [.z])) s = some t → toTimestamp t.epochUtc = ts)
    (h2 : ∀ t, strptime dateDirs s = some t → toTimestamp t.epochUtc = ts)
    (h3 : ∀ t, strptime (dateDirs ++ timeDirs) s = some t → toTimestamp t.epochUtc = ts) :
    ∀ f ∈ startOptions.dateFormats, ∀ x, E.parseDate s f = some x → x = ts := by
  intro f hf x hx
  have key : ∀ ds, parseFormat f = some ds → (∀ t, strptime ds s = some t → toTimestamp t.epochUtc = ts) → x = ts := by
    intro ds e h
    rw [hE f s ds e hs, readTimestamp, Option.map_eq_some_iff] at hx
    obtain ⟨t, ht, rfl⟩ := hx
    exact h t ht
  simp only [startOptions, List.mem_cons, List.not_mem_nil, or_false] at hf
  rcases hf with rfl | rfl | rfl
  · exact key _ format_aware h1
  · exact key _ format_date h2
  · exact key _ format_naive h3

theorem dateOf_datetime {E : ParseEnv} (hE : E.ReadsDates) {o : ParsingOptions} (hv : t.valid = true) (hp : pad = true ∨ 1000 ≤ t.year)
    (hf : (if t.offset.isSome then "%Y-%m-%dT%H:%M:%S.%f%z".toList else "%Y-%m-%dT%H:%M:%S.%f".toList) ∈ o.dateFormats)
    (hn : NoOtherReading E o (datetimeText pad t) (toTimestamp t.epochUtc)) :
    dateOf E o (.str (datetimeText pad t)) = some (toTimestamp t.epochUtc) := by
  cases ho : t.offset with
  | some z =>
    rw [ho] at hf
    refine dateOf_text hn (reads_three hE (ascii_datetime pad t) ?_ ?_ ?_) hf ?_
    · intro x hx; rw [aware_aware hv hp ho] at hx; cases hx; rfl
    · intro x hx; rw [aware_date hv hp] at hx; cases hx
    · intro x hx; rw [aware_naive hv hp ho] at hx; cases hx
    · refine (hE _ _ _ format_aware (ascii_datetime pad t)).trans ?_
      rw [readTimestamp, aware_aware hv hp ho]
      rfl
  | none =>
    rw [ho] at hf
    refine dateOf_text hn (reads_three hE (ascii_datetime pad t) ?_ ?_ ?_) hf ?_
    · intro x hx; rw [naive_aware hv hp ho] at hx; cases hx
    · intro x hx; rw [aware_date hv hp] at hx; cases hx
    · intro x hx; rw [naive_naive hv hp ho] at hx; cases hx; rfl
    · refine (hE _ _ _ format_naive (ascii_datetime pad t)).trans ?_
      rw [readTimestamp, naive_naive hv hp ho]
      rfl

theorem dateOf_date {E : ParseEnv} (hE : E.ReadsDates) {o : ParsingOptions} (hv : t.valid = true) (hp : pad = true ∨ 1000 ≤ t.year)
    (hf : "%Y-%m-%d".toList ∈ o.dateFormats)
    (hn : NoOtherReading E o (dateText pad t) (toTimestamp (DateTime.epochUtc { year := t.year, month := t.month, day := t.day }))) :
    dateOf E o (.str (dateText pad t)) = some (toTimestamp (DateTime.epochUtc { year := t.year, month := t.month, day := t.day })) := by
  have h0 := date_other hv hp []
  rw [List.append_nil] at h0
  refine dateOf_text hn (reads_three hE (ascii_date pad t) ?_ ?_ ?_) hf ?_
  · intro x hx; rw [date_other hv hp] at hx; cases hx
  · intro x hx; rw [date_date hv hp] at hx; cases hx; rfl
  · intro x hx; rw [h0] at hx; cases hx
  · refine (hE _ _ _ format_date (ascii_date pad t)).trans ?_
    rw [readTimestamp, date_date hv hp]
    rfl

/-! ## The calendar -/

theorem dbm_succ (y m : Nat) (h1 : 1 ≤ m) (h2 : m ≤ 12) : daysBeforeMonth y (m + 1) = daysBeforeMonth y m + daysInMonth y m := by
  interval_cases m <;> simp [daysBeforeMonth, daysInMonth] <;> (try (split <;> rfl))

theorem dby_succ (y : Nat) (h : 1 ≤ y) : daysBeforeYear (y + 1) = daysBeforeYear y + daysBeforeMonth y 13 := by
  have e : daysBeforeMonth y 13 = if isLeap y then 366 else 365 := by
    simp only [daysBeforeMonth, daysInMonth]
    cases isLeap y <;> rfl
  rw [e]
  obtain ⟨n, rfl⟩ : ∃ n, y = n + 1 := ⟨y - 1, by omega⟩
  have e1 : daysBeforeYear (n + 1 + 1) = (n + 1) * 365 + (n + 1) / 4 - (n + 1) / 100 + (n + 1) / 400 := rfl
  have e2 : daysBeforeYear (n + 1) = n * 365 + n / 4 - n / 100 + n / 400 := rfl
  rw [e1, e2]
  have h4 : (n + 1) / 4 = n / 4 + if (n + 1) % 4 = 0 then 1 else 0 := by split <;> omega
  have h100 : (n + 1) / 100 = n / 100 + if (n + 1) % 100 = 0 then 1 else 0 := by split <;> omega
  have h400 : (n + 1) / 400 = n / 400 + if (n + 1) % 400 = 0 then 1 else 0 := by split <;> omega
  have i1 : (n + 1) % 100 = 0 → (n + 1) % 4 = 0 := by omega
  have i2 : (n + 1) % 400 = 0 → (n + 1) % 100 = 0 := by omega
  have i3 : n / 100 ≤ n := Nat.div_le_self _ _
  rw [h4, h100, h400]
  clear h4 h100 h400 e1 e2 e
  generalize n / 4 = a at *
  generalize n / 100 = b at *
  generalize n / 400 = c at *
  by_cases c1 : (n + 1) % 4 = 0 <;> by_cases c2 : (n + 1) % 100 = 0 <;> by_cases c3 : (n + 1) % 400 = 0 <;>
    simp only [isLeap, c1, c2, c3, if_true, if_false, beq_self_eq_true, bne_self_eq_false, beq_iff_eq, bne_iff_ne, ne_eq, not_true_eq_false,
      not_false_eq_true, Bool.and_eq_true, Bool.or_eq_true, true_and, false_and, or_false, or_true, true_or, false_or, and_true, and_false] <;>
    first | omega | exact absurd (i1 c2) c1 | exact absurd (i2 c3) c2 | (rw [if_neg (by decide)]; omega)

theorem isLeap_iff (y : Nat) : isLeap y = (decide (400 ∣ y) || (decide (4 ∣ y) && !decide (100 ∣ y))) := by
  rw [Bool.eq_iff_iff]
  simp only [isLeap, Bool.and_eq_true, Bool.or_eq_true, beq_iff_eq, bne_iff_ne, ne_eq, decide_eq_true_eq, Bool.not_eq_true',
    decide_eq_false_iff_not]
  omega

theorem daysInMonth_eq {y m : Nat} (h1 : 1 ≤ m) (h2 : m ≤ 12) : daysInMonth y m = monthLength y m := by
  unfold monthLength
  rw [← isLeap_iff]
  unfold daysInMonth
  generalize isLeap y = b
  revert h1 h2
  obtain _ | _ | _ | _ | _ | _ | _ | _ | _ | _ | _ | _ | _ | n := m <;> intro h1 h2 <;> first | omega | (cases b <;> rfl)

theorem DateTime.valid_day {t : DateTime} (h : t.valid = true) : 1 ≤ t.day ∧ t.day ≤ monthLength t.year t.month := by
  unfold DateTime.valid at h
  rw [Bool.and_eq_true, decide_eq_true_eq] at h
  obtain ⟨⟨_, _, h1, h2, h3, h4, _⟩, _⟩ := h
  rw [daysInMonth_eq h1 h2] at h4
  exact ⟨h3, h4⟩

theorem ordinal_next {y m d : Nat} (hy : 1 ≤ y) (h1 : 1 ≤ m) (h2 : m ≤ 12) (hd : d ≤ monthLength y m) :
    ordinal (nextDay y m d).1 (nextDay y m d).2.1 (nextDay y m d).2.2 = ordinal y m d + 1 := by
  unfold nextDay
  rw [← daysInMonth_eq h1 h2] at hd ⊢
  split
  · simp only [ordinal]; omega
  · have e : d = daysInMonth y m := by omega
    subst e
    split
    · simp only [ordinal, dbm_succ y m h1 h2]; omega
    · have e : m = 12 := by omega
      subst e
      have : daysBeforeMonth y 13 = daysBeforeMonth y 12 + daysInMonth y 12 := dbm_succ y 12 (by omega) (by omega)
      simp only [ordinal, dby_succ y hy]
      have e0 : daysBeforeMonth (y + 1) 1 = 0 := rfl
      omega

end Splitgill
