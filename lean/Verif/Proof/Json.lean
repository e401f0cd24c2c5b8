import Verif.Spec.Json
import Verif.Proof.Names3
import Mathlib.Tactic.IntervalCases
/-!
# Lemmas about writing and reading JSON
-/

namespace Splitgill

mutual
/-- The finite floats of a value are kept. -/
def FloatsKept (F : FloatText) : Value → Prop
  | .float f => f = .nan ∨ f = .pinf ∨ f = .ninf ∨ F.Keeps f
  | .list l => FloatsKeptList F l
  | .dict d => FloatsKeptDict F d
  | _ => True
def FloatsKeptList (F : FloatText) : List Value → Prop
  | [] => True
  | v :: r => FloatsKept F v ∧ FloatsKeptList F r
def FloatsKeptDict (F : FloatText) : Dict → Prop
  | [] => True
  | (_, v) :: r => FloatsKept F v ∧ FloatsKeptDict F r
end

/-! ## Strings -/

theorem small_char {c : Char} (h : c.toNat < 32) : ∃ n < 32, c = Char.ofNat n := ⟨c.toNat, h, by simp⟩

theorem escape_small : ∀ n < 32, '\n' ∉ jsonEscape (Char.ofNat n) ∧ ∀ rest s r, jsonString rest = some (s, r) →
    jsonString (jsonEscape (Char.ofNat n) ++ rest) = some (Char.ofNat n :: s, r) := by
  intro n hn
  interval_cases n <;>
  · refine ⟨by decide, fun rest s r h => ?_⟩
    first
    | (change jsonString ('\\' :: 'u' :: '0' :: '0' :: _ :: _ :: rest) = _
       rw [jsonString, h]
       rfl)
    | (change jsonString ('\\' :: _ :: rest) = _
       rw [jsonString.eq_4 _ _ (by intro a b c d r e; cases e), h]
       rfl)

theorem escape_char (c : Char) : '\n' ∉ jsonEscape c ∧ ∀ rest s r, jsonString rest = some (s, r) →
    jsonString (jsonEscape c ++ rest) = some (c :: s, r) := by
  by_cases hs : c.toNat < 32
  · obtain ⟨n, hn, rfl⟩ := small_char hs
    exact escape_small n hn
  · by_cases hq : c = '"'
    · subst hq
      refine ⟨by decide, fun rest s r h => ?_⟩
      change jsonString ('\\' :: '"' :: rest) = _
      rw [jsonString.eq_4 _ _ (by intro a b c d r e; cases e), h]
      rfl
    · by_cases hb : c = '\\'
      · subst hb
        refine ⟨by decide, fun rest s r h => ?_⟩
        change jsonString ('\\' :: '\\' :: rest) = _
        rw [jsonString.eq_4 _ _ (by intro a b c d r e; cases e), h]
        rfl
      · have e : jsonEscape c = [c] := by
          unfold jsonEscape
          rw [if_neg hq, if_neg hb, if_neg (by omega), if_neg (by omega), if_neg (by omega), if_neg (by omega), if_neg (by omega),
            if_neg hs]
        rw [e]
        refine ⟨?_, fun rest s r h => ?_⟩
        · intro h
          rw [List.mem_singleton] at h
          subst h
          exact hs (by decide)
        · rw [List.singleton_append, jsonString_char hq hb (by omega), h]

theorem jsonString_escaped (rest : PyStr) : ∀ s : PyStr, jsonString (s.flatMap jsonEscape ++ '"' :: rest) = some (s, rest)
  | [] => jsonString_quote rest
  | c :: s => by
    rw [List.flatMap_cons, List.append_assoc]
    exact (escape_char c).2 _ _ _ (jsonString_escaped rest s)

theorem jsonStr_newline (s : PyStr) : '\n' ∉ jsonStr s := by
  unfold jsonStr
  simp only [List.mem_cons, List.mem_append, List.mem_flatMap, not_or, not_exists, not_and]
  exact ⟨by decide, fun c _ => (escape_char c).1, by decide, by simp⟩

theorem jsonString_str (s rest : PyStr) : jsonString ((jsonStr s ++ rest).tail) = some (s, rest) := by
  unfold jsonStr
  simp only [List.cons_append, List.tail_cons, List.append_assoc, List.nil_append]
  exact jsonString_escaped rest s

theorem plain_escaped {s : PyStr} (h : PlainStr s) : s.flatMap jsonEscape = s := by
  induction s with
  | nil => rfl
  | cons c s ih =>
    obtain ⟨h1, h2, h3⟩ := h c List.mem_cons_self
    rw [List.flatMap_cons, ih (fun x hx => h x (List.mem_cons_of_mem _ hx))]
    unfold jsonEscape
    rw [if_neg h1, if_neg h2, if_neg (by omega), if_neg (by omega), if_neg (by omega), if_neg (by omega), if_neg (by omega),
      if_neg (by omega)]
    rfl

/-! ## Numbers -/

/-- What may come after a number. -/
def NumEnd (rest : PyStr) : Prop := ∀ c s, rest = c :: s → isNumChar c = false

theorem takeWhile_num {s rest : PyStr} (hs : ∀ c ∈ s, isNumChar c = true) (hr : NumEnd rest) :
    (s ++ rest).takeWhile isNumChar = s ∧ (s ++ rest).dropWhile isNumChar = rest := by
  induction s with
  | nil =>
    cases rest with
    | nil => exact ⟨rfl, rfl⟩
    | cons c r => simp [List.takeWhile_cons, List.dropWhile_cons, hr c r rfl]
  | cons c s ih =>
    obtain ⟨h1, h2⟩ := ih (fun x hx => hs x (List.mem_cons_of_mem _ hx))
    simp [List.takeWhile_cons, List.dropWhile_cons, hs c List.mem_cons_self, h1, h2]

theorem readValue_num {F : FloatText} {n : Nat} {c : Char} {s : PyStr} (h : c.isDigit = true ∨ c = '-') :
    readValue F (n + 1) (c :: s) =
      (readNumber F ((c :: s).takeWhile isNumChar)).map (fun v => (v, (c :: s).dropWhile isNumChar)) := by
  rw [readValue]
  all_goals
    intro s e
    cases e
    rcases h with h | h <;> exact absurd h (by decide)

theorem readValue_number {F : FloatText} {n : Nat} {t rest : PyStr} {v : Value} (ht : ∀ c ∈ t, isNumChar c = true)
    (h1 : ∃ c s, t = c :: s ∧ (c.isDigit = true ∨ c = '-')) (hv : readNumber F t = some v) (hr : NumEnd rest) :
    readValue F (n + 1) (t ++ rest) = some (v, rest) := by
  obtain ⟨a, b⟩ := takeWhile_num ht hr
  obtain ⟨c, s, rfl, hc⟩ := h1
  rw [List.cons_append] at *
  rw [readValue_num hc, a, b, hv]
  rfl

theorem digits_all (n : Nat) : (Nat.toDigits 10 n).all Char.isDigit = true := by
  rw [List.all_eq_true]
  intro c hc
  exact Nat.isDigit_of_mem_toDigits (b := 10) (by omega) (by omega) hc

theorem digits_ne (n : Nat) : Nat.toDigits 10 n ≠ [] := Nat.toDigits_ne_nil

theorem readNumber_int (F : FloatText) (i : Int) : readNumber F (intStr i) = some (.int i) := by
  cases i with
  | ofNat n =>
    rw [intStr]
    unfold readNumber
    split
    · rename_i ds e
      have := digits_dash n
      rw [e] at this
      exact absurd List.mem_cons_self this
    · rw [if_pos ⟨digits_ne n, digits_all n⟩, Nat.ofDigitChars_ten_toDigits]
      rfl
  | negSucc n =>
    rw [intStr, readNumber, if_pos ⟨digits_ne _, digits_all _⟩, Nat.ofDigitChars_ten_toDigits]
    rfl

theorem intStr_chars (i : Int) : (∀ c ∈ intStr i, isNumChar c = true) ∧ ∃ c s, intStr i = c :: s ∧ (c.isDigit = true ∨ c = '-') := by
  have hd : ∀ n, ∀ c ∈ Nat.toDigits 10 n, c.isDigit = true := fun n => List.all_eq_true.1 (digits_all n)
  cases i with
  | ofNat n =>
    refine ⟨fun c hc => ?_, ?_⟩
    · rw [isNumChar, hd n c hc]; rfl
    · cases e : Nat.toDigits 10 n with
      | nil => exact absurd e (digits_ne n)
      | cons c s => exact ⟨c, s, e, .inl (hd n c (by rw [e]; exact List.mem_cons_self))⟩
  | negSucc n =>
    refine ⟨fun c hc => ?_, '-', _, rfl, .inr rfl⟩
    rw [intStr, List.mem_cons] at hc
    rcases hc with rfl | hc
    · decide
    · rw [isNumChar, hd _ c hc]; rfl

theorem readNumber_float {F : FloatText} {f : PyFloat} (h : F.Keeps f) : readNumber F (F.write f) = some (.float f) := by
  obtain ⟨c, hc, hp⟩ := h.float
  have hnd : c.isDigit = false := by rcases hp with rfl | rfl | rfl <;> decide
  have hnm : c ≠ '-' := by rcases hp with rfl | rfl | rfl <;> decide
  have hall : ∀ ds : PyStr, c ∈ ds → ¬ (ds ≠ [] ∧ ds.all Char.isDigit = true) := by
    rintro ds hm ⟨_, ha⟩
    rw [List.all_eq_true.1 ha c hm] at hnd
    cases hnd
  unfold readNumber
  split
  · rename_i ds e
    rw [e, List.mem_cons] at hc
    rw [if_neg (hall ds (hc.resolve_left hnm)), h.read]
    rfl
  · rw [if_neg (hall _ hc), h.read]
    rfl

/-! ## Values -/

theorem numEnd_cons {c : Char} {s : PyStr} (h : isNumChar c = false) : NumEnd (c :: s) := by
  intro c' s' e
  cases e
  exact h

/-- A value does not start with a closing bracket. -/
theorem dumps_start {F : FloatText} {v : Value} (h : FloatsKept F v) : ∃ c s, dumps F v = c :: s ∧ c ≠ ']' := by
  cases v with
  | none => exact ⟨_, _, rfl, by decide⟩
  | bool b => cases b <;> exact ⟨_, _, rfl, by decide⟩
  | int i =>
    obtain ⟨_, c, s, e, hc⟩ := intStr_chars i
    refine ⟨c, s, by rw [dumps]; exact e, ?_⟩
    rintro rfl
    rcases hc with hc | hc <;> exact absurd hc (by decide)
  | float f =>
    have key : F.Keeps f → ∃ c s, F.write f = c :: s ∧ c ≠ ']' := by
      intro h
      obtain ⟨c, s, e, hc⟩ := h.first
      refine ⟨c, s, e, ?_⟩
      rintro rfl
      rcases hc with hc | hc <;> exact absurd hc (by decide)
    rw [FloatsKept] at h
    cases f with
    | nan => exact ⟨_, _, rfl, by decide⟩
    | pinf => exact ⟨_, _, rfl, by decide⟩
    | ninf => exact ⟨_, _, rfl, by decide⟩
    | negZero => exact key (by simpa using h)
    | fin q => exact key (by simpa using h)
  | str s => exact ⟨_, _, rfl, by decide⟩
  | list l => cases l <;> exact ⟨_, _, rfl, by decide⟩
  | dict d => rcases d with _ | ⟨⟨k, v⟩, d⟩ <;> exact ⟨_, _, rfl, by decide⟩

theorem readValue_float {F : FloatText} {n : Nat} {f : PyFloat} {rest : PyStr} (h : F.Keeps f) (hr : NumEnd rest) :
    readValue F (n + 1) (F.write f ++ rest) = some (.float f, rest) :=
  readValue_number h.chars h.first (readNumber_float h) hr

theorem pos_fuel {n : Nat} {s : PyStr} (h1 : s ≠ []) (h : s.length ≤ n) : ∃ m, n = m + 1 := by
  cases n with
  | zero => exact absurd (List.eq_nil_of_length_eq_zero (by omega)) h1
  | succ m => exact ⟨m, rfl⟩

theorem readValue_list {F : FloatText} {n : Nat} {s s' : PyStr} {v : Value} (hs : ∃ c t, s = c :: t ∧ c ≠ ']')
    (h : readValue F n s = some (v, s')) :
    readValue F (n + 1) ('[' :: s) = (readMore F n s').map (fun x => (.list (v :: x.1), x.2)) := by
  obtain ⟨c, t, rfl, hc⟩ := hs
  rw [readValue]
  · rw [h]
  · intro s e
    cases e
    exact hc rfl

theorem readValue_dict {F : FloatText} {n : Nat} {k s s' : PyStr} {v : Value} (h : readValue F n s = some (v, s')) :
    readValue F (n + 1) ('{' :: (jsonStr k ++ ':' :: s)) = (readItems F n s').map (fun x => (.dict ((k, v) :: x.1), x.2)) := by
  have e : jsonStr k ++ ':' :: s = '"' :: (k.flatMap jsonEscape ++ '"' :: (':' :: s)) := by
    simp [jsonStr]
  rw [e, readValue, jsonString_escaped]
  simp only [h]

theorem readItems_cons {F : FloatText} {n : Nat} {k s s' : PyStr} {v : Value} (h : readValue F n s = some (v, s')) :
    readItems F (n + 1) (',' :: (jsonStr k ++ ':' :: s)) = (readItems F n s').map (fun x => ((k, v) :: x.1, x.2)) := by
  have e : jsonStr k ++ ':' :: s = '"' :: (k.flatMap jsonEscape ++ '"' :: (':' :: s)) := by
    simp [jsonStr]
  rw [e, readItems, jsonString_escaped]
  simp only [h]

theorem more_numEnd (F : FloatText) (l : List Value) (rest : PyStr) : NumEnd (dumpsMore F l ++ rest) := by
  cases l <;> exact numEnd_cons (by decide)

theorem items_numEnd (F : FloatText) (d : Dict) (rest : PyStr) : NumEnd (dumpsItems F d ++ rest) := by
  rcases d with _ | ⟨⟨k, v⟩, d⟩ <;> exact numEnd_cons (by decide)

mutual
theorem read_dumps (F : FloatText) : ∀ (v : Value) (n : Nat) (rest : PyStr), FloatsKept F v → NumEnd rest →
    (dumps F v).length ≤ n → readValue F n (dumps F v ++ rest) = some (v.sent, rest)
  | .none, n, rest, _, _, hn => by
    obtain ⟨m, rfl⟩ := pos_fuel (by simp [dumps]) hn
    rfl
  | .bool b, n, rest, _, _, hn => by
    obtain ⟨m, rfl⟩ := pos_fuel (by cases b <;> simp [dumps]) hn
    cases b <;> rfl
  | .int i, n, rest, _, hr, hn => by
    obtain ⟨h1, h2⟩ := intStr_chars i
    obtain ⟨m, rfl⟩ := pos_fuel (by rw [dumps]; obtain ⟨c, s, e, _⟩ := h2; rw [e]; simp) hn
    rw [dumps]
    exact readValue_number h1 h2 (readNumber_int F i) hr
  | .float .nan, n, rest, _, _, hn => by
    obtain ⟨m, rfl⟩ := pos_fuel (by simp [dumps]) hn
    rfl
  | .float .pinf, n, rest, _, _, hn => by
    obtain ⟨m, rfl⟩ := pos_fuel (by simp [dumps]) hn
    rfl
  | .float .ninf, n, rest, _, _, hn => by
    obtain ⟨m, rfl⟩ := pos_fuel (by simp [dumps]) hn
    rfl
  | .float .negZero, n, rest, h, hr, hn => by
    have hk : F.Keeps .negZero := by simpa [FloatsKept] using h
    obtain ⟨m, rfl⟩ := pos_fuel (by rw [dumps]; obtain ⟨c, s, e, _⟩ := hk.first; rw [e]; simp; all_goals simp) hn
    rw [dumps]
    · exact readValue_float hk hr
    all_goals simp
  | .float (.fin q), n, rest, h, hr, hn => by
    have hk : F.Keeps (.fin q) := by simpa [FloatsKept] using h
    obtain ⟨m, rfl⟩ := pos_fuel (by rw [dumps]; obtain ⟨c, s, e, _⟩ := hk.first; rw [e]; simp; all_goals simp) hn
    rw [dumps]
    · exact readValue_float hk hr
    all_goals simp
  | .str s, n, rest, _, _, hn => by
    obtain ⟨m, rfl⟩ := pos_fuel (by simp [dumps, jsonStr]) hn
    have e : dumps F (.str s) ++ rest = '"' :: (s.flatMap jsonEscape ++ '"' :: rest) := by simp [dumps, jsonStr]
    rw [e, readValue, jsonString_escaped]
    rfl
  | .list [], n, rest, _, _, hn => by
    obtain ⟨m, rfl⟩ := pos_fuel (by simp [dumps]) hn
    rfl
  | .list (v :: r), n, rest, h, hr, hn => by
    obtain ⟨m, rfl⟩ := pos_fuel (by simp [dumps]) hn
    rw [FloatsKept, FloatsKeptList] at h
    rw [dumps, List.length_cons, List.length_append] at hn
    rw [dumps, List.cons_append, List.append_assoc]
    have hv := read_dumps F v m (dumpsMore F r ++ rest) h.1 (more_numEnd F r rest) (by omega)
    obtain ⟨c, s, e, hc⟩ := dumps_start h.1
    rw [readValue_list ⟨c, s ++ (dumpsMore F r ++ rest), by rw [e]; rfl, hc⟩ hv, read_more F r m rest h.2 hr (by omega)]
    rfl
  | .dict [], n, rest, _, _, hn => by
    obtain ⟨m, rfl⟩ := pos_fuel (by simp [dumps]) hn
    rfl
  | .dict ((k, v) :: r), n, rest, h, hr, hn => by
    obtain ⟨m, rfl⟩ := pos_fuel (by simp [dumps]) hn
    rw [FloatsKept, FloatsKeptDict] at h
    rw [dumps] at hn
    simp only [List.length_cons, List.length_append] at hn
    have hv := read_dumps F v m (dumpsItems F r ++ rest) h.1 (items_numEnd F r rest) (by omega)
    have e : dumps F (.dict ((k, v) :: r)) ++ rest = '{' :: (jsonStr k ++ ':' :: (dumps F v ++ (dumpsItems F r ++ rest))) := by
      simp [dumps]
    rw [e, readValue_dict hv, read_items F r m rest h.2 hr (by omega)]
    rfl
theorem read_more (F : FloatText) : ∀ (l : List Value) (n : Nat) (rest : PyStr), FloatsKeptList F l → NumEnd rest →
    (dumpsMore F l).length ≤ n → readMore F n (dumpsMore F l ++ rest) = some (sentList l, rest)
  | [], n, rest, _, _, hn => by
    obtain ⟨m, rfl⟩ := pos_fuel (by simp [dumpsMore]) hn
    rfl
  | v :: r, n, rest, h, hr, hn => by
    obtain ⟨m, rfl⟩ := pos_fuel (by simp [dumpsMore]) hn
    rw [FloatsKeptList] at h
    rw [dumpsMore, List.length_cons, List.length_append] at hn
    have hv := read_dumps F v m (dumpsMore F r ++ rest) h.1 (more_numEnd F r rest) (by omega)
    rw [dumpsMore, List.cons_append, List.append_assoc, readMore, hv]
    dsimp only
    rw [read_more F r m rest h.2 hr (by omega)]
    rfl
theorem read_items (F : FloatText) : ∀ (d : Dict) (n : Nat) (rest : PyStr), FloatsKeptDict F d → NumEnd rest →
    (dumpsItems F d).length ≤ n → readItems F n (dumpsItems F d ++ rest) = some (sentDict d, rest)
  | [], n, rest, _, _, hn => by
    obtain ⟨m, rfl⟩ := pos_fuel (by simp [dumpsItems]) hn
    rfl
  | (k, v) :: r, n, rest, h, hr, hn => by
    obtain ⟨m, rfl⟩ := pos_fuel (by simp [dumpsItems]) hn
    rw [FloatsKeptDict] at h
    rw [dumpsItems] at hn
    simp only [List.length_cons, List.length_append] at hn
    have hv := read_dumps F v m (dumpsItems F r ++ rest) h.1 (items_numEnd F r rest) (by omega)
    have e : dumpsItems F ((k, v) :: r) ++ rest = ',' :: (jsonStr k ++ ':' :: (dumps F v ++ (dumpsItems F r ++ rest))) := by
      simp [dumpsItems]
    rw [e, readItems_cons hv, read_items F r m rest h.2 hr (by omega)]
    rfl
end

/-- What is read of what was written. -/
theorem loads_dumps {F : FloatText} {v : Value} (h : FloatsKept F v) : loads F (dumps F v) = some v.sent := by
  have := read_dumps F v ((dumps F v).length + 1) [] h (by intro c s e; cases e) (by omega)
  rw [List.append_nil] at this
  rw [loads, this]

end Splitgill
