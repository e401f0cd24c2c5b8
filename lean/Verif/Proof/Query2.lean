import Verif.Proof.Query
import Mathlib.Data.List.Lex
/-!
# What queries match
-/

namespace Splitgill

variable {E : ParseEnv} {o : ParsingOptions} {Q : QueryEnv}

/-! ## Numbers -/

theorem fl_isDouble {x : ℚ} (h : IsDouble x) : fl x = x := by
  have h1 := (fl_nearest x).2 x h
  rw [sub_self, abs_zero] at h1
  have h2 := abs_nonpos_iff.1 h1
  linarith

theorem isDouble_int {i : ℤ} (h : |i| ≤ 2 ^ 53) : IsDouble (i : ℚ) := by
  rcases lt_or_eq_of_le h with h | h
  · exact ⟨i, 0, h, by simp⟩
  · rcases abs_eq (by norm_num : (0 : ℤ) ≤ 2 ^ 53) |>.1 h with rfl | rfl
    · exact ⟨2 ^ 52, 1, by norm_num, by norm_num⟩
    · exact ⟨-2 ^ 52, 1, by norm_num, by norm_num⟩

theorem fl_mono {a b : ℚ} (h : a ≤ b) : fl a ≤ fl b := by
  rcases eq_or_lt_of_le h with rfl | h
  · exact le_rfl
  · by_contra hc
    rw [not_le] at hc
    have h1 := (fl_nearest a).2 _ (fl_nearest b).1
    have h2 := (fl_nearest b).2 _ (fl_nearest a).1
    generalize fl a = x at *
    generalize fl b = y at *
    rcases abs_cases (a - x) with ⟨e1, _⟩ | ⟨e1, _⟩ <;> rcases abs_cases (a - y) with ⟨e2, _⟩ | ⟨e2, _⟩ <;>
      rcases abs_cases (b - x) with ⟨e3, _⟩ | ⟨e3, _⟩ <;> rcases abs_cases (b - y) with ⟨e4, _⟩ | ⟨e4, _⟩ <;>
      rw [e1, e2] at h1 <;> rw [e3, e4] at h2 <;> linarith

theorem fl_zero : fl 0 = 0 := by simp [fl]

theorem number_conv (v : Value) : (parsedNumber E o v).bind esDouble = (numberOf E o v).map fl := by
  have hf : ∀ f : PyFloat, esDouble (.float f) = f.number?.map fl := by
    intro f
    cases f <;> simp [esDouble, PyFloat.number?, fl_zero]
  unfold parsedNumber numberOf
  split
  · rfl
  · rename_i f
    exact hf f
  · rename_i h1 h2
    rw [strValue_eq]
    split
    · exact absurd rfl (h1 _)
    · exact absurd rfl (h2 _)
    · cases h : E.toNumber (textOf E o _) with
      | none => rfl
      | some f => exact hf f

theorem numberOf_isDouble (hE : E.Floats) {v : Value} (hv : v.ExactNumber) {x : ℚ} (h : numberOf E o v = some x) :
    IsDouble x := by
  have hf : ∀ f : PyFloat, (∀ q, f = .fin q → IsDouble q) → f.number? = some x → IsDouble x := by
    intro f hq h
    cases f <;> simp [PyFloat.number?] at h
    · subst h; exact ⟨0, 0, by norm_num, by norm_num⟩
    · subst h; exact hq _ rfl
  unfold numberOf at h
  split at h
  · cases h; exact isDouble_int hv
  · rename_i f
    refine hf f ?_ h
    rintro q rfl
    exact hv
  · rw [Option.bind_eq_some_iff] at h
    obtain ⟨f, h1, h2⟩ := h
    refine hf f ?_ h2
    rintro q rfl
    exact hE _ _ h1

theorem num_conv (n : Num) : esDouble n.value = some (fl n.rat) := by cases n <;> rfl

theorem num_exact {n : Num} (h : n.value.ExactNumber) : fl n.rat = n.rat := by
  cases n with
  | int i => exact fl_isDouble (isDouble_int h)
  | float q => exact fl_isDouble h

/-! ## Other types -/

theorem keyword_conv (hn : 0 ≤ o.keywordLength) (v : Value) :
    (aget PType.keyword.name (parseValue E o v)).bind (esKeyword Q) = some (keywordOf Q E o v) := by
  rw [show PType.keyword.name = "_k".toList from rfl, aget_base (by decide), strValue_eq, pyTake, if_pos hn]
  rfl

theorem date_conv (v : Value) : (aget PType.date.name (parseValue E o v)).bind esDate = dateOf E o v := by
  rw [show PType.date.name = "_d".toList from rfl, aget_date, parsedDate, strValue_eq, dateOf]
  cases o.dateFormats.findSome? (E.parseDate (textOf E o v)) <;> rfl

theorem bool_conv (v : Value) : (aget PType.boolean.name (parseValue E o v)).bind esBool = boolOf E o v := by
  have hb : ∀ x : Option Bool, (x.map Value.bool).bind esBool = x := by intro x; cases x <;> rfl
  rw [show PType.boolean.name = "_b".toList from rfl, aget_bool, hb]
  have hm : ∀ s l, setMem strEq s l = true ↔ s ∈ l := fun s l => by simp [setMem, strEq]
  unfold parsedBool boolOf
  split
  · rfl
  · rename_i h
    split
    · exact absurd rfl (h _)
    · rw [strValue_eq]
      simp only [hm]

/-! ## Terms -/

theorem esTermValue_iff {α : Type} [DecidableEq α] {conv : Value → Option α} {s w : Value} {y : α} (hw : conv w = some y) :
    esTermValue conv s w = true ↔ conv s = some y := by
  unfold esTermValue
  rw [hw]
  cases h : conv s with
  | none => simp
  | some x => simp

theorem hasInField_congr {d : Dict} {field : PyStr} {P R : Value → Prop} (h : ∀ v, P v ↔ R v) :
    HasInField d field P ↔ HasInField d field R := by
  simp only [HasInField, h]

theorem exists_bind {α β : Type} {x : Option α} {f : α → Option β} {P : β → Prop} :
    (∃ s, x = some s ∧ ∃ y, f s = some y ∧ P y) ↔ ∃ y, x.bind f = some y ∧ P y := by
  cases x with
  | none => simp
  | some a => simp

section
variable {d : Dict} {pd : ParsedData} (hw : (Value.dict d).wf = true) (hf : FieldNames (.dict d))
  (h : parse E o d = .ok pd)
include hw hf h

theorem term_conv {α : Type} [DecidableEq α] {t : PType} (ht : t.queried) {conv : Value → Option α} {field : PyStr}
    {w : Value} {y : α} (hy : conv w = some y) :
    (esField (parsedPath field t) pd.parsed).1.any (fun s => esTermValue conv s w) = true ↔
      HasInField d field (fun v => (aget t.name (parseValue E o v)).bind conv = some y) := by
  rw [mem_esField hw hf h ht]
  refine hasInField_congr fun v => ?_
  simp only [esTermValue_iff hy, Option.bind_eq_some_iff]

theorem term_keyword (hn : 0 ≤ o.keywordLength) (field s : PyStr) :
    EsTerm.matches Q ⟨parsedPath field .keyword, .str s⟩ pd.parsed = true ↔
      HasInField d field (fun v => keywordOf Q E o v = Q.normalise s) := by
  have e := term_conv hw hf h (.inl rfl) (conv := esKeyword Q) (field := field) (w := .str s) (y := Q.normalise s) rfl
  unfold EsTerm.matches
  rw [esField_eq (.inl rfl)] at e ⊢
  dsimp only at e ⊢
  rw [e]
  refine hasInField_congr fun v => ?_
  rw [keyword_conv hn, Option.some_inj]

theorem term_number (field : PyStr) {w : Value} {y : ℚ} (hy : esDouble w = some (fl y)) :
    EsTerm.matches Q ⟨parsedPath field .number, w⟩ pd.parsed = true ↔
      HasInField d field (fun v => ∃ x, numberOf E o v = some x ∧ fl x = fl y) := by
  have e := term_conv hw hf h (.inr (.inl rfl)) (conv := esDouble) (field := field) (w := w) hy
  unfold EsTerm.matches
  rw [esField_eq (.inr (.inl rfl))] at e ⊢
  dsimp only at e ⊢
  rw [e]
  refine hasInField_congr fun v => ?_
  rw [show PType.number.name = "_n".toList from rfl, aget_number, number_conv, Option.map_eq_some_iff]

theorem term_date (field : PyStr) (t : ℤ) :
    EsTerm.matches Q ⟨parsedPath field .date, .int t⟩ pd.parsed = true ↔
      HasInField d field (fun v => dateOf E o v = some t) := by
  have e := term_conv hw hf h (.inr (.inr (.inl rfl))) (conv := esDate) (field := field) (w := .int t) (y := t) rfl
  unfold EsTerm.matches
  rw [esField_eq (.inr (.inr (.inl rfl)))] at e ⊢
  dsimp only at e ⊢
  rw [e]
  exact hasInField_congr fun v => by rw [date_conv]

theorem term_bool (field : PyStr) (b : Bool) :
    EsTerm.matches Q ⟨parsedPath field .boolean, .bool b⟩ pd.parsed = true ↔
      HasInField d field (fun v => boolOf E o v = some b) := by
  have e := term_conv hw hf h (.inr (.inr (.inr rfl))) (conv := esBool) (field := field) (w := .bool b) (y := b) rfl
  unfold EsTerm.matches
  rw [esField_eq (.inr (.inr (.inr rfl)))] at e ⊢
  dsimp only at e ⊢
  rw [e]
  exact hasInField_congr fun v => by rw [bool_conv]

end

/-! ## Ranges -/

theorem strLe_iff : ∀ a b : PyStr, strLe a b = true ↔ a ≤ b
  | [], b => by simp [strLe]
  | a :: s, [] => by simp [strLe]
  | a :: s, b :: t => by
    have h1 : a < b ↔ a.toNat < b.toNat := by
      rw [Char.lt_def, UInt32.lt_iff_toNat_lt]
      rfl
    have h2 : a = b ↔ a.toNat = b.toNat := by
      constructor
      · rintro rfl; rfl
      · intro h
        exact Char.ext (UInt32.toNat_inj.1 h)
    rw [List.cons_le_cons_iff, h1, h2, strLe, ← strLe_iff s t]
    split
    · simp [*]
    · split
      · rename_i h3; simp [h3]
      · rename_i h3 h4
        simp [h3, h4]

theorem esBound_iff {α β : Type} {conv : Value → Option α} {g : β → Value} {k : β → α} {b : Option β}
    (hc : ∀ a, b = some a → conv (g a) = some (k a)) {ok : α → Bool} {P : α → Prop} (hok : ∀ y, ok y = true ↔ P y) :
    esBound conv (b.map g) ok = true ↔ ∀ y, b.map k = some y → P y := by
  cases b with
  | none => simp [esBound]
  | some a =>
    simp [esBound, hc a rfl, hok]

theorem esRangeValue_iff {α β : Type} [LE α] [LT α] {le : α → α → Bool} (hle : ∀ a b, le a b = true ↔ a ≤ b)
    (hlt : ∀ a b : α, a < b ↔ ¬ b ≤ a) {conv : Value → Option α} {g : β → Value} {k : β → α} {b : Bounds β}
    (hc : ∀ a, b.Has a → conv (g a) = some (k a)) (s : Value) :
    esRangeValue le conv s (b.map g) = true ↔ ∃ x, conv s = some x ∧ (b.map k).Holds x := by
  unfold esRangeValue
  cases hs : conv s with
  | none => simp
  | some x =>
    have hnot : ∀ a b : α, (!le a b) = true ↔ b < a := by
      intro a b
      rw [hlt, ← hle]
      simp
    simp only [Bool.and_eq_true, Bounds.map]
    rw [esBound_iff (fun a ha => hc a (.inl ha)) (P := fun y => y ≤ x) (fun y => hle y x),
      esBound_iff (fun a ha => hc a (.inr (.inl ha))) (P := fun y => x < y) (fun y => hnot y x),
      esBound_iff (fun a ha => hc a (.inr (.inr (.inl ha)))) (P := fun y => y < x) (fun y => hnot x y),
      esBound_iff (fun a ha => hc a (.inr (.inr (.inr ha)))) (P := fun y => x ≤ y) (fun y => hle x y)]
    simp [Bounds.Holds, and_assoc]

section
variable {d : Dict} {pd : ParsedData} (hw : (Value.dict d).wf = true) (hf : FieldNames (.dict d))
  (h : parse E o d = .ok pd)
include hw hf h

theorem range_conv {α β : Type} [LE α] [LT α] {le : α → α → Bool} (hle : ∀ a b, le a b = true ↔ a ≤ b)
    (hlt : ∀ a b : α, a < b ↔ ¬ b ≤ a) {conv : Value → Option α} {g : β → Value} {k : β → α} {b : Bounds β}
    (hc : ∀ a, b.Has a → conv (g a) = some (k a)) {t : PType} (ht : t.queried) {field : PyStr} :
    (esField (parsedPath field t) pd.parsed).1.any (fun s => esRangeValue le conv s (b.map g)) = true ↔
      HasInField d field (fun v => ∃ x, (aget t.name (parseValue E o v)).bind conv = some x ∧ (b.map k).Holds x) := by
  rw [mem_esField hw hf h ht]
  refine hasInField_congr fun v => ?_
  simp only [esRangeValue_iff hle hlt hc]
  exact exists_bind

theorem range_keyword (hn : 0 ≤ o.keywordLength) (field : PyStr) (b : Bounds PyStr) :
    EsRange.matches Q ⟨parsedPath field .keyword, b.map Value.str⟩ pd.parsed = true ↔
      HasInField d field (fun v => (b.map Q.normalise).Holds (keywordOf Q E o v)) := by
  have e := range_conv hw hf h strLe_iff (fun a b => List.not_le.symm) (conv := esKeyword Q) (g := Value.str)
    (k := Q.normalise) (b := b) (fun _ _ => rfl) (.inl rfl) (field := field)
  unfold EsRange.matches
  rw [esField_eq (.inl rfl)] at e ⊢
  dsimp only at e ⊢
  rw [e]
  refine hasInField_congr fun v => ?_
  rw [keyword_conv hn]
  simp

theorem range_number (field : PyStr) (b : Bounds Num) :
    EsRange.matches Q ⟨parsedPath field .number, b.map Num.value⟩ pd.parsed = true ↔
      HasInField d field (fun v => ∃ x, numberOf E o v = some x ∧ (b.map (fun n => fl n.rat)).Holds (fl x)) := by
  have e := range_conv hw hf h (le := fun a b : ℚ => decide (a ≤ b)) (fun a b => by simp) (fun a b => by rw [not_le])
    (conv := esDouble) (g := Num.value) (k := fun n => fl n.rat) (b := b) (fun n _ => num_conv n) (.inr (.inl rfl))
    (field := field)
  unfold EsRange.matches
  rw [esField_eq (.inr (.inl rfl))] at e ⊢
  dsimp only at e ⊢
  rw [e]
  refine hasInField_congr fun v => ?_
  rw [show PType.number.name = "_n".toList from rfl, aget_number, number_conv]
  cases numberOf E o v <;> simp

theorem range_date (field : PyStr) (b : Bounds ℤ) :
    EsRange.matches Q ⟨parsedPath field .date, b.map Value.int⟩ pd.parsed = true ↔
      HasInField d field (fun v => ∃ t, dateOf E o v = some t ∧ b.Holds t) := by
  have e := range_conv hw hf h (le := fun a b : ℤ => decide (a ≤ b)) (fun a b => by simp) (fun a b => by rw [not_le])
    (conv := esDate) (g := Value.int) (k := id) (b := b) (fun n _ => rfl) (.inr (.inr (.inl rfl)))
    (field := field)
  unfold EsRange.matches
  rw [esField_eq (.inr (.inr (.inl rfl)))] at e ⊢
  dsimp only at e ⊢
  rw [e]
  refine hasInField_congr fun v => ?_
  rw [date_conv]
  simp [Bounds.map]

theorem range_bool (field : PyStr) (b : Bounds Bool) :
    EsRange.matches Q ⟨parsedPath field .boolean, b.map Value.bool⟩ pd.parsed = true ↔
      HasInField d field (fun v => ∃ x, boolOf E o v = some x ∧ b.Holds x) := by
  have e := range_conv hw hf h (le := fun a b : Bool => decide (a ≤ b)) (fun a b => by simp) (fun a b => by rw [not_le])
    (conv := esBool) (g := Value.bool) (k := id) (b := b) (fun n _ => rfl) (.inr (.inr (.inr rfl)))
    (field := field)
  unfold EsRange.matches
  rw [esField_eq (.inr (.inr (.inr rfl)))] at e ⊢
  dsimp only at e ⊢
  rw [e]
  refine hasInField_congr fun v => ?_
  rw [bool_conv]
  simp [Bounds.map]

end

end Splitgill
