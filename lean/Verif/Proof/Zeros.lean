import Verif.Spec.Zeros
import Verif.Proof.Filter3
/-!
# Lemmas: negative zeros
-/

namespace Splitgill
open Splitgill.Props

variable {E : ParseEnv} {o : ParsingOptions} {Q : QueryEnv}

instance : LE Signed := ⟨fun a b => leSigned a b = true⟩
instance : LT Signed := ⟨fun a b => ¬ leSigned b a = true⟩

theorem signed_float (f : PyFloat) :
    esSigned (.float f) = some ⟨0, false⟩ ∧ f = .negZero ∨ esSigned (.float f) = f.number?.map (fun x => ⟨fl x, true⟩) ∧ f ≠ .negZero := by
  cases f <;> simp [esSigned, PyFloat.number?]

/-- The double of a value in the index. -/
theorem signed_conv (v : Value) :
    (parsedNumber E o v).bind esSigned = some ⟨0, false⟩ ∧ IsNegZero E o v ∨
    (parsedNumber E o v).bind esSigned = (numberOf E o v).map (fun x => ⟨fl x, true⟩) ∧ ¬ IsNegZero E o v := by
  unfold parsedNumber
  split
  · exact .inr ⟨rfl, fun h => h⟩
  · rename_i f
    exact signed_float f
  · rename_i h1 h2
    rw [strValue_eq]
    have hi : IsNegZero E o v ↔ E.toNumber (textOf E o v) = some .negZero := by
      unfold IsNegZero
      split
      · exact absurd rfl (h1 _)
      · exact absurd rfl (h2 _)
      · exact Iff.rfl
    have hn : numberOf E o v = (E.toNumber (textOf E o v)).bind PyFloat.number? := by
      unfold numberOf
      split
      · exact absurd rfl (h1 _)
      · exact absurd rfl (h2 _)
      · rfl
    rw [hi, hn]
    cases h : E.toNumber (textOf E o v) with
    | none => exact .inr ⟨rfl, by simp⟩
    | some f =>
      have := signed_float f
      simpa using this

theorem isNegZero_number {v : Value} (h : IsNegZero E o v) : numberOf E o v = some 0 := by
  unfold IsNegZero at h
  unfold numberOf
  split at h
  · exact h.elim
  · subst h; rfl
  · rename_i h1 h2
    split
    · exact absurd rfl (h1 _)
    · exact absurd rfl (h2 _)
    · rw [h]; rfl

theorem num_signed (n : Num) : esSigned n.value = some ⟨fl n.rat, true⟩ := by cases n <;> rfl

theorem bounds_map_map {α β γ : Type} (f : α → β) (g : β → γ) (b : Bounds α) : (b.map f).map g = b.map (g ∘ f) := by
  simp [Bounds.map]

theorem holds_plus (b : Bounds ℚ) (x : ℚ) : (b.map (fun y => (⟨y, true⟩ : Signed))).Holds ⟨x, true⟩ ↔ b.Holds x := by
  have h1 : ∀ a b : ℚ, (⟨a, true⟩ : Signed) ≤ ⟨b, true⟩ ↔ a ≤ b := fun a b => by
    show leSigned _ _ = true ↔ _
    simp [leSigned, le_iff_lt_or_eq]
  have h2 : ∀ a b : ℚ, (⟨a, true⟩ : Signed) < ⟨b, true⟩ ↔ a < b := fun a b => by
    show ¬ ((⟨b, true⟩ : Signed) ≤ ⟨a, true⟩) ↔ _
    rw [h1, not_le]
  simp [Bounds.Holds, Bounds.map, h1, h2]

theorem holds_minus (b : Bounds ℚ) : (b.map (fun y => (⟨y, true⟩ : Signed))).Holds ⟨0, false⟩ ↔ b.HoldsNegZero := by
  have h1 : ∀ y : ℚ, (⟨y, true⟩ : Signed) ≤ ⟨0, false⟩ ↔ y < 0 := fun y => by
    show leSigned _ _ = true ↔ _
    simp [leSigned]
  have h2 : ∀ y : ℚ, (⟨0, false⟩ : Signed) ≤ ⟨y, true⟩ ↔ 0 ≤ y := fun y => by
    show leSigned _ _ = true ↔ _
    simp [leSigned, le_iff_lt_or_eq]
  have h3 : ∀ y : ℚ, (⟨y, true⟩ : Signed) < ⟨0, false⟩ ↔ y < 0 := fun y => by
    show ¬ ((⟨0, false⟩ : Signed) ≤ ⟨y, true⟩) ↔ _
    rw [h2, not_le]
  have h4 : ∀ y : ℚ, (⟨0, false⟩ : Signed) < ⟨y, true⟩ ↔ 0 ≤ y := fun y => by
    show ¬ ((⟨y, true⟩ : Signed) ≤ ⟨0, false⟩) ↔ _
    rw [h1, not_lt]
  simp [Bounds.Holds, Bounds.map, Bounds.HoldsNegZero, h1, h2, h3, h4]

section
variable {d : Dict} {pd : ParsedData} (hw : (Value.dict d).wf = true) (hf : FieldNames (.dict d))
  (h : parse E o d = .ok pd)
include hw hf h

theorem term_signed (field : PyStr) {w : Value} {y : Signed} (hy : esSigned w = some y) :
    EsTerm.matchesSigned Q ⟨parsedPath field .number, w⟩ pd.parsed = true ↔
      HasInField d field (fun v => (parsedNumber E o v).bind esSigned = some y) := by
  have e := term_conv hw hf h (.inr (.inl rfl)) (conv := esSigned) (field := field) (w := w) hy
  unfold EsTerm.matchesSigned
  rw [esField_eq (.inr (.inl rfl))] at e ⊢
  dsimp only at e ⊢
  rw [e]
  refine hasInField_congr fun v => ?_
  rw [show PType.number.name = "_n".toList from rfl, aget_number]

theorem range_signed {β : Type} (field : PyStr) (b : Bounds β) (g : β → Value) (k : β → Signed) (hc : ∀ a, b.Has a → esSigned (g a) = some (k a)) :
    EsRange.matchesSigned Q ⟨parsedPath field .number, b.map g⟩ pd.parsed = true ↔
      HasInField d field (fun v => ∃ x, (parsedNumber E o v).bind esSigned = some x ∧ (b.map k).Holds x) := by
  have e := range_conv hw hf h (le := leSigned) (fun a b => Iff.rfl) (fun a b => Iff.rfl) (conv := esSigned) (g := g) (k := k) (b := b) hc
    (.inr (.inl rfl)) (field := field)
  unfold EsRange.matchesSigned
  rw [esField_eq (.inr (.inl rfl))] at e ⊢
  dsimp only at e ⊢
  rw [e]
  refine hasInField_congr fun v => ?_
  rw [show PType.number.name = "_n".toList from rfl, aget_number]

/-- A negative zero in a number field comes from one in the data. -/
theorem negZero_from (field : PyStr) (hz : Value.float .negZero ∈ esValues (.dict pd.parsed) (splitDots field ++ [PType.number.name])) :
    ∃ p v, getAt p (.dict d) = some v ∧ v.isIndexed = true ∧ IsNegZero E o v := by
  have e := mem_esField hw hf h (t := .number) (.inr (.inl rfl)) field (fun s => decide (esSigned s = some ⟨0, false⟩))
  rw [esField_eq (.inr (.inl rfl))] at e
  obtain ⟨p, v, _, g1, g2, s, g3, g4⟩ := e.1 (List.any_eq_true.2 ⟨_, hz, by decide⟩)
  refine ⟨p, v, g1, g2, ?_⟩
  rw [show PType.number.name = "_n".toList from rfl, aget_number] at g3
  have g4 := of_decide_eq_true g4
  rcases signed_conv (E := E) (o := o) v with ⟨_, h⟩ | ⟨h1, _⟩
  · exact h
  · rw [g3, Option.bind_some, g4] at h1
    cases hn : numberOf E o v <;> rw [hn] at h1 <;> simp at h1

end

/-! ## Without negative zeros -/

theorem signed_of_ne {s : Value} (h : s ≠ .float .negZero) : esSigned s = (esDouble s).map (fun x => ⟨x, true⟩) := by
  cases s with
  | float f => cases f <;> first | rfl | exact absurd rfl h
  | _ => rfl

theorem term_agree {s w : Value} (hs : s ≠ .float .negZero) (hw : w ≠ .float .negZero) :
    esTermValue esSigned s w = esTermValue esDouble s w := by
  unfold esTermValue
  rw [signed_of_ne hs, signed_of_ne hw]
  cases esDouble s <;> cases esDouble w <;> simp

theorem bound_agree {b : Option Value} (hb : b ≠ some (.float .negZero)) {f : Signed → Bool} {g : ℚ → Bool} (hfg : ∀ y, f ⟨y, true⟩ = g y) :
    esBound esSigned b f = esBound esDouble b g := by
  cases b with
  | none => rfl
  | some w =>
    have hw : w ≠ .float .negZero := fun e => hb (by rw [e])
    unfold esBound
    dsimp only
    rw [signed_of_ne hw]
    cases esDouble w <;> simp [hfg]

theorem le_plus (a b : ℚ) : leSigned ⟨a, true⟩ ⟨b, true⟩ = decide (a ≤ b) := by
  rw [Bool.eq_iff_iff]
  simp [leSigned, le_iff_lt_or_eq]

theorem range_agree {s : Value} {b : Bounds Value} (hs : s ≠ .float .negZero) (hb : ¬ b.Has (.float .negZero)) :
    esRangeValue leSigned esSigned s b = esRangeValue (fun a b : ℚ => decide (a ≤ b)) esDouble s b := by
  simp only [Bounds.Has, not_or] at hb
  unfold esRangeValue
  rw [signed_of_ne hs]
  cases esDouble s with
  | none => rfl
  | some x =>
    simp only [Option.map_some]
    rw [bound_agree hb.1 (fun y => le_plus y x), bound_agree hb.2.1 (fun y => by rw [le_plus y x]),
      bound_agree hb.2.2.1 (fun y => by rw [le_plus x y]), bound_agree hb.2.2.2 (fun y => le_plus x y)]

/-- The query does not ask for `-0.0`. -/
def EsQuery.NoNegZero : EsQuery → Prop
  | .term q => q.value ≠ .float .negZero
  | .range q => ¬ q.bounds.Has (.float .negZero)
  | _ => True

theorem EsQuery.agree {q : EsQuery} {parsed : Dict} (hq : q.NoNegZero) {field : PyStr} {t : PType} (hon : q.OnField field t)
    (hz : Value.float .negZero ∉ esValues (.dict parsed) (splitDots field ++ [PType.number.name])) :
    q.matchesSigned Q parsed = q.matches Q parsed := by
  have hne : ∀ s ∈ esValues (.dict parsed) (splitDots field ++ [PType.number.name]), s ≠ .float .negZero := fun s hs e => hz (e ▸ hs)
  cases hon with
  | term _ _ w ht =>
    show EsTerm.matchesSigned Q _ parsed = EsTerm.matches Q _ parsed
    unfold EsTerm.matchesSigned
    rw [esField_eq ht]
    cases t <;> try rfl
    unfold EsTerm.matches
    rw [esField_eq ht]
    dsimp only
    rw [Bool.eq_iff_iff, List.any_eq_true, List.any_eq_true]
    exact exists_congr fun s => and_congr_right fun hs => by rw [term_agree (hne s hs) hq]
  | range _ _ b ht =>
    show EsRange.matchesSigned Q _ parsed = EsRange.matches Q _ parsed
    unfold EsRange.matchesSigned
    rw [esField_eq ht]
    cases t <;> try rfl
    unfold EsRange.matches
    rw [esField_eq ht]
    dsimp only
    rw [Bool.eq_iff_iff, List.any_eq_true, List.any_eq_true]
    exact exists_congr fun s => and_congr_right fun hs => by rw [range_agree (hne s hs) hq]

end Splitgill
