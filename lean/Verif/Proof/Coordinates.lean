import Verif.Spec.Coordinates
import Verif.Proof.NumberText
import Verif.Proof.Time3
/-!
# Lemmas about coordinates
-/

namespace Splitgill

/-- A number is rounded to one float. -/
theorem IsRounded.unique {x r r' : ℚ} (h : IsRounded x r) (h' : IsRounded x r') : r = r' := by
  by_contra hne
  obtain ⟨m, k, e, h1, h2, h3, h4⟩ := h.2 r' h'.1 (fun e => hne e.symm)
  obtain ⟨m', k', e', g1, g2, g3, g4⟩ := h'.2 r h.1 hne
  have key : ∀ {a b : ℤ} {f : ℤ}, |a - b| = 1 → |(a : ℚ) * 2 ^ f - b * 2 ^ f| = 2 ^ f := by
    intro a b f hab
    have hp : (0 : ℚ) < 2 ^ f := by positivity
    rw [← sub_mul, abs_mul, abs_of_pos hp]
    have : |(a : ℚ) - b| = 1 := by exact_mod_cast hab
    rw [this, one_mul]
  have a1 : |r - r'| = 2 ^ e := by
    conv_lhs => rw [h1, h2]
    exact key h3
  have a2 : |r - r'| = 2 ^ e' := by
    rw [abs_sub_comm]
    conv_lhs => rw [g1, g2]
    exact key g3
  have he : e = e' := zpow_right_injective₀ (a := (2 : ℚ)) (by norm_num) (by norm_num) (a1.symm.trans a2)
  subst he
  have hp : (0 : ℚ) < 2 ^ e := by positivity
  have : (k : ℚ) = m' := mul_right_cancel₀ hp.ne' (h2.symm.trans g1)
  have hk : k = m' := by exact_mod_cast this
  subst hk
  obtain ⟨a, ha⟩ := h4
  obtain ⟨b, hb⟩ := g4
  rcases (abs_eq (by norm_num)).1 h3 with h | h <;> omega

theorem fl_rounded (x : ℚ) : IsRounded x (fl x) := ⟨fl_nearest x, fun _ hs hne => fl_tie hs hne⟩

theorem floatElement_iff (v : Value) (x : ℚ) : floatElement v = some x ↔ NumberValue v x := by
  constructor
  · intro h
    cases v with
    | str s =>
      cases e : textNumber s with
      | none =>
        have h : (textNumber s).map _ = some x := h
        rw [e] at h
        cases h
      | some y =>
        have h : (textNumber s).map _ = some x := h
        rw [e] at h
        cases h
        exact .text s y.1 y.2 _ (textNumber_iff.1 e) (fl_rounded _)
    | int i =>
      cases h
      exact .int i _ (fl_rounded _)
    | float f =>
      cases f with
      | fin q => cases h; exact .float _
      | negZero => cases h; exact .negZero
      | nan => cases h
      | pinf => cases h
      | ninf => cases h
    | none => cases h
    | bool b => cases h
    | list l => cases h
    | dict d => cases h
  · intro h
    cases h with
    | int i _ h => exact congrArg some ((fl_rounded _).unique h)
    | float q => rfl
    | negZero => rfl
    | text s neg q _ h h' =>
      show (textNumber s).map _ = _
      rw [textNumber_iff.2 h]
      exact congrArg some ((fl_rounded _).unique h')

theorem floatValue_iff (v : Value) (hv : v.isText = false) (x : ℚ) : floatValue v = some x ↔ AnyNumber v x := by
  have key : ∀ v : Value, v.isText = false → (∀ b, v ≠ .bool b) → (floatValue v = some x ↔ AnyNumber v x) := by
    intro v hv hb
    have e : floatValue v = floatElement v := by
      cases v with
      | str s => cases hv
      | bool b => exact absurd rfl (hb b)
      | _ => rfl
    rw [e, floatElement_iff]
    constructor
    · exact .number v x
    · intro h
      cases h with
      | number _ _ h => exact h
      | true => exact absurd rfl (hb _)
      | false => exact absurd rfl (hb _)
  cases v with
  | bool b =>
    cases b with
    | true =>
      constructor
      · intro h
        cases h
        exact .true
      · intro h
        cases h with
        | number _ _ h => cases h
        | true => rfl
    | false =>
      constructor
      · intro h
        cases h
        exact .false
      · intro h
        cases h with
        | number _ _ h => cases h
        | false => rfl
  | str s => cases hv
  | none => exact key _ rfl (by intro b h; cases h)
  | int i => exact key _ rfl (by intro b h; cases h)
  | float f => exact key _ rfl (by intro b h; cases h)
  | list l => exact key _ rfl (by intro b h; cases h)
  | dict d => exact key _ rfl (by intro b h; cases h)

theorem isText_iff (v : Value) : v.isText = true ↔ ∃ s, v = .str s := by
  cases v <;> simp [Value.isText]

/-- What `Point` reads. -/
theorem readPoint_iff (lon lat : Value) (p : Shape) : readPoint lon lat = some p ↔ ∃ x y, Coordinates lon lat x y ∧ p = .point [⟨x, y, []⟩] := by
  unfold readPoint
  dsimp only
  by_cases ht : (lon.isText || lat.isText) = true
  · rw [if_pos ht]
    have ht' : (∃ s, lon = .str s) ∨ ∃ s, lat = .str s := by
      rwa [Bool.or_eq_true, isText_iff, isText_iff] at ht
    constructor
    · intro h
      cases e1 : floatElement lon with
      | none => rw [e1] at h; cases h
      | some x =>
        cases e2 : floatElement lat with
        | none => rw [e1, e2] at h; cases h
        | some y =>
          rw [e1, e2] at h
          cases h
          have h1 := (floatElement_iff _ _).1 e1
          have h2 := (floatElement_iff _ _).1 e2
          exact ⟨x, y, ⟨.number _ _ h1, .number _ _ h2, fun _ => ⟨h1, h2⟩⟩, rfl⟩
    · rintro ⟨x, y, ⟨-, -, h⟩, rfl⟩
      rw [(floatElement_iff _ _).2 (h ht').1, (floatElement_iff _ _).2 (h ht').2]
  · rw [if_neg ht]
    rw [Bool.or_eq_true, not_or, Bool.not_eq_true, Bool.not_eq_true] at ht
    constructor
    · intro h
      cases e1 : floatValue lon with
      | none => rw [e1] at h; cases h
      | some x =>
        cases e2 : floatValue lat with
        | none => rw [e1, e2] at h; cases h
        | some y =>
          rw [e1, e2] at h
          cases h
          refine ⟨x, y, ⟨(floatValue_iff _ ht.1 _).1 e1, (floatValue_iff _ ht.2 _).1 e2, ?_⟩, rfl⟩
          rintro (⟨s, rfl⟩ | ⟨s, rfl⟩)
          · cases ht.1
          · cases ht.2
    · rintro ⟨x, y, ⟨h1, h2, -⟩, rfl⟩
      rw [(floatValue_iff _ ht.1 _).2 h1, (floatValue_iff _ ht.2 _).2 h2]

/-- What is read as a radius. -/
theorem readRadius_iff (v : Value) (x : ℚ) : readRadius v = some x ↔ AnyNumber v x := by
  cases v with
  | str s =>
    have : readRadius (.str s) = floatElement (.str s) := rfl
    rw [this, floatElement_iff]
    constructor
    · exact .number _ x
    · intro h
      cases h with
      | number _ _ h => exact h
  | none => exact floatValue_iff .none rfl x
  | bool b => exact floatValue_iff (.bool b) rfl x
  | int i => exact floatValue_iff (.int i) rfl x
  | float f => exact floatValue_iff (.float f) rfl x
  | list l => exact floatValue_iff (.list l) rfl x
  | dict d => exact floatValue_iff (.dict d) rfl x

theorem AnyNumber.double {v : Value} {x : ℚ} (hv : v.Plain) (h : AnyNumber v x) : IsDouble x := by
  cases h with
  | number _ _ h =>
    cases h with
    | int _ _ h => exact h.1.1
    | float q => exact hv
    | negZero => exact ⟨0, 0, by norm_num, by norm_num⟩
    | text _ _ _ _ _ h => exact h.1.1
  | true => exact ⟨1, 0, by norm_num, by norm_num⟩
  | false => exact ⟨0, 0, by norm_num, by norm_num⟩

end Splitgill
