import Verif.Spec.Options
/-! # Lemmas about sets and the options builder -/

namespace Splitgill

section
variable {α : Type} {eq : α → α → Bool}

theorem setMem_eq {x : α} {s : List α} : setMem eq x s = true ↔ ∃ y ∈ s, eq x y = true := by
  simp [setMem]

theorem setOf_foldl (hs : ∀ a b, eq a b = eq b a) : ∀ (l s : List α),
    (s ++ l).Pairwise (fun a b => eq a b = false) → l.foldl (fun s x => setAdd eq x s) s = s ++ l
  | [], s, _ => by simp
  | x :: l, s, h => by
    have hx : setMem eq x s = false := by
      rw [Bool.eq_false_iff]
      intro hm
      obtain ⟨y, hy, he⟩ := setMem_eq.1 hm
      have := (List.pairwise_append.1 h).2.2 y hy x (by simp)
      rw [hs] at this; rw [this] at he; cases he
    rw [List.foldl_cons, setAdd, hx]
    simp only [Bool.false_eq_true, if_false]
    rw [setOf_foldl hs l (s ++ [x]) (by simpa using h)]; simp

theorem setOf_eq (hs : ∀ a b, eq a b = eq b a) {l : List α} (h : l.Pairwise (fun a b => eq a b = false)) :
    setOf eq l = l := by
  have := setOf_foldl hs l [] (by simpa using h)
  simpa [setOf] using this

end

theorem strEq_comm (a b : PyStr) : strEq a b = strEq b a := by simp [strEq, eq_comm]
theorem hintEq_comm (a b : GeoFieldHint) : a.pyEq b = b.pyEq a := by simp [GeoFieldHint.pyEq, eq_comm]

theorem setOf_str {l : List PyStr} (h : l.Nodup) : setOf strEq l = l :=
  setOf_eq strEq_comm (h.imp (fun h => by simpa [strEq] using h))

theorem setOf_hint {l : List GeoFieldHint} (h : (l.map GeoFieldHint.latField).Nodup) :
    setOf GeoFieldHint.pyEq l = l := by
  apply setOf_eq hintEq_comm
  rw [List.Nodup, List.pairwise_map] at h
  exact h.imp (fun h => by simpa [GeoFieldHint.pyEq] using h)

theorem setAdd_str_nodup {x : PyStr} {s : List PyStr} (h : s.Nodup) : (setAdd strEq x s).Nodup := by
  unfold setAdd
  split
  · exact h
  · rename_i hm
    rw [List.nodup_append]
    refine ⟨h, by simp, ?_⟩
    intro a ha b hb e
    simp at hb; subst hb; subst e
    exact hm (setMem_eq.2 ⟨a, ha, by simp [strEq]⟩)

theorem mem_setAdd_str {x v : PyStr} {s : List PyStr} : v ∈ setAdd strEq x s ↔ v = x ∨ v ∈ s := by
  unfold setAdd
  split
  · rename_i hm
    obtain ⟨y, hy, he⟩ := setMem_eq.1 hm
    have : x = y := by simpa [strEq] using he
    subst this
    constructor
    · exact .inr
    · rintro (rfl | h)
      · exact hy
      · exact h
  · simp [or_comm]

theorem setAdd_discard {h : GeoFieldHint} {s : List GeoFieldHint} :
    setAdd GeoFieldHint.pyEq h (setDiscard GeoFieldHint.pyEq h s) =
      s.filter (fun y => decide (h.latField ≠ y.latField)) ++ [h] := by
  have e : setDiscard GeoFieldHint.pyEq h s = s.filter (fun y => decide (h.latField ≠ y.latField)) := by
    unfold setDiscard
    apply List.filter_congr
    intro y _; simp [GeoFieldHint.pyEq]
  rw [e, setAdd, if_neg]
  intro hm
  obtain ⟨y, hy, he⟩ := setMem_eq.1 hm
  rw [List.mem_filter] at hy
  simp [GeoFieldHint.pyEq] at he
  simp [he] at hy

/-- The builder state after the calls, as the specification says. -/
structure BuilderOk (lower : PyStr → PyStr) (b : Builder) (calls : List BuilderCall) (b' : Builder) : Prop where
  ok : OptionsOk b'
  hints : ∀ h, h ∈ b'.geoHints ↔ lastHint (b.geoHints.find? (fun g => decide (g.latField = h.latField))) h.latField calls = some h
  trues : ∀ v, v ∈ b'.trueValues ↔ addedTrue lower b.trueValues v calls
  falses : ∀ v, v ∈ b'.falseValues ↔ addedFalse lower b.falseValues v calls
  formats : ∀ v, v ∈ b'.dateFormats ↔ addedFormat b.dateFormats v calls
  kw : b'.keywordLength = lastKeywordLength b.keywordLength calls
  ff : b'.floatFormat = lastFloatFormat b.floatFormat calls

theorem find_hint {l : List GeoFieldHint} (hn : (l.map GeoFieldHint.latField).Nodup) (h : GeoFieldHint) :
    h ∈ l ↔ l.find? (fun g => decide (g.latField = h.latField)) = some h := by
  induction l with
  | nil => simp
  | cons x l ih =>
    rw [List.map_cons, List.nodup_cons] at hn
    rw [List.find?_cons, List.mem_cons]
    by_cases hx : x.latField = h.latField
    · simp only [hx, decide_true, Option.some.injEq]
      constructor
      · rintro (rfl | hm)
        · rfl
        · exact absurd (hx ▸ List.mem_map_of_mem hm) hn.1
      · intro e; exact .inl e.symm
    · simp only [hx, decide_false]
      rw [← ih hn.2]
      constructor
      · rintro (rfl | hm)
        · exact absurd rfl hx
        · exact hm
      · exact .inr

theorem optTruthy_some {x y : Option PyStr} : optTruthy x = y → ∀ s, y = some s ↔ (x = some s ∧ s ≠ []) := by
  rintro rfl s
  match x with
  | none => simp [optTruthy]
  | some [] => simp [optTruthy]
  | some (c :: t) => simp [optTruthy]; rintro rfl; simp

theorem builder_step {lower : PyStr → PyStr} {b b1 b2 : Builder} {calls : List BuilderCall}
    (h : BuilderOk lower b calls b1) (c : BuilderCall) (hc : c.run lower b1 = .ok b2) :
    BuilderOk lower b (c :: calls) b2 := by
  obtain ⟨ok, hints, trues, falses, formats, kw, ff⟩ := h
  have ok' := ok
  obtain ⟨o1, o2, o3, o4⟩ := ok'
  cases c with
  | withTrueValue v =>
    cases v with
    | none => cases hc; exact ⟨ok, hints, trues, falses, formats, kw, ff⟩
    | some v =>
      cases hc
      refine ⟨⟨setAdd_str_nodup o1, o2, o3, o4⟩, hints, fun w => ?_, falses, formats, kw, ff⟩
      rw [mem_setAdd_str, trues]; rfl
  | withFalseValue v =>
    cases v with
    | none => cases hc; exact ⟨ok, hints, trues, falses, formats, kw, ff⟩
    | some v =>
      cases hc
      refine ⟨⟨o1, setAdd_str_nodup o2, o3, o4⟩, hints, trues, fun w => ?_, formats, kw, ff⟩
      rw [mem_setAdd_str, falses]; rfl
  | withDateFormat f =>
    match f with
    | none => cases hc; exact ⟨ok, hints, trues, falses, formats, kw, ff⟩
    | some [] =>
      cases hc
      refine ⟨ok, hints, trues, falses, fun w => ?_, kw, ff⟩
      rw [formats]; simp [addedFormat]
    | some (c :: f) =>
      cases hc
      refine ⟨⟨o1, o2, setAdd_str_nodup o3, o4⟩, hints, trues, falses, fun w => ?_, kw, ff⟩
      rw [mem_setAdd_str, formats]; simp [addedFormat]
  | withGeoHint lat lon r s =>
    simp only [BuilderCall.run] at hc
    match lat, lon with
    | none, _ => cases hc; exact ⟨ok, hints, trues, falses, formats, kw, ff⟩
    | some [], none => cases hc; exact ⟨ok, hints, trues, falses, formats, kw, ff⟩
    | some (_ :: _), none => cases hc; exact ⟨ok, hints, trues, falses, formats, kw, ff⟩
    | some [], some lo =>
      cases hc
      refine ⟨ok, fun h => ?_, trues, falses, formats, kw, ff⟩
      rw [hints]; simp [lastHint]
    | some (_ :: _), some [] =>
      cases hc
      refine ⟨ok, fun h => ?_, trues, falses, formats, kw, ff⟩
      rw [hints]; simp [lastHint]
    | some (c :: l), some (c' :: l') =>
      simp only [optTruthy, setAdd_discard] at hc
      cases hc
      refine ⟨⟨o1, o2, o3, ?_⟩, fun h => ?_, trues, falses, formats, kw, ff⟩
      · simp only [List.map_append, List.map_cons, List.map_nil]
        rw [List.nodup_append]
        refine ⟨o4.sublist (List.filter_sublist.map _), by simp, ?_⟩
        intro a ha x hx e
        simp at hx; subst hx; subst e
        rw [List.mem_map] at ha
        obtain ⟨y, hy, hy'⟩ := ha
        rw [List.mem_filter] at hy
        simp [hy'] at hy
      · simp only [List.mem_append, List.mem_filter, List.mem_singleton, lastHint, ne_eq, reduceCtorEq,
          not_false_eq_true, and_true]
        by_cases e : c :: l = h.latField
        · rw [if_pos e]; simp [e, eq_comm]
        · rw [if_neg e, ← hints]
          constructor
          · rintro (h1 | h1)
            · exact h1.1
            · subst h1; exact absurd rfl e
          · intro h1; exact .inl ⟨h1, by simpa using e⟩
  | withKeywordLength n =>
    simp only [BuilderCall.run] at hc
    split at hc
    · cases hc
    · split at hc
      · cases hc
      · cases hc; exact ⟨⟨o1, o2, o3, o4⟩, hints, trues, falses, formats, rfl, ff⟩
  | withFloatFormat f => cases hc; exact ⟨⟨o1, o2, o3, o4⟩, hints, trues, falses, formats, kw, rfl⟩
  | clearDateFormats =>
    cases hc; exact ⟨⟨o1, o2, by simp, o4⟩, hints, trues, falses, by simp [addedFormat], kw, ff⟩
  | resetDateFormats =>
    cases hc
    have hd : defaultDateFormats.Nodup := by decide
    have e : setOf strEq defaultDateFormats = defaultDateFormats := setOf_str hd
    rw [e]
    exact ⟨⟨o1, o2, hd, o4⟩, hints, trues, falses, by simp [addedFormat, startOptions, defaultDateFormats], kw, ff⟩
  | clearTrueValues =>
    cases hc; exact ⟨⟨by simp, o2, o3, o4⟩, hints, by simp [addedTrue], falses, formats, kw, ff⟩
  | clearFalseValues =>
    cases hc; exact ⟨⟨o1, by simp, o3, o4⟩, hints, trues, by simp [addedFalse], formats, kw, ff⟩
  | clearGeoHints =>
    cases hc; exact ⟨⟨o1, o2, o3, by simp⟩, by simp [lastHint], trues, falses, formats, kw, ff⟩

theorem builder_run {lower : PyStr → PyStr} {b : Builder} (hb : OptionsOk b) : ∀ (calls : List BuilderCall)
    {b' : Builder}, runBuilder lower b calls.reverse = .ok b' → BuilderOk lower b calls b'
  | [], b', h => by
    cases h
    exact ⟨hb, fun h => find_hint hb.geoHints h, fun _ => Iff.rfl, fun _ => Iff.rfl, fun _ => Iff.rfl, rfl, rfl⟩
  | c :: calls, b', h => by
    rw [List.reverse_cons, runBuilder, List.foldlM_append] at h
    cases h1 : List.foldlM (BuilderCall.run lower) b calls.reverse with
    | error e => rw [h1] at h; cases h
    | ok b1 =>
      rw [h1] at h
      have h : (BuilderCall.run lower b1 c >>= fun x => Except.ok x) = Except.ok b' := h
      cases h2 : BuilderCall.run lower b1 c with
      | error e => rw [h2] at h; cases h
      | ok b2 =>
        rw [h2] at h; cases h
        exact builder_step (builder_run hb calls h1) c h2

theorem build_eq {b : Builder} (h : OptionsOk b) : b.build = b := by
  unfold Builder.build
  rw [setOf_str h.trueValues, setOf_str h.falseValues, setOf_str h.dateFormats, setOf_hint h.geoHints]

theorem basedOn_eq {b : Builder} (h : OptionsOk b) : Builder.basedOn b = b := build_eq h

theorem builder_kw {lower : PyStr → PyStr} : ∀ (calls : List BuilderCall) {b b' : Builder},
    runBuilder lower b calls = .ok b' → 1 ≤ b.keywordLength ∧ b.keywordLength ≤ 32766 →
    1 ≤ b'.keywordLength ∧ b'.keywordLength ≤ 32766
  | [], b, b', h, hb => by cases h; exact hb
  | c :: calls, b, b', h, hb => by
    rw [runBuilder, List.foldlM_cons] at h
    cases h1 : BuilderCall.run lower b c with
    | error e => rw [h1] at h; cases h
    | ok b1 =>
      rw [h1] at h
      refine builder_kw calls h ?_
      cases c with
      | withKeywordLength n =>
        simp only [BuilderCall.run] at h1
        split at h1
        · cases h1
        · split at h1
          · cases h1
          · cases h1; simp only; omega
      | withTrueValue v => cases v <;> (cases h1; exact hb)
      | withFalseValue v => cases v <;> (cases h1; exact hb)
      | withDateFormat f => simp only [BuilderCall.run] at h1; split at h1 <;> (cases h1; exact hb)
      | withGeoHint a b' r s => simp only [BuilderCall.run] at h1; split at h1 <;> (cases h1; exact hb)
      | _ => cases h1; exact hb

end Splitgill
