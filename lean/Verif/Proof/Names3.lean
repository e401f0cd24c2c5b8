import Verif.Proof.Names2
/-!
# Lemmas about reading the line of a delete op
-/

namespace Splitgill

theorem PlainStr.nil : PlainStr [] := by intro c h; cases h

theorem PlainStr.cons {c : Char} {s : PyStr} (hc : c ≠ '"' ∧ c ≠ '\\' ∧ 32 ≤ c.toNat) (hs : PlainStr s) :
    PlainStr (c :: s) := by
  intro d hd
  rcases List.mem_cons.1 hd with rfl | hd
  · exact hc
  · exact hs d hd

theorem jsonString_quote (rest : PyStr) : jsonString ('"' :: rest) = some ([], rest) := by
  unfold jsonString
  rfl

theorem jsonString_char {c : Char} (h : c ≠ '"') (h' : c ≠ '\\') (h32 : 32 ≤ c.toNat) (rest : PyStr) :
    jsonString (c :: rest) = match jsonString rest with
      | some (s, r) => some (c :: s, r)
      | none => none := by
  rw [jsonString]
  · rw [if_neg]
    · rfl
    · rintro (h1 | h1)
      · omega
      · exact h' h1
  · exact h
  · intro a b c' d r e; exact absurd e h'
  · intro a r e; exact absurd e h'

theorem jsonString_plain : ∀ {s : PyStr}, PlainStr s → ∀ rest, jsonString (s ++ '"' :: rest) = some (s, rest)
  | [], _, rest => jsonString_quote rest
  | c :: s, h, rest => by
    obtain ⟨h1, h2, h3⟩ := h c List.mem_cons_self
    rw [List.cons_append, jsonString_char h1 h2 h3,
      jsonString_plain (fun d hd => h d (List.mem_cons_of_mem _ hd)) rest]

/-- What a JSON string reads is either as it stands, or shorter than what it was read from. -/
theorem jsonString_sound (s : PyStr) : ∀ out rest, jsonString s = some (out, rest) →
    (s = out ++ '"' :: rest ∧ PlainStr out) ∨ out.length + 1 + rest.length < s.length := by
  induction s using jsonString.induct with
  | case1 => intro out rest h; cases h
  | case2 rest0 =>
    intro out rest h
    rw [jsonString_quote] at h
    cases h
    exact .inl ⟨rfl, PlainStr.nil⟩
  | case3 a b c d rest0 x s r hr hx ih =>
    intro out rest h
    rw [jsonString, hr, hx] at h
    cases h
    right
    simp only [List.length_cons]
    rcases ih _ _ hr with ⟨e, _⟩ | h'
    · have := congrArg List.length e
      simp only [List.length_append, List.length_cons] at this
      omega
    · omega
  | case4 a b c d rest0 hn ih =>
    intro out rest h
    rw [jsonString] at h
    split at h
    · rename_i h1 h2
      exact (hn _ _ _ h1 h2).elim
    · cases h
  | case5 e rest0 hne x s r hr hx ih =>
    intro out rest h
    rw [jsonString.eq_4 _ _ hne, hr, hx] at h
    cases h
    right
    simp only [List.length_cons]
    rcases ih _ _ hr with ⟨e, _⟩ | h'
    · have := congrArg List.length e
      simp only [List.length_append, List.length_cons] at this
      omega
    · omega
  | case6 e rest0 hne hn ih =>
    intro out rest h
    rw [jsonString.eq_4 _ _ hne] at h
    split at h
    · rename_i h1 h2
      exact (hn _ _ _ h1 h2).elim
    · cases h
  | case7 c rest0 hq hu he hb =>
    intro out rest h
    rw [jsonString.eq_5 _ _ hq hu he, if_pos hb] at h
    cases h
  | case8 c rest0 hq hu he hb s r hr ih =>
    intro out rest h
    rw [jsonString.eq_5 _ _ hq hu he, if_neg hb, hr] at h
    cases h
    rcases ih _ _ hr with ⟨e, hp⟩ | h'
    · refine .inl ⟨by rw [e]; rfl, hp.cons ⟨hq, fun h => hb (.inr h), ?_⟩⟩
      have : ¬ c.toNat < 32 := fun h => hb (.inl h)
      omega
    · right
      simp only [List.length_cons]
      omega
  | case9 c rest0 hq hu he hb hr ih =>
    intro out rest h
    rw [jsonString.eq_5 _ _ hq hu he, if_neg hb, hr] at h
    cases h

theorem expect_append : ∀ p s : PyStr, expect p (p ++ s) = some s
  | [], s => by simp [expect]
  | c :: p, s => by simp [expect, expect_append p s]

theorem expect_some : ∀ {p s r : PyStr}, expect p s = some r → s = p ++ r
  | [], s, r, h => by simpa [expect] using h
  | c :: p, [], r, h => by simp [expect] at h
  | c :: p, d :: s, r, h => by
    simp only [expect] at h
    split at h
    · rename_i e; subst e; rw [List.cons_append, ← expect_some h]
    · cases h

/-- The line of a delete op reads as its index and id if and only if they are plain. -/
theorem decodeDelete_iff (index docId : PyStr) :
    decodeDelete (serialiseDelete index docId) = some (index, docId) ↔ PlainStr index ∧ PlainStr docId := by
  have e : serialiseDelete index docId = "{\"delete\":{\"_index\":\"".toList ++ (index ++ '"' :: (",\"_id\":\"".toList
      ++ (docId ++ '"' :: "}}".toList))) := by
    unfold serialiseDelete
    simp only [List.append_assoc]
    rfl
  unfold decodeDelete
  rw [e, expect_append]
  simp only [Option.bind_eq_bind, Option.bind_some]
  constructor
  · intro h
    rw [Option.bind_eq_some_iff] at h
    obtain ⟨⟨out, s1⟩, h1, h⟩ := h
    dsimp only at h
    rw [Option.bind_eq_some_iff] at h
    obtain ⟨s2, h2, h⟩ := h
    rw [Option.bind_eq_some_iff] at h
    obtain ⟨⟨out2, s3⟩, h3, h⟩ := h
    dsimp only at h
    rw [Option.bind_eq_some_iff] at h
    obtain ⟨s4, h4, h⟩ := h
    split at h
    · rename_i hs4
      rw [List.isEmpty_iff] at hs4
      subst hs4
      simp only [Option.some.injEq, Prod.mk.injEq] at h
      obtain ⟨rfl, rfl⟩ := h
      have h2 := expect_some h2
      have h4 := expect_some h4
      subst h4
      rcases jsonString_sound _ _ _ h1 with ⟨e1, p1⟩ | hlen
      · refine ⟨p1, ?_⟩
        rcases jsonString_sound _ _ _ h3 with ⟨_, p2⟩ | hlen2
        · exact p2
        · have := congrArg List.length (List.append_cancel_left e1)
          rw [h2] at this
          simp only [List.length_append, List.length_cons, List.length_nil] at this hlen2
          omega
      · rw [h2] at hlen
        simp only [List.length_append, List.length_cons, List.length_nil] at hlen
        rcases jsonString_sound _ _ _ h3 with ⟨e2, p2⟩ | hlen2
        · rw [e2] at hlen
          simp only [List.length_append, List.length_cons, List.length_nil] at hlen
          omega
        · simp only [List.length_append, List.length_cons, List.length_nil] at hlen2
          omega
    · cases h
  · rintro ⟨h1, h2⟩
    rw [jsonString_plain h1, Option.bind_some]
    dsimp only
    rw [expect_append, Option.bind_some, jsonString_plain h2, Option.bind_some]
    dsimp only
    rfl

/-- A text without newlines is one line. -/
theorem lines_one : ∀ {s : PyStr}, '\n' ∉ s → lines s = [s]
  | [], _ => rfl
  | c :: s, h => by
    have hc : c ≠ '\n' := fun e => h (by rw [e]; exact List.mem_cons_self)
    rw [lines, lines_one (fun e => h (List.mem_cons_of_mem _ e))]
    dsimp only
    rw [if_neg hc]

theorem serialiseDelete_newline {index docId : PyStr} (h1 : PlainStr index) (h2 : PlainStr docId) :
    '\n' ∉ serialiseDelete index docId := by
  unfold serialiseDelete
  simp only [List.mem_append, not_or]
  refine ⟨⟨⟨⟨by decide, ?_⟩, by decide⟩, ?_⟩, by decide⟩
  · intro h; exact absurd (h1 _ h).2.2 (by decide)
  · intro h; exact absurd (h2 _ h).2.2 (by decide)

end Splitgill
