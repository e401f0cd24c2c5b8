import Verif.Spec.IndexNames
import Verif.Proof.BulkOps
/-!
# Lemmas on the names of indices and collections
-/

namespace Splitgill

theorem utf8Len_append (a b : PyStr) : utf8Len (a ++ b) = utf8Len a + utf8Len b := by
  simp [utf8Len]

theorem utf8Len_nil : utf8Len [] = 0 := rfl

theorem utf8Len_ascii {s : PyStr} (h : ∀ c ∈ s, c.utf8Size = 1) : utf8Len s = s.length := by
  induction s with
  | nil => rfl
  | cons c s ih =>
    have : utf8Len (c :: s) = c.utf8Size + utf8Len s := by simp [utf8Len]
    rw [this, h c List.mem_cons_self, ih (fun d hd => h d (List.mem_cons_of_mem _ hd)), List.length_cons]
    omega

/-- A digit is one of ten characters. -/
theorem isDigit_cases {c : Char} (h : c.isDigit = true) : c ∈ "0123456789".toList := by
  have h1 : 48 ≤ c.toNat ∧ c.toNat ≤ 57 := by
    simp only [Char.isDigit, Bool.and_eq_true, decide_eq_true_eq, ge_iff_le] at h
    exact h
  have h2 : c = Char.ofNat c.toNat := (Char.ofNat_toNat c).symm
  rw [h2]
  have key : ∀ k : Fin 10, Char.ofNat (48 + k.val) ∈ "0123456789".toList := by decide
  have := key ⟨c.toNat - 48, by omega⟩
  rwa [show 48 + (c.toNat - 48) = c.toNat by omega] at this

theorem toDigits_mem {n : Nat} {c : Char} (h : c ∈ Nat.toDigits 10 n) : c ∈ "0123456789".toList :=
  isDigit_cases (Nat.isDigit_of_mem_toDigits (b := 10) (by omega) (by omega) h)

/-- Characters that are allowed everywhere in names. -/
def PlainChars (s : PyStr) : Prop := ∀ c ∈ s, c ∈ "abcdefghijklmnopqrstuvwxyz0123456789-".toList

theorem plain_lowered (E : NameEnv) {c : Char} (h : c ∈ "abcdefghijklmnopqrstuvwxyz0123456789-".toList) :
    E.lowered c = true ∧ c ∉ indexBadChars ∧ c.utf8Size = 1 := by
  have h1 : c.val < 128 ∧ c.isUpper = false ∧ c ∉ indexBadChars ∧ c.utf8Size = 1 := by
    revert c
    decide
  exact ⟨by rw [E.ascii c h1.1, h1.2.1]; rfl, h1.2.2⟩

theorem nameChars_plain (E : NameEnv) {s : PyStr} (h : PlainChars s) : NameChars E s :=
  fun c hc => ⟨(plain_lowered E (h c hc)).1, (plain_lowered E (h c hc)).2.1⟩

theorem nameChars_append {E : NameEnv} {a b : PyStr} : NameChars E (a ++ b) ↔ NameChars E a ∧ NameChars E b := by
  simp only [NameChars, List.mem_append, or_imp, forall_and]
  tauto

theorem plain_digits (n : Nat) : PlainChars (Nat.toDigits 10 n) := by
  intro c hc
  have key : ∀ d ∈ "0123456789".toList, d ∈ "abcdefghijklmnopqrstuvwxyz0123456789-".toList := by decide
  exact key c (toDigits_mem hc)

theorem plain_utf8 {s : PyStr} (h : PlainChars s) : utf8Len s = s.length :=
  utf8Len_ascii fun c hc => by
    have key : ∀ d ∈ "abcdefghijklmnopqrstuvwxyz0123456789-".toList, d.utf8Size = 1 := by decide
    exact key c (h c hc)

/-- The name of an index is the name of a database with plain characters around it. -/
theorem indexName_parts (db : PyStr) (ix : Ix) : ∃ post, indexName db ix = "data-".toList ++ db ++ post ∧ PlainChars post ∧
    5 + post.length = addedBytes ix := by
  cases ix with
  | latest => exact ⟨"-latest".toList, rfl, by unfold PlainChars; decide, rfl⟩
  | arc n =>
    refine ⟨"-arc-".toList ++ Nat.toDigits 10 n, ?_, ?_, ?_⟩
    · show "data-".toList ++ db ++ "-arc".toList ++ "-".toList ++ Nat.toDigits 10 n = _
      rw [show "-arc-".toList = "-arc".toList ++ "-".toList by decide]
      simp only [List.append_assoc]
    · intro c hc
      rcases List.mem_append.1 hc with hc | hc
      · have key : ∀ d ∈ "-arc-".toList, d ∈ "abcdefghijklmnopqrstuvwxyz0123456789-".toList := by decide
        exact key c hc
      · exact plain_digits n c hc
    · rw [List.length_append]
      show 5 + (5 + _) = 5 + 5 + _
      omega

theorem indexName_utf8 (db : PyStr) (ix : Ix) : utf8Len (indexName db ix) = utf8Len db + addedBytes ix := by
  obtain ⟨post, e, hp, hl⟩ := indexName_parts db ix
  rw [e, utf8Len_append, utf8Len_append, plain_utf8 hp, ← hl]
  have : utf8Len "data-".toList = 5 := by decide
  omega

theorem indexName_chars {E : NameEnv} {db : PyStr} {ix : Ix} : NameChars E (indexName db ix) ↔ NameChars E db := by
  obtain ⟨post, e, hp, hl⟩ := indexName_parts db ix
  rw [e, nameChars_append, nameChars_append]
  have h1 : NameChars E "data-".toList := nameChars_plain E (by unfold PlainChars; decide)
  have h2 : NameChars E post := nameChars_plain E hp
  exact ⟨fun h => h.1.2, fun h => ⟨⟨h1, h⟩, h2⟩⟩

theorem validIndexName_chars {E : NameEnv} {s : PyStr} :
    s.all (fun c => E.lowered c && !indexBadChars.contains c) = true ↔ NameChars E s := by
  simp only [List.all_eq_true, Bool.and_eq_true, Bool.not_eq_true', NameChars]
  refine forall₂_congr fun c _ => and_congr_right fun _ => ?_
  rw [show indexBadChars = "\\/*?\"<>| ,#:".toList from rfl, ← Bool.not_eq_true, List.contains_iff_mem]

theorem valid_nameChars {E : NameEnv} {s : PyStr} (h : validIndexName E s = true) : NameChars E s := by
  simp only [validIndexName, Bool.and_eq_true] at h
  exact validIndexName_chars.1 h.1.1.1.1.2

theorem valid_length {E : NameEnv} {s : PyStr} (h : validIndexName E s = true) : utf8Len s ≤ 255 := by
  simp only [validIndexName, Bool.and_eq_true, decide_eq_true_eq] at h
  exact h.2

/-- Which names of indices Elasticsearch takes. -/
theorem valid_indexName {E : NameEnv} {db : PyStr} {ix : Ix} : validIndexName E (indexName db ix) = true ↔ NameFits E db ix := by
  constructor
  · intro h
    exact ⟨indexName_chars.1 (valid_nameChars h), indexName_utf8 db ix ▸ valid_length h⟩
  · rintro ⟨h1, h2⟩
    have h3 := validIndexName_chars.2 ((indexName_chars (ix := ix)).2 h1)
    obtain ⟨post, e, -, -⟩ := indexName_parts db ix
    have e2 : indexName db ix = 'd' :: 'a' :: 't' :: 'a' :: '-' :: (db ++ post) := by rw [e]; rfl
    have h4 : utf8Len (indexName db ix) ≤ 255 := indexName_utf8 db ix ▸ h2
    simp only [validIndexName, Bool.and_eq_true, decide_eq_true_eq]
    refine ⟨⟨⟨⟨⟨?_, h3⟩, ?_⟩, ?_⟩, ?_⟩, h4⟩
    · rw [e2]; rfl
    · rw [e2]; rfl
    · rw [e2]; intro h; cases h
    · rw [e2]; intro h; cases h

/-! ## Collections -/

theorem validCollection_iff {s : PyStr} : validCollectionName s = true ↔
    s ≠ [] ∧ '$' ∉ s ∧ Char.ofNat 0 ∉ s ∧ s.head? ≠ some '.' ∧ s.getLast? ≠ some '.' ∧ ¬ "..".toList <:+: s := by
  simp only [validCollectionName, Bool.and_eq_true, decide_eq_true_eq, Bool.not_eq_true', ← Bool.not_eq_true, List.contains_iff_mem,
    List.isEmpty_iff, and_assoc, ne_eq]

theorem infix_cons_of_ne {c : Char} {t : PyStr} (hc : c ≠ '.') (h : "..".toList <:+: c :: t) : "..".toList <:+: t := by
  rcases List.infix_cons_iff.1 h with h | h
  · obtain ⟨r, hr⟩ := h
    exact absurd (List.cons.inj hr).1.symm hc
  · exact h

theorem canOpen_of_valid {db : PyStr} (h : validCollectionName db = true) : canOpen db = true := by
  obtain ⟨h1, h2, h3, h4, h5, h6⟩ := validCollection_iff.1 h
  refine validCollection_iff.2 ⟨?_, ?_, ?_, ?_, ?_, ?_⟩
  · intro h; cases h
  · intro h
    rcases List.mem_append.1 h with h | h
    · revert h; decide
    · exact h2 h
  · intro h
    rcases List.mem_append.1 h with h | h
    · revert h; decide
    · exact h3 h
  · intro h; cases h
  · rw [dataCollectionName, List.getLast?_append_of_ne_nil _ h1]
    exact h5
  · intro h
    exact h6 (infix_cons_of_ne (c := '-') (by decide) (infix_cons_of_ne (c := 'a') (by decide) (infix_cons_of_ne (c := 't') (by decide)
      (infix_cons_of_ne (c := 'a') (by decide) (infix_cons_of_ne (c := 'd') (by decide) h)))))

/-! ## Syncing -/

variable {P : Type} {E : NameEnv} {X : Parser P} {maxDocs : Nat} {db : PyStr} {resync : Bool} {m : Mongo}

theorem indicesOk_of_fits {es : ES P} {ops : List (BulkOp P)} (h : ∀ op ∈ ops, NameFits E db op.ix) : indicesOk E db es ops = true := by
  simp only [indicesOk, List.all_eq_true, Bool.or_eq_true]
  exact fun op ho => .inr (valid_indexName.2 (h op ho))

/-- With names that fit, the rules for names change nothing. -/
theorem syncNamed_fits {es es' : ES P} (h : sync X maxDocs db resync m es = .ok es') (hf : ∀ ix ∈ akeys es', NameFits E db ix) :
    syncNamed E X maxDocs db resync m es = .ok es' := by
  unfold sync at h
  unfold syncNamed
  cases e : syncOps X maxDocs db resync m es with
  | error e1 => rw [e] at h; cases h
  | ok p =>
    obtain ⟨es1, ops⟩ := p
    rw [e] at h
    cases h
    simp only
    rw [if_pos (indicesOk_of_fits fun op ho => hf _ ((applyOps_keys op.ix).2 (.inr ⟨op, ho, rfl⟩)))]

theorem syncOps_keys {es es1 : ES P} {ops : List (BulkOp P)} (h : syncOps X maxDocs db resync m es = .ok (es1, ops)) :
    ∀ ix ∈ akeys es1, ix ∈ akeys es := by
  have hd : ∀ ix ∈ akeys es.deleteArcs, ix ∈ akeys es := by
    intro ix hix
    simp only [akeys, ES.deleteArcs, List.mem_map, List.mem_filter] at *
    obtain ⟨x, hx, rfl⟩ := hix
    exact ⟨x, hx.1, rfl⟩
  unfold syncOps at h
  split at h
  · cases h; exact fun _ h => h
  · split at h
    · cases h
    · cases h; exact fun _ h => h
    · simp only at h
      split at h
      · cases h
      · cases h
        cases resync
        · exact fun _ h => h
        · exact hd

theorem fits_of_ok {es : ES P} {ops : List (BulkOp P)} (hv : ∀ ix ∈ akeys es, NameFits E db ix) (h : indicesOk E db es ops = true) :
    ∀ ix ∈ akeys (es.applyOps ops), NameFits E db ix := by
  simp only [indicesOk, List.all_eq_true, Bool.or_eq_true] at h
  intro ix hix
  rcases (applyOps_keys ix).1 hix with h1 | ⟨op, ho, rfl⟩
  · exact hv _ h1
  · rcases h op ho with h1 | h1
    · exact hv _ (aget_isSome_iff.1 h1)
    · exact valid_indexName.1 h1

/-- The rules for names make a sync raise exactly when it has to create an index whose name does not fit. -/
theorem syncNamed_iff {es : ES P} (hv : ∀ ix ∈ akeys es, NameFits E db ix) {es' : ES P} (h : sync X maxDocs db resync m es = .ok es') :
    (syncNamed E X maxDocs db resync m es = .ok es' ↔ ∀ ix ∈ akeys es', NameFits E db ix) ∧
      (syncNamed E X maxDocs db resync m es = .ok es' ∨ syncNamed E X maxDocs db resync m es = .error .invalidIndexName) := by
  refine ⟨⟨?_, syncNamed_fits h⟩, ?_⟩
  · unfold sync at h
    unfold syncNamed
    cases e : syncOps X maxDocs db resync m es with
    | error e1 => rw [e] at h; cases h
    | ok p =>
      obtain ⟨es1, ops⟩ := p
      rw [e] at h
      cases h
      simp only
      split
      · intro _
        exact fits_of_ok (fun ix hix => hv ix (syncOps_keys e ix hix)) ‹_›
      · intro h; cases h
  · unfold sync at h
    unfold syncNamed
    cases e : syncOps X maxDocs db resync m es with
    | error e1 => rw [e] at h; cases h
    | ok p =>
      obtain ⟨es1, ops⟩ := p
      rw [e] at h
      cases h
      simp only
      split
      · exact .inl rfl
      · exact .inr rfl

theorem resyncArcsNamed_fits {es es' : ES P} (h : resyncArcs X maxDocs db m es = .ok es') (hf : ∀ ix ∈ akeys es', NameFits E db ix) :
    resyncArcsNamed E X maxDocs db m es = .ok es' := by
  unfold resyncArcs at h
  unfold resyncArcsNamed
  cases e : generateOps X maxDocs (committedOptionsOf db m) none (es.deleteArcs).arcStatus
      ((m.data db).filter (fun r => r.version.isSome)) with
  | error e1 => simp only [e] at h; cases h
  | ok p =>
    obtain ⟨ops, n⟩ := p
    simp only [e] at h ⊢
    cases h
    rw [if_pos (indicesOk_of_fits fun op ho => hf _ ((applyOps_keys op.ix).2 (.inr ⟨op, ho, rfl⟩)))]

end Splitgill
