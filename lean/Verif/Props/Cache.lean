import Verif.Proof.Cache
import Verif.Proof.Lru
import Verif.Props.Parse
/-!
# Properties of parsing with the cache (C73)
-/

namespace Splitgill.Props
open Splitgill

/-- C73 in full: what `parse` gives does not depend on what was parsed before in the same process. -/
def C73_full : Prop :=
  ∀ (E : ParseEnv) (size : Nat) (calls : List (Dict × ParsingOptions)), (∀ x ∈ calls, OptionsOk x.2) →
    parsesFrom E size calls [] = calls.map (fun x => parse E x.2 x.1)

/-- An environment that shows the sign of zero. -/
def exZeroEnv : ParseEnv := { exEnv with formatFloat := fun _ f => if f = .negZero then "-0".toList else "0".toList }

/-- **C73 does not hold in full**: `-0.0` is indexed as `0.0` if that was parsed before. -/
theorem C73_refuted : ¬ C73_full := by
  intro h
  have := h exZeroEnv 10 [([(['x'], .float (.fin 0))], exParseOpts), ([(['x'], .float .negZero)], exParseOpts)]
    (by
      intro x hx
      simp only [List.mem_cons, List.not_mem_nil, or_false] at hx
      rcases hx with rfl | rfl <;> exact ⟨by decide, by decide, by decide, by decide⟩)
  have h1 : ((parsesFrom exZeroEnv 10 [([(['x'], .float (.fin 0))], exParseOpts),
      ([(['x'], .float .negZero)], exParseOpts)] []).map (fun r => r.toOption.map ParsedData.parsed)) ≠
      [([(['x'], Value.float (.fin 0))], exParseOpts), ([(['x'], .float .negZero)], exParseOpts)].map
        (fun x => (parse exZeroEnv x.2 x.1).toOption.map ParsedData.parsed) := by decide +kernel
  apply h1
  rw [this, List.map_map]
  rfl

/-- **C73**: whatever was parsed before, with whatever options, and whatever was dropped from the cache, `parse` gives what it
gives in a new process, if floats that are equal are the same (not `0.0` and `-0.0`), and no two date
formats read a text differently (see C64). Missing: zeros of both signs (`C73_refuted`). -/
theorem C73_partial (E : ParseEnv) (size : Nat) (calls : List (Dict × ParsingOptions))
    (ho : ∀ x ∈ calls, OptionsOk x.2 ∧ E.Unambiguous x.2.dateFormats)
    (hz : ¬ ((∃ x ∈ calls, ∃ p, OccursAt (.dict x.1) p (.float (.fin 0))) ∧
      ∃ x ∈ calls, ∃ p, OccursAt (.dict x.1) p (.float .negZero))) :
    parsesFrom E size calls [] = calls.map (fun x => parse E x.2 x.1) := by
  apply parsesFrom_eq (S := fun v => v.isScalar = true ∧ ∃ x ∈ calls, ∃ p, OccursAt (.dict x.1) p v)
    (O := fun o => OptionsOk o ∧ E.Unambiguous o.dateFormats)
  · constructor
    · rintro a b ⟨hsa, ha⟩ ⟨hsb, hb⟩ ht he
      cases a <;> cases b <;> simp only [Value.dtype, reduceCtorEq] at ht
      · rfl
      · rename_i x y
        cases x <;> cases y <;> simp [pyScalarEq, Value.num] at he ⊢
      · simpa [pyScalarEq, Value.num] using he
      · rename_i x y
        cases x <;> cases y <;> simp [pyScalarEq, Value.num] at he ⊢
        · subst he; exact absurd ⟨hb, ha⟩ hz
        · subst he; exact absurd ⟨ha, hb⟩ hz
        · exact he
      · simpa [pyScalarEq] using he
      · cases hsa
      · cases hsa
    · intro a b v ha hb h
      exact parseValue_pyEq ha.1 h ha.2 v
  · intro x hx
    exact ⟨allScalarsDict_of x.1 (fun p w hp hw => ⟨hw, x, hx, p, hp⟩), ho x hx⟩
  · intro e he; cases he

/-- Options with one date format. -/
def exCacheOpts : ParsingOptions := { exParseOpts with dateFormats := ["%d/%m/%Y".toList] }

/-- Equal values of different types, equal options that were made in different orders. -/
def exCacheCalls : List (Dict × ParsingOptions) :=
  [([(['x'], .int 1), (['y'], .bool true)], exCacheOpts),
   ([(['x'], .float (.fin 1)), (['y'], .float .negZero)], { exCacheOpts with trueValues := exCacheOpts.trueValues.reverse }),
   ([(['x'], .int 1), (['y'], .float .negZero)], exCacheOpts)]

/-- A hit and a miss, with a cache of two entries. -/
example : (∀ x ∈ exCacheCalls, OptionsOk x.2 ∧ exZeroEnv.Unambiguous x.2.dateFormats) ∧
    ¬ ((∃ x ∈ exCacheCalls, ∃ p, OccursAt (.dict x.1) p (.float (.fin 0))) ∧
      ∃ x ∈ exCacheCalls, ∃ p, OccursAt (.dict x.1) p (.float .negZero)) ∧
    (parsesFrom exZeroEnv 2 exCacheCalls []).length = 3 := by
  refine ⟨?_, ?_, by decide +kernel⟩
  · intro x hx
    simp only [exCacheCalls, List.mem_cons, List.not_mem_nil, or_false] at hx
    have hu : exZeroEnv.Unambiguous ["%d/%m/%Y".toList] := by
      intro s f g a b hf hg h1 h2
      rw [List.mem_singleton] at hf hg
      subst hf; subst hg
      rw [h1] at h2; cases h2; rfl
    rcases hx with rfl | rfl | rfl <;> exact ⟨⟨by decide, by decide, by decide, by decide⟩, hu⟩
  · rintro ⟨⟨x, hx, p, hp⟩, _⟩
    simp only [exCacheCalls, List.mem_cons, List.not_mem_nil, or_false] at hx
    rcases hx with rfl | rfl | rfl
    all_goals
      cases hp with
      | field hm => simp at hm
      | inField hm h =>
        simp only [List.mem_cons, List.not_mem_nil, or_false, Prod.mk.injEq] at hm
        rcases hm with ⟨_, rfl⟩ | ⟨_, rfl⟩ <;> cases h

/-- **C73**, for what the cache of values keeps: after any uses, its keys are the last `size` different ones, the last one first. The
values and options are such that equal keys are the same, as in `C73_partial`. -/
theorem C73_recent (E : ParseEnv) (size : Nat) (uses : List (Value × ParsingOptions))
    (h : ∀ a ∈ uses, ∀ b ∈ uses, sameKey a b = true ↔ a = b) :
    (uses.foldl (fun c k => (cachedParseValue E size k.2 k.1 c).2) []).map Prod.fst = uses.reverse.eraseDups.take size := by
  suffices ∀ (us done : List (Value × ParsingOptions)) (c : ValueCache), (∀ a ∈ us, a ∈ uses) → (∀ a ∈ done, a ∈ uses) →
      c.map Prod.fst = done.eraseDups.take size →
      (us.foldl (fun c k => (cachedParseValue E size k.2 k.1 c).2) c).map Prod.fst = (us.reverse ++ done).eraseDups.take size by
    simpa using this uses [] [] (fun _ h => h) (fun _ h => nomatch h) (by simp)
  intro us
  induction us with
  | nil => exact fun done c _ _ h => h
  | cons k us ih =>
    intro done c hu hd hc
    rw [List.foldl_cons, List.reverse_cons, List.append_assoc]
    have hku := hu k (by simp)
    refine ih (k :: done) _ (fun a ha => hu a (by simp [ha])) (fun a ha => ?_) ?_
    · rcases List.mem_cons.1 ha with rfl | ha
      · exact hku
      · exact hd a ha
    have hin : ∀ e ∈ c, e.1 ∈ uses := fun e he =>
      hd _ (List.mem_eraseDups.1 (List.mem_of_mem_take (hc ▸ List.mem_map_of_mem (f := Prod.fst) he)))
    have hmem : (∃ e ∈ c, e.1 = k) ↔ k ∈ done.eraseDups.take size := by
      rw [← hc, List.mem_map]
    unfold cachedParseValue
    split
    · rename_i e he
      have hm := List.mem_of_find?_eq_some he
      have hk : e.1 = k := (h _ (hin e hm) _ hku).1 (by simpa using List.find?_some he)
      dsimp only
      have hfil : (c.filter (fun e' => !sameKey e'.1 (k.1, k.2))).map Prod.fst = (c.map Prod.fst).filter (fun x => !decide (x = k)) := by
        rw [List.filter_map]
        congr 1
        refine List.filter_congr (fun x hx => ?_)
        show (!sameKey x.1 k) = _
        by_cases hxk : x.1 = k
        · simp [hxk, (h k hku k hku).2 rfl]
        · have : sameKey x.1 k = false := by
            cases hb : sameKey x.1 k with
            | false => rfl
            | true => exact absurd ((h _ (hin x hx) _ hku).1 hb) hxk
          simp [this, hxk]
      rw [List.map_cons, hfil, hc, hk]
      exact lru_hit (hmem.1 ⟨e, hm, hk⟩)
    · rename_i he
      dsimp only
      rw [List.map_take, List.map_cons, hc]
      refine lru_miss (fun hm => ?_)
      obtain ⟨e, h3, h4⟩ := hmem.2 hm
      have := List.find?_eq_none.1 he e h3
      exact this ((h _ (hin e h3) _ hku).2 h4)

/-- Five uses of four keys, two of which are equal numbers of different types. -/
def exUses : List (Value × ParsingOptions) :=
  [(.int 1, exCacheOpts), (.bool true, exCacheOpts), (.str ['x'], exCacheOpts), (.int 1, exCacheOpts), (.float (.fin 1), exCacheOpts)]

example : (∀ a ∈ exUses, ∀ b ∈ exUses, sameKey a b = true ↔ a = b) ∧
    ([1, 2, 3].map fun n => (exUses.foldl (fun c k => (cachedParseValue exZeroEnv n k.2 k.1 c).2) []).map (fun e => e.1.1)) =
      [[.float (.fin 1)], [.float (.fin 1), .int 1], [.float (.fin 1), .int 1, .str ['x']]] := by
  decide +kernel

end Splitgill.Props
