import Verif.Model.Cache
import Verif.Spec.Options
import Verif.Spec.Parse
import Verif.Proof.Parse4

namespace Splitgill

variable {E : ParseEnv} {size : Nat}

/-- The entries are right, and for values and options of some kind. -/
def CacheOk (E : ParseEnv) (S : Value → Prop) (O : ParsingOptions → Prop) (c : ValueCache) : Prop :=
  ∀ e ∈ c, e.2 = parseValue E e.1.2 e.1.1 ∧ S e.1.1 ∧ O e.1.2

/-- The values and options for which it does not matter that keys are compared. -/
structure KeysOk (E : ParseEnv) (S : Value → Prop) (O : ParsingOptions → Prop) : Prop where
  value : ∀ a b, S a → S b → a.dtype = b.dtype → pyScalarEq a b = true → a = b
  options : ∀ a b v, O a → O b → a.pyEq b = true → parseValue E a v = parseValue E b v

variable {S : Value → Prop} {O : ParsingOptions → Prop}

theorem cachedParseValue_eq (hk : KeysOk E S O) {o : ParsingOptions} {v : Value} {c : ValueCache}
    (hc : CacheOk E S O c) (hv : S v) (ho : O o) :
    (cachedParseValue E size o v c).1 = parseValue E o v ∧ CacheOk E S O (cachedParseValue E size o v c).2 := by
  unfold cachedParseValue
  cases hf : c.find? (fun e => sameKey e.1 (v, o)) with
  | some e =>
    have hm := List.mem_of_find?_eq_some hf
    have hs := List.find?_some hf
    obtain ⟨h1, h2, h3⟩ := hc e hm
    simp only [sameKey, Bool.and_eq_true, decide_eq_true_eq] at hs
    refine ⟨?_, ?_⟩
    · show e.2 = _
      rw [h1, hk.value _ _ h2 hv hs.1.1 hs.1.2, hk.options _ _ _ h3 ho hs.2]
    · intro e' he'
      rcases List.mem_cons.1 he' with rfl | he'
      · exact ⟨h1, h2, h3⟩
      · exact hc e' (List.mem_filter.1 he').1
  | none =>
    refine ⟨rfl, fun e he => ?_⟩
    rcases List.mem_cons.1 (List.mem_of_mem_take he) with rfl | he
    · exact ⟨rfl, hv, ho⟩
    · exact hc e he

mutual
/-- All scalars inside are of a kind. -/
def AllScalars (S : Value → Prop) : Value → Prop
  | .dict d => AllScalarsDict S d
  | .list l => AllScalarsList S l
  | v => S v
def AllScalarsDict (S : Value → Prop) : Dict → Prop
  | [] => True
  | (_, v) :: r => AllScalars S v ∧ AllScalarsDict S r
def AllScalarsList (S : Value → Prop) : List Value → Prop
  | [] => True
  | v :: r => AllScalars S v ∧ AllScalarsList S r
end

mutual
theorem parseInnerC_eq (hk : KeysOk E S O) {o : ParsingOptions} (ho : O o) (inList : Bool) :
    ∀ (v : Value) (c : ValueCache), AllScalars S v → CacheOk E S O c →
      (parseInnerC E size o inList v c).1 = parseInner E o inList v ∧ CacheOk E S O (parseInnerC E size o inList v c).2
  | .dict d, c, hv, hc => by
    cases d with
    | nil => exact ⟨rfl, hc⟩
    | cons kv r =>
      rw [parseInnerC, parseInner]
      obtain ⟨h1, h2⟩ := parseItemsC_eq hk ho (kv :: r) c (by rw [AllScalars] at hv; exact hv) hc
      rw [← h1]
      cases he : parseItemsC E size o (kv :: r) c with
      | mk x c' =>
        rw [he] at h2
        cases x with
        | error e => exact ⟨rfl, h2⟩
        | ok items =>
          dsimp only
          cases assembleDict E o true (kv :: r) items with
          | error e => exact ⟨rfl, h2⟩
          | ok x => exact ⟨rfl, h2⟩
  | .list l, c, hv, hc => by
    cases l with
    | nil => exact ⟨rfl, hc⟩
    | cons v r =>
      rw [parseInnerC, parseInner]
      obtain ⟨h1, h2⟩ := parseElemsC_eq hk ho (v :: r) c (by rw [AllScalars] at hv; exact hv) hc
      rw [← h1]
      cases he : parseElemsC E size o (v :: r) c with
      | mk x c' =>
        rw [he] at h2
        cases x with
        | error e => exact ⟨rfl, h2⟩
        | ok x => exact ⟨rfl, h2⟩
  | .none, c, hv, hc => ⟨rfl, hc⟩
  | .str s, c, hv, hc => by
    rw [parseInnerC, parseInner]
    split
    · exact ⟨rfl, hc⟩
    · obtain ⟨h1, h2⟩ := cachedParseValue_eq (size := size) hk (v := .str s) hc hv ho
      exact ⟨by rw [← h1], h2⟩
  | .bool b, c, hv, hc => by
    rw [parseInnerC, parseInner]
    obtain ⟨h1, h2⟩ := cachedParseValue_eq (size := size) hk (v := .bool b) hc hv ho
    exact ⟨by rw [← h1], h2⟩
  | .int i, c, hv, hc => by
    rw [parseInnerC, parseInner]
    obtain ⟨h1, h2⟩ := cachedParseValue_eq (size := size) hk (v := .int i) hc hv ho
    exact ⟨by rw [← h1], h2⟩
  | .float f, c, hv, hc => by
    rw [parseInnerC, parseInner]
    obtain ⟨h1, h2⟩ := cachedParseValue_eq (size := size) hk (v := .float f) hc hv ho
    exact ⟨by rw [← h1], h2⟩
theorem parseItemsC_eq (hk : KeysOk E S O) {o : ParsingOptions} (ho : O o) :
    ∀ (d : Dict) (c : ValueCache), AllScalarsDict S d → CacheOk E S O c →
      (parseItemsC E size o d c).1 = parseItems E o d ∧ CacheOk E S O (parseItemsC E size o d c).2
  | [], c, _, hc => ⟨rfl, hc⟩
  | (k, v) :: r, c, hv, hc => by
    obtain ⟨h1, h2⟩ := parseInnerC_eq hk ho false v c hv.1 hc
    rw [parseItemsC, parseItems, ← h1]
    cases he : parseInnerC E size o false v c with
    | mk x c1 =>
      rw [he] at h2
      cases x with
      | error e => exact ⟨rfl, h2⟩
      | ok x =>
        obtain ⟨h3, h4⟩ := parseItemsC_eq hk ho r c1 hv.2 h2
        dsimp only
        rw [← h3]
        cases he' : parseItemsC E size o r c1 with
        | mk y c2 =>
          rw [he'] at h4
          cases y with
          | error e => exact ⟨rfl, h4⟩
          | ok y => exact ⟨rfl, h4⟩
theorem parseElemsC_eq (hk : KeysOk E S O) {o : ParsingOptions} (ho : O o) :
    ∀ (l : List Value) (c : ValueCache), AllScalarsList S l → CacheOk E S O c →
      (parseElemsC E size o l c).1 = parseElems E o l ∧ CacheOk E S O (parseElemsC E size o l c).2
  | [], c, _, hc => ⟨rfl, hc⟩
  | v :: r, c, hv, hc => by
    obtain ⟨h1, h2⟩ := parseInnerC_eq hk ho true v c hv.1 hc
    rw [parseElemsC, parseElems, ← h1]
    cases he : parseInnerC E size o true v c with
    | mk x c1 =>
      rw [he] at h2
      cases x with
      | error e => exact ⟨rfl, h2⟩
      | ok x =>
        obtain ⟨h3, h4⟩ := parseElemsC_eq hk ho r c1 hv.2 h2
        dsimp only
        rw [← h3]
        cases he' : parseElemsC E size o r c1 with
        | mk y c2 =>
          rw [he'] at h4
          cases y with
          | error e => exact ⟨rfl, h4⟩
          | ok y => exact ⟨rfl, h4⟩
end

theorem parseC_eq (hk : KeysOk E S O) {o : ParsingOptions} (ho : O o) (d : Dict) (c : ValueCache)
    (hd : AllScalarsDict S d) (hc : CacheOk E S O c) :
    (parseC E size o d c).1 = parse E o d ∧ CacheOk E S O (parseC E size o d c).2 := by
  obtain ⟨h1, h2⟩ := parseItemsC_eq (size := size) hk ho d c hd hc
  rw [parseC, parse, parseDictC, parseDict, ← h1]
  cases he : parseItemsC E size o d c with
  | mk x c1 =>
    rw [he] at h2
    cases x with
    | error e => exact ⟨rfl, h2⟩
    | ok items =>
      dsimp only
      cases assembleDict E o false d items with
      | error e => exact ⟨rfl, h2⟩
      | ok x =>
        dsimp only
        cases summarise x.parsedTypes <;> cases summarise x.dataTypes <;> exact ⟨rfl, h2⟩

theorem parsesFrom_eq (hk : KeysOk E S O) : ∀ (calls : List (Dict × ParsingOptions)) (c : ValueCache),
    (∀ x ∈ calls, AllScalarsDict S x.1 ∧ O x.2) → CacheOk E S O c →
      parsesFrom E size calls c = calls.map (fun x => parse E x.2 x.1)
  | [], _, _, _ => rfl
  | (d, o) :: calls, c, h, hc => by
    obtain ⟨h1, h2⟩ := parseC_eq (size := size) hk (h _ List.mem_cons_self).2 d c (h _ List.mem_cons_self).1 hc
    rw [parsesFrom, h1, parsesFrom_eq hk calls _ (fun x hx => h x (List.mem_cons_of_mem _ hx)) h2]
    rfl

mutual
theorem allScalars_of : ∀ (v : Value), (∀ w, v.isScalar = true → w = v → S w) →
    (∀ p w, OccursAt v p w → w.isScalar = true → S w) → AllScalars S v
  | .dict d, _, h => by rw [AllScalars]; exact allScalarsDict_of d h
  | .list l, _, h => by rw [AllScalars]; exact allScalarsList_of l h
  | .none, h, _ => by rw [AllScalars]; exact h _ rfl rfl; all_goals simp
  | .bool b, h, _ => by rw [AllScalars]; exact h _ rfl rfl; all_goals simp
  | .int b, h, _ => by rw [AllScalars]; exact h _ rfl rfl; all_goals simp
  | .float b, h, _ => by rw [AllScalars]; exact h _ rfl rfl; all_goals simp
  | .str b, h, _ => by rw [AllScalars]; exact h _ rfl rfl; all_goals simp
theorem allScalarsDict_of : ∀ (d : Dict), (∀ p w, OccursAt (.dict d) p w → w.isScalar = true → S w) → AllScalarsDict S d
  | [], _ => trivial
  | (k, v) :: r, h => by
    refine ⟨allScalars_of v (fun w hw he => ?_) (fun p w hp hw => h _ w (.inField List.mem_cons_self hp) hw), allScalarsDict_of r ?_⟩
    · subst he; exact h _ w (.field List.mem_cons_self) hw
    · intro p w hp hw
      cases hp with
      | field hm => exact h _ w (.field (List.mem_cons_of_mem _ hm)) hw
      | inField hm hp => exact h _ w (.inField (List.mem_cons_of_mem _ hm) hp) hw
theorem allScalarsList_of : ∀ (l : List Value), (∀ p w, OccursAt (.list l) p w → w.isScalar = true → S w) → AllScalarsList S l
  | [], _ => trivial
  | v :: r, h => by
    refine ⟨allScalars_of v (fun w hw he => ?_) (fun p w hp hw => h _ w (.inElem List.mem_cons_self hp) hw), allScalarsList_of r ?_⟩
    · subst he; exact h _ w (.elem List.mem_cons_self) hw
    · intro p w hp hw
      cases hp with
      | elem hm => exact h _ w (.elem (List.mem_cons_of_mem _ hm)) hw
      | inElem hm hp => exact h _ w (.inElem (List.mem_cons_of_mem _ hm) hp) hw
end

theorem setEq_str_perm {a b : List PyStr} (ha : a.Nodup) (h : setEq strEq a b = true) : a.Perm b := by
  simp only [setEq, Bool.and_eq_true, decide_eq_true_eq, List.all_eq_true] at h
  have hs : a ⊆ b := by
    intro x hx
    have := h.2 x hx
    simp only [setMem, List.any_eq_true, strEq, decide_eq_true_eq] at this
    obtain ⟨y, hy, rfl⟩ := this
    exact hy
  exact (List.subperm_of_subset ha hs).perm_of_length_le (by omega)

theorem setMem_str_perm {a b : List PyStr} (h : a.Perm b) (x : PyStr) : setMem strEq x a = setMem strEq x b := by
  rw [Bool.eq_iff_iff]
  simp only [setMem, List.any_eq_true, strEq, decide_eq_true_eq]
  exact ⟨fun ⟨y, hy, e⟩ => ⟨y, h.mem_iff.1 hy, e⟩, fun ⟨y, hy, e⟩ => ⟨y, h.mem_iff.2 hy, e⟩⟩

theorem parseValue_pyEq {o o' : ParsingOptions} (h1 : OptionsOk o) (h : o.pyEq o' = true)
    (hu : E.Unambiguous o.dateFormats) (v : Value) : parseValue E o v = parseValue E o' v := by
  simp only [ParsingOptions.pyEq, Bool.and_eq_true, decide_eq_true_eq] at h
  obtain ⟨⟨⟨⟨⟨ht, hf⟩, hd⟩, _⟩, hk⟩, hff⟩ := h
  have pt := setEq_str_perm h1.trueValues ht
  have pf := setEq_str_perm h1.falseValues hf
  have pd := setEq_str_perm h1.dateFormats hd
  have hs : strValue E o v = strValue E o' v := by
    cases v <;> simp [strValue, hff]
  have hb : parsedBool E o v = parsedBool E o' v := by
    cases v <;> simp [parsedBool, hs, setMem_str_perm pt, setMem_str_perm pf]
  have hn : parsedNumber E o v = parsedNumber E o' v := by
    cases v <;> simp [parsedNumber, hs]
  have hd : parsedDate E o v = parsedDate E o' v := by
    unfold parsedDate
    rw [← hs]
    exact findSome?_perm pd (fun x y a b hx hy h1 h2 => hu _ x y a b hx hy h1 h2)
  unfold parseValue
  rw [hb, hn, hd, hs, hk]

end Splitgill
