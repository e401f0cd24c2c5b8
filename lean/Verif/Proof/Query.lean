import Verif.Proof.Parse4
import Verif.Proof.Time
import Verif.Spec.Query
/-!
# Proofs about queries
-/

namespace Splitgill

variable {E : ParseEnv} {o : ParsingOptions} {Q : QueryEnv}

/-! ## Paths -/

theorem splitDots_ne : ∀ s, splitDots s ≠ []
  | [] => by simp [splitDots]
  | c :: s => by
    rw [splitDots]
    split
    · simp
    · split <;> simp

theorem splitDots_append : ∀ a b : PyStr, splitDots (a ++ '.' :: b) = splitDots a ++ splitDots b
  | [], b => by simp [splitDots]
  | c :: a, b => by
    have ih := splitDots_append a b
    rw [List.cons_append, splitDots, splitDots, ih]
    split
    · rfl
    · cases h : splitDots a with
      | nil => exact absurd h (splitDots_ne a)
      | cons x r => rfl

theorem splitDots_clean : ∀ {s : PyStr}, '.' ∉ s → splitDots s = [s]
  | [], _ => rfl
  | c :: s, h => by
    rw [List.mem_cons, not_or] at h
    rw [splitDots, if_neg (fun e => h.1 e.symm), splitDots_clean h.2]

theorem intercalate_cons {a : PyStr} {l : List PyStr} (h : l ≠ []) :
    ['.'].intercalate (a :: l) = a ++ '.' :: ['.'].intercalate l := by
  cases l with
  | nil => exact absurd rfl h
  | cons b l => simp [List.intercalate, List.intersperse]

theorem splitDots_intercalate : ∀ {l : List PyStr}, l ≠ [] → (∀ k ∈ l, '.' ∉ k) → splitDots (['.'].intercalate l) = l
  | [], h, _ => absurd rfl h
  | [a], _, h => by
    have : ['.'].intercalate [a] = a := by simp [List.intercalate]
    rw [this, splitDots_clean (h a (by simp))]
  | a :: b :: l, _, h => by
    rw [intercalate_cons (by simp), splitDots_append, splitDots_clean (h a (by simp)),
      splitDots_intercalate (by simp) (fun k hk => h k (List.mem_cons_of_mem _ hk))]
    rfl

theorem intercalate_splitDots : ∀ s : PyStr, ['.'].intercalate (splitDots s) = s
  | [] => by simp [splitDots, List.intercalate]
  | c :: s => by
    have ih := intercalate_splitDots s
    rw [splitDots]
    split
    · rename_i h
      rw [intercalate_cons (splitDots_ne s), ih, h]
      rfl
    · split
      · rename_i a r h
        rw [h] at ih
        cases r with
        | nil =>
          simp only [List.intercalate, List.intersperse, List.flatten_cons, List.flatten_nil, List.append_nil] at ih ⊢
          rw [ih]
        | cons b r =>
          rw [intercalate_cons (by simp)] at ih ⊢
          rw [List.cons_append, ih]
      · rename_i h
        exact absurd h (splitDots_ne s)

abbrev keysOf (p : Path) : List PyStr := p.filterMap PathEl.name?

theorem keysOf_idx (i : Nat) (p : Path) : keysOf (.idx i :: p) = keysOf p := rfl

theorem keysOf_clean : ∀ {p : Path} {v w : Value}, FieldNames v → getAt p v = some w → ∀ k ∈ keysOf p, '.' ∉ k
  | [], _, _, _, _, k, hk => by simp at hk
  | .key k' :: p, v, w, hf, h, k, hk => by
    cases v with
    | dict d =>
      rw [getAt, Option.bind_eq_some_iff] at h
      obtain ⟨x, hx, h⟩ := h
      have hk' : k = k' ∨ k ∈ keysOf p := by simpa [keysOf, PathEl.name?] using hk
      rcases hk' with rfl | hk'
      · exact (hf.dict k (mem_akeys_of_mem (aget_mem hx))).no_dot
      · refine keysOf_clean (v := x) ?_ h k hk'
        intro q e hq
        refine hf (.key k' :: q) e ?_
        rw [getAt, hx]
        exact hq
    | _ => cases h
  | .idx i :: p, v, w, hf, h, k, hk => by
    cases v with
    | list l =>
      rw [getAt, Option.bind_eq_some_iff] at h
      obtain ⟨x, hx, h⟩ := h
      have hk' : k ∈ keysOf p := by simpa [keysOf, PathEl.name?] using hk
      refine keysOf_clean (v := x) ?_ h k hk'
      intro q e hq
      refine hf (.idx i :: q) e ?_
      rw [getAt, hx]
      exact hq
    | _ => cases h

theorem keysOf_ne {p : Path} {d : Dict} {w : Value} (h : getAt p (.dict d) = some w) (hw : w.isScalar = true) :
    keysOf p ≠ [] := by
  cases p with
  | nil => cases h; cases hw
  | cons a p =>
    cases a with
    | idx i => cases h
    | key k => simp [keysOf, PathEl.name?]

theorem Value.isScalar_of_isIndexed {v : Value} (h : v.isIndexed = true) : v.isScalar = true := by
  cases v <;> simp_all [Value.isIndexed, Value.isScalar]

theorem fieldPath_iff {p : Path} {d : Dict} {w : Value} {field : PyStr} (hf : FieldNames (.dict d))
    (h : getAt p (.dict d) = some w) (hw : w.isScalar = true) : fieldPath p = field ↔ keysOf p = splitDots field := by
  constructor
  · rintro rfl
    rw [fieldPath, splitDots_intercalate (keysOf_ne h hw) (keysOf_clean hf h)]
  · intro e
    rw [fieldPath]
    exact (congrArg _ e).trans (intercalate_splitDots field)

/-! ## The values of a document -/

theorem esItems_eq : ∀ (d : Dict) (k : PyStr) (ks : List PyStr),
    esItems d k ks = match aget k d with | some v => esValues v ks | none => []
  | [], _, _ => rfl
  | (k', v) :: r, k, ks => by
    rw [esItems, aget_cons, esItems_eq r k ks]
    by_cases h : k = k'
    · subst h
      rw [if_pos rfl, if_pos rfl]
    · rw [if_neg h, if_neg (fun e => h e.symm)]

theorem mem_esElems : ∀ {l : List Value} {ks : List PyStr} {x : Value},
    x ∈ esElems l ks ↔ ∃ v ∈ l, x ∈ esValues v ks
  | [], _, _ => by simp [esElems]
  | v :: r, ks, x => by
    rw [esElems, List.mem_append, mem_esElems]
    simp

theorem mem_esValues {x : Value} (hx : x.isScalar = true) (hn : x ≠ .none) : ∀ (v : Value) (ks : List PyStr),
    x ∈ esValues v ks ↔ ∃ p, keysOf p = ks ∧ getAt p v = some x := by
  have scal : ∀ (v : Value) (ks : List PyStr), v.isScalar = true → v ≠ .none →
      (x ∈ (match ks with | [] => [v] | _ :: _ => []) ↔ ∃ p, keysOf p = ks ∧ getAt p v = some x) := by
    intro v ks hv hn
    constructor
    · intro h
      cases ks with
      | nil =>
        simp only [List.mem_singleton] at h
        exact ⟨[], rfl, by rw [h]; rfl⟩
      | cons k ks => cases h
    · rintro ⟨p, rfl, hp⟩
      cases p with
      | nil => cases hp; exact List.mem_singleton.2 rfl
      | cons a p => rw [getAt_scalar_cons hv] at hp; cases hp
  refine Value.ind ?_ ?_ ?_ ?_ ?_ ?_ ?_
  · intro ks
    rw [show esValues .none ks = [] from by cases ks <;> rfl]
    constructor
    · intro h; cases h
    · rintro ⟨p, _, hp⟩
      cases p with
      | nil => cases hp; exact absurd rfl hn
      | cons a p => rw [getAt_scalar_cons rfl] at hp; cases hp
  · intro b ks
    rw [← scal _ ks rfl (by simp)]
    cases ks <;> rfl
  · intro b ks
    rw [← scal _ ks rfl (by simp)]
    cases ks <;> rfl
  · intro b ks
    rw [← scal _ ks rfl (by simp)]
    cases ks <;> rfl
  · intro b ks
    rw [← scal _ ks rfl (by simp)]
    cases ks <;> rfl
  · intro l ih ks
    rw [show esValues (.list l) ks = esElems l ks from by cases ks <;> rfl, mem_esElems]
    constructor
    · rintro ⟨v, hv, h⟩
      obtain ⟨p, h1, h2⟩ := (ih v hv ks).1 h
      obtain ⟨i, hi, rfl⟩ := List.mem_iff_getElem.1 hv
      refine ⟨.idx i :: p, h1, ?_⟩
      rw [getAt, List.getElem?_eq_getElem hi]
      exact h2
    · rintro ⟨p, h1, h2⟩
      cases p with
      | nil => cases h2; cases hx
      | cons a p =>
        cases a with
        | key k => cases h2
        | idx i =>
          rw [getAt, Option.bind_eq_some_iff] at h2
          obtain ⟨v, hv, h2⟩ := h2
          have hm := List.mem_of_getElem? hv
          exact ⟨v, hm, (ih v hm ks).2 ⟨p, h1, h2⟩⟩
  · intro d ih ks
    cases ks with
    | nil =>
      rw [show esValues (.dict d) [] = [] from rfl]
      constructor
      · intro h; cases h
      · rintro ⟨p, h1, h2⟩
        exact absurd h1 (keysOf_ne h2 hx)
    | cons k ks =>
      rw [show esValues (.dict d) (k :: ks) = esItems d k ks from rfl, esItems_eq]
      constructor
      · intro h
        cases hk : aget k d with
        | none => rw [hk] at h; cases h
        | some v =>
          rw [hk] at h
          obtain ⟨p, h1, h2⟩ := (ih k v (aget_mem hk) ks).1 h
          refine ⟨.key k :: p, by simpa [keysOf, PathEl.name?] using h1, ?_⟩
          rw [getAt, hk]
          exact h2
      · rintro ⟨p, h1, h2⟩
        cases p with
        | nil => cases h1
        | cons a p =>
          cases a with
          | idx i => cases h2
          | key k' =>
            rw [getAt, Option.bind_eq_some_iff] at h2
            obtain ⟨v, hv, h2⟩ := h2
            have h1' : k' :: keysOf p = k :: ks := by simpa [keysOf, PathEl.name?] using h1
            injection h1' with e1 e2
            subst e1
            rw [hv]
            exact (ih k' v (aget_mem hv) ks).2 ⟨p, e2, h2⟩

/-- The types of fields that queries are about. -/
def PType.queried (t : PType) : Prop := t = .keyword ∨ t = .number ∨ t = .date ∨ t = .boolean

theorem PType.queried.plain {t : PType} (h : t.queried) : PlainType t.name := by
  rcases h with rfl | rfl | rfl | rfl <;> simp [PlainType, PType.name]

theorem esField_eq {t : PType} (ht : t.queried) (field : PyStr) (parsed : Dict) :
    esField (parsedPath field t) parsed = (esValues (.dict parsed) (splitDots field ++ [t.name]), some t) := by
  have h1 : splitDots (parsedPath field t) = "data".toList :: (splitDots field ++ [t.name]) := by
    have h2 : splitDots t.name = [t.name] := by
      rcases ht with rfl | rfl | rfl | rfl <;> rfl
    rw [parsedPath, splitDots_append, splitDots_append, h2]
    rfl
  have h2 : [PType.keyword, .number, .date, .boolean].find?
      (fun t' => some t'.name = (splitDots field ++ [t.name]).getLast?) = some t := by
    rw [List.getLast?_append]
    rcases ht with rfl | rfl | rfl | rfl <;> rfl
  unfold esField
  rw [h1]
  dsimp only
  rw [if_pos rfl, h2]

theorem parseValue_ne_none {v x : Value} {t : PType} (ht : t.queried) (h : aget t.name (parseValue E o v) = some x) :
    x ≠ .none := by
  rcases ht with rfl | rfl | rfl | rfl
  · rw [show PType.keyword.name = "_k".toList from rfl, aget_base (by decide)] at h
    have h' : some (Value.str (pyTake o.keywordLength (strValue E o v))) = some x := h
    cases h'
    simp
  · rw [show PType.number.name = "_n".toList from rfl, aget_number] at h
    unfold parsedNumber at h
    split at h
    · cases h; simp
    · cases h; simp
    · obtain ⟨y, _, rfl⟩ := Option.map_eq_some_iff.1 h
      simp
  · rw [show PType.date.name = "_d".toList from rfl, aget_date] at h
    obtain ⟨y, _, rfl⟩ := Option.map_eq_some_iff.1 h
    simp
  · rw [show PType.boolean.name = "_b".toList from rfl, aget_bool] at h
    obtain ⟨y, _, rfl⟩ := Option.map_eq_some_iff.1 h
    simp

/-- Where the values of a document at the path of a query come from. -/
theorem mem_esField {d : Dict} {pd : ParsedData} (hw : (Value.dict d).wf = true) (hf : FieldNames (.dict d))
    (h : parse E o d = .ok pd) {t : PType} (ht : t.queried) (field : PyStr) (f : Value → Bool) :
    (esField (parsedPath field t) pd.parsed).1.any f = true ↔
      HasInField d field (fun v => ∃ s, aget t.name (parseValue E o v) = some s ∧ f s = true) := by
  rw [esField_eq ht, List.any_eq_true]
  constructor
  · rintro ⟨s, hs, hfs⟩
    dsimp only at hs
    -- the value is a scalar
    have hsc : s.isScalar = true ∧ s ≠ .none := by
      have : ∀ (v : Value) ks, s ∈ esValues v ks → s.isScalar = true ∧ s ≠ .none := by
        refine Value.ind ?_ ?_ ?_ ?_ ?_ ?_ ?_
        · intro ks h; cases ks <;> cases h
        · intro b ks h
          cases ks with
          | nil => rw [show esValues (.bool b) [] = [.bool b] from rfl, List.mem_singleton] at h; subst h; simp [Value.isScalar]
          | cons => cases h
        · intro b ks h
          cases ks with
          | nil => rw [show esValues (.int b) [] = [.int b] from rfl, List.mem_singleton] at h; subst h; simp [Value.isScalar]
          | cons => cases h
        · intro b ks h
          cases ks with
          | nil => rw [show esValues (.float b) [] = [.float b] from rfl, List.mem_singleton] at h; subst h; simp [Value.isScalar]
          | cons => cases h
        · intro b ks h
          cases ks with
          | nil => rw [show esValues (.str b) [] = [.str b] from rfl, List.mem_singleton] at h; subst h; simp [Value.isScalar]
          | cons => cases h
        · intro l ih ks h
          rw [show esValues (.list l) ks = esElems l ks from by cases ks <;> rfl, mem_esElems] at h
          obtain ⟨v, hv, h⟩ := h
          exact ih v hv ks h
        · intro d ih ks h
          cases ks with
          | nil => cases h
          | cons k ks =>
            rw [show esValues (.dict d) (k :: ks) = esItems d k ks from rfl, esItems_eq] at h
            cases hk : aget k d with
            | none => rw [hk] at h; cases h
            | some v =>
              rw [hk] at h
              exact ih k v (aget_mem hk) ks h
      exact this _ _ hs
    obtain ⟨p, hp, hg⟩ := (mem_esValues hsc.1 hsc.2 _ _).1 hs
    -- split the path at the name of the type
    have hsplit : ∀ (p : Path) (ks : List PyStr) (k : PyStr), keysOf p = ks ++ [k] →
        ∃ p0 q, p = p0 ++ [.key k] ++ q ∧ keysOf p0 = ks ∧ keysOf q = [] := by
      intro p
      induction p with
      | nil => intro ks k h; cases ks <;> cases h
      | cons a p ih =>
        intro ks k h
        cases a with
        | idx i =>
          have h' : keysOf p = ks ++ [k] := h
          obtain ⟨p0, q, rfl, h2, h3⟩ := ih ks k h'
          exact ⟨.idx i :: p0, q, rfl, h2, h3⟩
        | key k' =>
          have h' : k' :: keysOf p = ks ++ [k] := by simpa [keysOf, PathEl.name?] using h
          cases ks with
          | nil =>
            injection h' with e1 e2
            subst e1
            exact ⟨[], p, rfl, rfl, e2⟩
          | cons k0 ks =>
            injection h' with e1 e2
            subst e1
            obtain ⟨p0, q, rfl, h2, h3⟩ := ih ks k e2
            exact ⟨.key k' :: p0, q, rfl, by simpa [keysOf, PathEl.name?] using h2, h3⟩
    obtain ⟨p0, q, rfl, h1, h2⟩ := hsplit p _ _ hp
    rw [getAt_append, Option.bind_eq_some_iff] at hg
    obtain ⟨y, hy, hyq⟩ := hg
    obtain ⟨w, hw1, hw2, hw3⟩ := parse_inv hw hf h ht.plain hy
    have hys := parseValue_scalar (Value.isScalar_of_isIndexed hw2) hw3
    have hq : q = [] := by
      cases q with
      | nil => rfl
      | cons a q => rw [getAt_scalar_cons hys] at hyq; cases hyq
    subst hq
    cases hyq
    exact ⟨p0, w, (fieldPath_iff hf hw1 (Value.isScalar_of_isIndexed hw2)).2 h1, hw1, hw2, _, hw3, hfs⟩
  · rintro ⟨p, v, h1, h2, h3, s, h4, h5⟩
    have hvs := Value.isScalar_of_isIndexed h3
    refine ⟨s, ?_, h5⟩
    dsimp only
    rw [mem_esValues (parseValue_scalar hvs h4) (parseValue_ne_none ht h4)]
    obtain ⟨pv, h6, h7⟩ := parse_at hw hf h h2 h3
    refine ⟨p ++ [.key t.name], ?_, ?_⟩
    · rw [keysOf, List.filterMap_append, ← (fieldPath_iff hf h2 hvs).1 h1]
      rfl
    · rw [getAt_append, h6]
      show (aget t.name pv).bind (getAt []) = some s
      rw [h7 _ ht.plain.not_geo, h4]
      rfl

end Splitgill
