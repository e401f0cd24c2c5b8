import Verif.Proof.Query2
import Verif.Props.Parse
/-!
# Properties of queries
-/

namespace Splitgill.Props

open Splitgill

/-- The words between spaces. -/
def exSplit : PyStr → List PyStr
  | [] => [[]]
  | c :: s =>
    match exSplit s with
    | w :: r => if c = ' ' then [] :: w :: r else (c :: w) :: r
    | [] => [[c]]

/-- An Elasticsearch that lowers `A` and looks for words between spaces, and local time one hour ahead of UTC. -/
def exQuery : QueryEnv where
  normalise := exLowerStr
  localOffset := fun _ => 3600000000
  analyse := fun s => (exSplit (exLowerStr s)).filter (fun w => !w.isEmpty)

/-! ## C50 -/

/-- The full statement of C50: a value that is stored in a field is found by a term query for it. -/
def C50_full : Prop := ∀ (Q : QueryEnv) (E : ParseEnv) (o : ParsingOptions) (d : Dict) (pd : ParsedData),
  0 ≤ o.keywordLength → (Value.dict d).wf = true → FieldNames (.dict d) → parse E o d = .ok pd →
  ∀ (p : Path) (v : Value) (t : PType), getAt p (.dict d) = some v → ArgType (.value v) t →
  ∃ q, termQuery Q (fieldPath p) (.value v) none = .ok q ∧ q.matches Q pd.parsed = true

/-- **C50 does not hold in full**: strings longer than the keyword length are not found, here `Point` with the keyword
length 4. -/
theorem C50_refuted : ¬ C50_full := by
  intro h
  obtain ⟨q, h1, h2⟩ := h exQuery exEnv exParseOpts [("a".toList, .str "Point".toList)] _ (by decide) (by decide)
    (fieldNames_of_check (by decide)) rfl [.key "a".toList] _ .keyword rfl (.str _)
  cases h1
  exact absurd h2 (by decide)

/-- The values that are found: strings up to the keyword length, ints, booleans, and floats that are numbers. -/
inductive Findable (o : ParsingOptions) : Value → Prop
  | str (s) : s ≠ [] → (s.length : ℤ) ≤ o.keywordLength → Findable o (.str s)
  | int (i) : Findable o (.int i)
  | bool (b) : Findable o (.bool b)
  | float (q) : Findable o (.float (.fin q))
  | negZero : Findable o (.float .negZero)

/-- **C50**: a value in a field is found by a term query for it, if it is not a string that is too long. -/
theorem C50_values_partial (Q : QueryEnv) (E : ParseEnv) (o : ParsingOptions) (d : Dict) (pd : ParsedData)
    (hw : (Value.dict d).wf = true) (hf : FieldNames (.dict d)) (h : parse E o d = .ok pd)
    (p : Path) (v : Value) (hp : getAt p (.dict d) = some v) (hv : Findable o v) :
    ∃ q, termQuery Q (fieldPath p) (.value v) none = .ok q ∧ q.matches Q pd.parsed = true := by
  cases hv with
  | str s hs hl =>
    refine ⟨_, rfl, (term_keyword hw hf h (by omega) (fieldPath p) s).2 ⟨p, _, rfl, hp, ?_, ?_⟩⟩
    · cases s with
      | nil => exact absurd rfl hs
      | cons => rfl
    · show Q.normalise (s.take o.keywordLength.toNat) = Q.normalise s
      rw [List.take_of_length_le (by omega)]
  | int i => exact ⟨_, rfl, (term_number hw hf h (fieldPath p) (y := i) rfl).2 ⟨p, _, rfl, hp, rfl, i, rfl, rfl⟩⟩
  | bool b => exact ⟨_, rfl, (term_bool hw hf h (fieldPath p) b).2 ⟨p, _, rfl, hp, rfl, rfl⟩⟩
  | float q => exact ⟨_, rfl, (term_number hw hf h (fieldPath p) (y := q) rfl).2 ⟨p, _, rfl, hp, rfl, q, rfl, rfl⟩⟩
  | negZero =>
    exact ⟨_, rfl, (term_number hw hf h (fieldPath p) (y := 0) (by rw [fl_zero]; rfl)).2 ⟨p, _, rfl, hp, rfl, 0, rfl, rfl⟩⟩

example : (∃ pd, parse exEnv exParseOpts exTree = .ok pd) ∧
    getAt [.key "x".toList, .key "y".toList, .idx 1] (.dict exTree) = some (.str "TRUE".toList) ∧
    Findable exParseOpts (.str "TRUE".toList) ∧
    fieldPath [.key "x".toList, .key "y".toList, .idx 1] = "x.y".toList :=
  ⟨⟨_, rfl⟩, rfl, .str _ (by decide) (by decide), by decide⟩

/-- What a term query for a string matches: the records with a value in the field whose text, cut at the keyword length,
is the string but for case. -/
theorem C50_strings_partial (Q : QueryEnv) (E : ParseEnv) (o : ParsingOptions) (d : Dict) (pd : ParsedData)
    (hn : 0 ≤ o.keywordLength) (hw : (Value.dict d).wf = true) (hf : FieldNames (.dict d)) (h : parse E o d = .ok pd)
    (field s : PyStr) :
    ∃ q, termQuery Q field (.value (.str s)) none = .ok q ∧ (q.matches Q pd.parsed = true ↔
      HasInField d field (fun v => keywordOf Q E o v = Q.normalise s)) :=
  ⟨_, rfl, term_keyword hw hf h hn field s⟩

/-- What a term query for a number matches: the records with a value in the field that is, or reads as, this number, up
to the precision of a double. -/
theorem C50_numbers_partial (Q : QueryEnv) (E : ParseEnv) (o : ParsingOptions) (d : Dict) (pd : ParsedData)
    (hw : (Value.dict d).wf = true) (hf : FieldNames (.dict d)) (h : parse E o d = .ok pd) (field : PyStr) (n : Num) :
    ∃ q, termQuery Q field (.value n.value) none = .ok q ∧ (q.matches Q pd.parsed = true ↔
      HasInField d field (fun v => ∃ x, numberOf E o v = some x ∧ fl x = fl n.rat)) := by
  cases n with
  | int i => exact ⟨_, rfl, term_number hw hf h field (y := i) rfl⟩
  | float q => exact ⟨_, rfl, term_number hw hf h field (y := q) rfl⟩

/-- What a term query for a boolean matches. -/
theorem C50_booleans_partial (Q : QueryEnv) (E : ParseEnv) (o : ParsingOptions) (d : Dict) (pd : ParsedData)
    (hw : (Value.dict d).wf = true) (hf : FieldNames (.dict d)) (h : parse E o d = .ok pd) (field : PyStr) (b : Bool) :
    ∃ q, termQuery Q field (.value (.bool b)) none = .ok q ∧ (q.matches Q pd.parsed = true ↔
      HasInField d field (fun v => boolOf E o v = some b)) :=
  ⟨_, rfl, term_bool hw hf h field b⟩

/-- What a term query for a datetime or a date matches: the records with a value in the field that reads as this moment,
where the query takes naive ones as local time. -/
theorem C50_dates_partial (Q : QueryEnv) (E : ParseEnv) (o : ParsingOptions) (d : Dict) (pd : ParsedData)
    (hw : (Value.dict d).wf = true) (hf : FieldNames (.dict d)) (h : parse E o d = .ok pd) (field : PyStr) (m : Moment) :
    ∃ q, termQuery Q field m.arg none = .ok q ∧ (q.matches Q pd.parsed = true ↔
      HasInField d field (fun v => dateOf E o v = some (toTimestamp (m.epoch Q)))) := by
  cases m with
  | aware us => exact ⟨_, rfl, term_date hw hf h field _⟩
  | naive us => exact ⟨_, rfl, term_date hw hf h field _⟩

/-- A text that is read as a date, without a time zone, is found by the naive datetime it stands for (texts without a time
zone are indexed as UTC, so the timestamp that is indexed is the one of the same datetime in UTC). -/
def C50_naive_full : Prop := ∀ (Q : QueryEnv) (E : ParseEnv) (o : ParsingOptions) (d : Dict) (pd : ParsedData),
  (Value.dict d).wf = true → FieldNames (.dict d) → parse E o d = .ok pd →
  ∀ (p : Path) (v : Value) (us : ℤ), getAt p (.dict d) = some v → v.isIndexed = true →
  dateOf E o v = some (toTimestamp us) →
  ∃ q, termQuery Q (fieldPath p) (.naive us) none = .ok q ∧ q.matches Q pd.parsed = true

theorem exTimestamp (us : ℕ) (h1 : 1099511627777000 ≤ us) (h2 : us < 2147483648000000) :
    toTimestamp (us : ℤ) = ((us / 1000 : ℕ) : ℤ) := toTimestamp_range (E := 40) (by omega) (by omega) (by omega)

/-- **This does not hold** where local time is not UTC: `01/02/2020` is not found by `datetime(2020, 2, 1)`. -/
theorem C50_naive_refuted : ¬ C50_naive_full := by
  intro h
  have e1 : toTimestamp (1580515200000000 : ℤ) = 1580515200000 := exTimestamp 1580515200000000 (by norm_num) (by norm_num)
  have e2 : toTimestamp (1580515200000000 - 3600000000 : ℤ) = 1580511600000 :=
    exTimestamp 1580511600000000 (by norm_num) (by norm_num)
  obtain ⟨q, h1, h2⟩ := h exQuery exEnv exParseOpts [("a".toList, .str "01/02/2020".toList)] _ (by decide)
    (fieldNames_of_check (by decide)) rfl [.key "a".toList] _ 1580515200000000 rfl rfl (by rw [e1]; rfl)
  have h3 : (.ok ⟨parsedPath (fieldPath [.key "a".toList]) .date, .int (toTimestamp (1580515200000000 - 3600000000))⟩ :
    Except PyErr EsTerm) = .ok q := h1
  rw [e2] at h3
  cases h3
  exact absurd h2 (by decide)

/-! ## C52 -/

/-- The error of C52: with the arguments the function is made for, `ValueError` is raised exactly if no bound is given. -/
theorem C52_error (Q : QueryEnv) (field : PyStr) (b : Bounds Arg) (t : Option PType)
    (hb : ∀ a, b.Has a → ∃ t, ArgType a t) :
    rangeQuery Q field b t = .error .valueError ↔ b.gte = none ∧ b.lt = none ∧ b.gt = none ∧ b.lte = none := by
  have hinf : ∀ a, b.Has a → ∃ t', typeOrInfer t a = .ok t' := by
    intro a ha
    obtain ⟨t', ht⟩ := hb a ha
    cases t with
    | some t => exact ⟨t, rfl⟩
    | none => cases ht <;> exact ⟨_, rfl⟩
  obtain ⟨gte, lt, gt, lte⟩ := b
  have key : ∀ a, (Bounds.mk gte lt gt lte).first = some a → (Bounds.mk gte lt gt lte).Has a := by
    intro a ha
    cases gte with
    | some x => exact .inl ha
    | none =>
      cases lt with
      | some x => exact .inr (.inl ha)
      | none =>
        cases gt with
        | some x => exact .inr (.inr (.inl ha))
        | none =>
          cases lte with
          | some x => exact .inr (.inr (.inr ha))
          | none => cases ha
  unfold rangeQuery
  cases hfirst : (Bounds.mk gte lt gt lte).first with
  | none =>
    cases gte <;> cases lt <;> cases gt <;> cases lte <;> first | (cases hfirst; done) | simp
  | some a =>
    obtain ⟨t', ht⟩ := hinf a (key a hfirst)
    dsimp only
    rw [ht]
    constructor
    · intro h; cases h
    · rintro ⟨h1, h2, h3, h4⟩
      subst h1 h2 h3 h4
      cases hfirst

/-- The type in C52: without an argument for it, it is that of the first bound given, in the order `gte`, `lt`, `gt`,
`lte`; the bounds in the query are the ones given. -/
theorem C52_type (Q : QueryEnv) (field : PyStr) (b : Bounds Arg) (a : Arg) (t : PType) (ht : ArgType a t)
    (ha : b.gte = some a ∨ b.gte = none ∧ (b.lt = some a ∨ b.lt = none ∧ (b.gt = some a ∨ b.gt = none ∧ b.lte = some a))) :
    rangeQuery Q field b none =
      .ok ⟨"data.".toList ++ field ++ ".".toList ++ t.name, b.map (Arg.toValue Q)⟩ := by
  have hfirst : b.first = some a := by
    obtain ⟨gte, lt, gt, lte⟩ := b
    rcases ha with h | ⟨h, h' | ⟨h', h'' | ⟨h'', h'''⟩⟩⟩ <;> simp_all [Bounds.first]
  have htype : typeOrInfer none a = .ok t := by cases ht <;> rfl
  unfold rangeQuery
  rw [hfirst]
  dsimp only
  rw [htype]
  simp [parsedPath]

/-- With an argument for the type, it is this one. -/
theorem C52_given_type (Q : QueryEnv) (field : PyStr) (b : Bounds Arg) (a : Arg) (t : PType) (ha : b.Has a) :
    rangeQuery Q field b (some t) =
      .ok ⟨"data.".toList ++ field ++ ".".toList ++ t.name, b.map (Arg.toValue Q)⟩ := by
  have hfirst : ∃ a', b.first = some a' := by
    obtain ⟨gte, lt, gt, lte⟩ := b
    cases gte with
    | some x => exact ⟨x, rfl⟩
    | none =>
      cases lt with
      | some x => exact ⟨x, rfl⟩
      | none =>
        cases gt with
        | some x => exact ⟨x, rfl⟩
        | none =>
          cases lte with
          | some x => exact ⟨x, rfl⟩
          | none => rcases ha with h | h | h | h <;> cases h
  obtain ⟨a', ha'⟩ := hfirst
  unfold rangeQuery
  rw [ha']
  simp [parsedPath, typeOrInfer]

theorem map_map {α β γ : Type} (f : α → β) (g : β → γ) (b : Bounds α) : (b.map f).map g = b.map (g ∘ f) := by
  simp [Bounds.map]

theorem map_has {α β : Type} {f : α → β} {b : Bounds α} {y : β} (h : (b.map f).Has y) : ∃ a, b.Has a ∧ f a = y := by
  rcases h with h | h | h | h <;> obtain ⟨a, h1, h2⟩ := Option.map_eq_some_iff.1 h
  · exact ⟨a, .inl h1, h2⟩
  · exact ⟨a, .inr (.inl h1), h2⟩
  · exact ⟨a, .inr (.inr (.inl h1)), h2⟩
  · exact ⟨a, .inr (.inr (.inr h1)), h2⟩

theorem range_ok {α : Type} (Q : QueryEnv) (field : PyStr) {b : Bounds α} {f : α → Arg} {t : PType}
    (ht : ∀ a, ArgType (f a) t) (hb : ∃ a, b.Has a) :
    rangeQuery Q field (b.map f) none = .ok ⟨parsedPath field t, b.map (fun a => (f a).toValue Q)⟩ := by
  obtain ⟨a, ha⟩ := hb
  have hfirst : ∃ a', (b.map f).first = some (f a') := by
    obtain ⟨gte, lt, gt, lte⟩ := b
    cases gte with
    | some x => exact ⟨x, rfl⟩
    | none =>
      cases lt with
      | some x => exact ⟨x, rfl⟩
      | none =>
        cases gt with
        | some x => exact ⟨x, rfl⟩
        | none =>
          cases lte with
          | some x => exact ⟨x, rfl⟩
          | none => rcases ha with h | h | h | h <;> cases h
  obtain ⟨a', ha'⟩ := hfirst
  have htype : typeOrInfer none (f a') = .ok t := by
    have := ht a'
    generalize f a' = x at this
    cases this <;> rfl
  unfold rangeQuery
  rw [ha']
  dsimp only
  rw [htype, map_map]
  rfl

/-- **C52** for strings: a range query matches exactly if the keyword of a value in the field is within the bounds, but for
case. -/
theorem C52_strings (Q : QueryEnv) (E : ParseEnv) (o : ParsingOptions) (d : Dict) (pd : ParsedData)
    (hn : 0 ≤ o.keywordLength) (hw : (Value.dict d).wf = true) (hf : FieldNames (.dict d)) (h : parse E o d = .ok pd)
    (field : PyStr) (b : Bounds PyStr) (hb : ∃ s, b.Has s) :
    ∃ q, rangeQuery Q field (b.map (fun s => .value (.str s))) none = .ok q ∧ (q.matches Q pd.parsed = true ↔
      HasInField d field (fun v => (b.map Q.normalise).Holds (keywordOf Q E o v))) :=
  ⟨_, range_ok Q field (fun s => .str s) hb, range_keyword hw hf h hn field b⟩

/-- **C52** for booleans. -/
theorem C52_booleans (Q : QueryEnv) (E : ParseEnv) (o : ParsingOptions) (d : Dict) (pd : ParsedData)
    (hw : (Value.dict d).wf = true) (hf : FieldNames (.dict d)) (h : parse E o d = .ok pd)
    (field : PyStr) (b : Bounds Bool) (hb : ∃ x, b.Has x) :
    ∃ q, rangeQuery Q field (b.map (fun x => .value (.bool x))) none = .ok q ∧ (q.matches Q pd.parsed = true ↔
      HasInField d field (fun v => ∃ x, boolOf E o v = some x ∧ b.Holds x)) :=
  ⟨_, range_ok Q field (fun x => .bool x) hb, range_bool hw hf h field b⟩

/-- **C52** for datetimes and dates: compared by their timestamps. -/
theorem C52_dates (Q : QueryEnv) (E : ParseEnv) (o : ParsingOptions) (d : Dict) (pd : ParsedData)
    (hw : (Value.dict d).wf = true) (hf : FieldNames (.dict d)) (h : parse E o d = .ok pd)
    (field : PyStr) (b : Bounds Moment) (hb : ∃ m, b.Has m) :
    ∃ q, rangeQuery Q field (b.map Moment.arg) none = .ok q ∧ (q.matches Q pd.parsed = true ↔
      HasInField d field (fun v => ∃ t, dateOf E o v = some t ∧ (b.map (fun m => toTimestamp (m.epoch Q))).Holds t)) := by
  refine ⟨_, range_ok (t := .date) Q field (fun m => by cases m <;> constructor) hb, ?_⟩
  have e : b.map (fun m => m.arg.toValue Q) = (b.map (fun m => toTimestamp (m.epoch Q))).map Value.int := by
    rw [map_map]
    congr 1
    funext m
    cases m <;> rfl
  rw [e]
  exact range_date hw hf h field _

/-- What C52 says of numbers, up to the precision of doubles. -/
theorem C52_numbers_rounded_partial (Q : QueryEnv) (E : ParseEnv) (o : ParsingOptions) (d : Dict) (pd : ParsedData)
    (hw : (Value.dict d).wf = true) (hf : FieldNames (.dict d)) (h : parse E o d = .ok pd)
    (field : PyStr) (b : Bounds Num) (hb : ∃ n, b.Has n) :
    ∃ q, rangeQuery Q field (b.map (fun n => .value n.value)) none = .ok q ∧ (q.matches Q pd.parsed = true ↔
      HasInField d field (fun v => ∃ x, numberOf E o v = some x ∧ (b.map (fun n => fl n.rat)).Holds (fl x))) :=
  ⟨_, range_ok (t := .number) Q field (fun n => by cases n <;> constructor) hb, range_number hw hf h field b⟩

/-- The full statement of C52 for numbers. -/
def C52_numbers_full : Prop := ∀ (Q : QueryEnv) (E : ParseEnv) (o : ParsingOptions) (d : Dict) (pd : ParsedData),
  (Value.dict d).wf = true → FieldNames (.dict d) → parse E o d = .ok pd →
  ∀ (field : PyStr) (b : Bounds Num), (∃ n, b.Has n) →
  ∃ q, rangeQuery Q field (b.map (fun n => .value n.value)) none = .ok q ∧ (q.matches Q pd.parsed = true ↔
    HasInField d field (fun v => ∃ x, numberOf E o v = some x ∧ (b.map Num.rat).Holds x))

theorem fl_big : fl ((2 ^ 53 + 1 : ℤ) : ℚ) = 2 ^ 53 := by
  have e1 : flExp (((2 ^ 53 + 1 : ℤ) : ℚ)) = 1 := flExp_eq (by norm_num) (by norm_num)
  rw [fl_pos (by norm_num), flPos, e1]
  have e2 : (((2 ^ 53 + 1 : ℤ) : ℚ)) / 2 ^ (1 : ℤ) = 4503599627370496 + 1 / 2 := by norm_num
  have e3 : ⌊(4503599627370496 + 1 / 2 : ℚ)⌋ = 4503599627370496 := by
    rw [Int.floor_eq_iff]
    norm_num
  rw [e2, roundEven, e3]
  norm_num

/-- **C52 does not hold in full for numbers**: `2 ** 53 + 1` is not found with `gt=2 ** 53`. -/
theorem C52_refuted : ¬ C52_numbers_full := by
  intro h
  have hw : (Value.dict [("a".toList, .int (2 ^ 53 + 1))]).wf = true := by decide
  have hf : FieldNames (Value.dict [("a".toList, .int (2 ^ 53 + 1))]) := fieldNames_of_check (by decide)
  obtain ⟨pd, hpd⟩ : ∃ pd, parse exEnv exParseOpts [("a".toList, .int (2 ^ 53 + 1))] = .ok pd := ⟨_, rfl⟩
  have hb : ∃ n, (Bounds.mk none none (some (Num.int (2 ^ 53))) none).Has n := ⟨_, .inr (.inr (.inl rfl))⟩
  obtain ⟨q, h1, h2⟩ := h exQuery exEnv exParseOpts _ pd hw hf hpd "a".toList ⟨none, none, some (.int (2 ^ 53)), none⟩ hb
  obtain ⟨q', h3, h4⟩ := C52_numbers_rounded_partial exQuery exEnv exParseOpts _ pd hw hf hpd "a".toList
    ⟨none, none, some (.int (2 ^ 53)), none⟩ hb
  rw [h1] at h3
  cases h3
  have h5 := h4.1 (h2.2 ⟨[.key "a".toList], _, rfl, rfl, rfl, _, rfl, by
    refine ⟨nofun, nofun, ?_, nofun⟩
    intro y hy
    cases hy
    norm_num [Num.rat]⟩)
  obtain ⟨p, v, h6, h7, h8, x, h9, _, _, h10, _⟩ := h5
  have h11 := h10 _ rfl
  have hp : p = [.key "a".toList] := by
    rw [fieldPath_iff hf h7 (Value.isScalar_of_isIndexed h8)] at h6
    cases p with
    | nil => cases h6
    | cons a p =>
      cases a with
      | idx i => cases h7
      | key k =>
        have h6' : k :: keysOf p = ["a".toList] := h6
        injection h6' with e1 e2
        subst e1
        cases p with
        | nil => rfl
        | cons a p =>
          rw [show getAt (.key "a".toList :: a :: p) (Value.dict [("a".toList, .int (2 ^ 53 + 1))]) =
            getAt (a :: p) (.int (2 ^ 53 + 1)) from rfl, getAt_scalar_cons rfl] at h7
          cases h7
  subst hp
  cases h7
  cases h9
  have h12 : fl (((2 ^ 53 : ℤ)) : ℚ) < fl ((2 ^ 53 + 1 : ℤ) : ℚ) := h11
  rw [fl_big, fl_isDouble (isDouble_int (by norm_num))] at h12
  norm_num at h12

/-- **C52** for numbers that are floats or ints up to `2 ^ 53`: a range query matches exactly if a number in the field is
within the bounds. -/
theorem C52_numbers_partial (Q : QueryEnv) (E : ParseEnv) (hE : E.Floats) (o : ParsingOptions) (d : Dict) (pd : ParsedData)
    (hw : (Value.dict d).wf = true) (hf : FieldNames (.dict d)) (h : parse E o d = .ok pd)
    (hd : ∀ p v, getAt p (.dict d) = some v → v.ExactNumber)
    (field : PyStr) (b : Bounds Num) (hb : ∃ n, b.Has n) (he : ∀ n, b.Has n → n.value.ExactNumber) :
    ∃ q, rangeQuery Q field (b.map (fun n => .value n.value)) none = .ok q ∧ (q.matches Q pd.parsed = true ↔
      HasInField d field (fun v => ∃ x, numberOf E o v = some x ∧ (b.map Num.rat).Holds x)) := by
  obtain ⟨q, h1, h2⟩ := C52_numbers_rounded_partial Q E o d pd hw hf h field b hb
  refine ⟨q, h1, h2.trans ?_⟩
  have hbe : b.map (fun n => fl n.rat) = b.map Num.rat := by
    have : ∀ x : Option Num, (∀ n, x = some n → b.Has n) → x.map (fun n => fl n.rat) = x.map Num.rat := by
      intro x hx
      cases x with
      | none => rfl
      | some n => simp [num_exact (he n (hx n rfl))]
    unfold Bounds.map
    rw [this b.gte (fun n hn => .inl hn), this b.lt (fun n hn => .inr (.inl hn)),
      this b.gt (fun n hn => .inr (.inr (.inl hn))), this b.lte (fun n hn => .inr (.inr (.inr hn)))]
  rw [hbe]
  constructor
  · rintro ⟨p, v, h3, h4, h5, x, h6, h7⟩
    rw [fl_isDouble (numberOf_isDouble hE (hd p v h4) h6)] at h7
    exact ⟨p, v, h3, h4, h5, x, h6, h7⟩
  · rintro ⟨p, v, h3, h4, h5, x, h6, h7⟩
    refine ⟨p, v, h3, h4, h5, x, h6, ?_⟩
    rw [fl_isDouble (numberOf_isDouble hE (hd p v h4) h6)]
    exact h7

/-- **C52** for all numbers: with `gte` and `lte` nothing is missed, with `lt` and `gt` nothing is found that should not
be. -/
theorem C52_numbers_sides_partial (Q : QueryEnv) (E : ParseEnv) (o : ParsingOptions) (d : Dict) (pd : ParsedData)
    (hw : (Value.dict d).wf = true) (hf : FieldNames (.dict d)) (h : parse E o d = .ok pd)
    (field : PyStr) (b : Bounds Num) (hb : ∃ n, b.Has n) :
    ∃ q, rangeQuery Q field (b.map (fun n => .value n.value)) none = .ok q ∧
      (b.lt = none → b.gt = none →
        HasInField d field (fun v => ∃ x, numberOf E o v = some x ∧ (b.map Num.rat).Holds x) →
        q.matches Q pd.parsed = true) ∧
      (b.gte = none → b.lte = none → q.matches Q pd.parsed = true →
        HasInField d field (fun v => ∃ x, numberOf E o v = some x ∧ (b.map Num.rat).Holds x)) := by
  obtain ⟨q, h1, h2⟩ := C52_numbers_rounded_partial Q E o d pd hw hf h field b hb
  refine ⟨q, h1, ?_, ?_⟩
  · rintro e1 e2 ⟨p, v, h3, h4, h5, x, h6, h7, _, _, h8⟩
    refine h2.2 ⟨p, v, h3, h4, h5, x, h6, ?_, ?_, ?_, ?_⟩
    · intro y hy
      obtain ⟨n, hn, rfl⟩ := Option.map_eq_some_iff.1 hy
      exact fl_mono (h7 _ (Option.map_eq_some_iff.2 ⟨n, hn, rfl⟩))
    · intro y hy
      obtain ⟨n, hn, rfl⟩ := Option.map_eq_some_iff.1 hy
      rw [e1] at hn; cases hn
    · intro y hy
      obtain ⟨n, hn, rfl⟩ := Option.map_eq_some_iff.1 hy
      rw [e2] at hn; cases hn
    · intro y hy
      obtain ⟨n, hn, rfl⟩ := Option.map_eq_some_iff.1 hy
      exact fl_mono (h8 _ (Option.map_eq_some_iff.2 ⟨n, hn, rfl⟩))
  · intro e1 e2 hm
    obtain ⟨p, v, h3, h4, h5, x, h6, _, h7, h8, _⟩ := h2.1 hm
    refine ⟨p, v, h3, h4, h5, x, h6, ?_, ?_, ?_, ?_⟩
    · intro y hy
      obtain ⟨n, hn, rfl⟩ := Option.map_eq_some_iff.1 hy
      rw [e1] at hn; cases hn
    · intro y hy
      obtain ⟨n, hn, rfl⟩ := Option.map_eq_some_iff.1 hy
      by_contra hc
      exact absurd (h7 _ (Option.map_eq_some_iff.2 ⟨n, hn, rfl⟩)) (not_lt.2 (fl_mono (not_lt.1 hc)))
    · intro y hy
      obtain ⟨n, hn, rfl⟩ := Option.map_eq_some_iff.1 hy
      by_contra hc
      exact absurd (h8 _ (Option.map_eq_some_iff.2 ⟨n, hn, rfl⟩)) (not_lt.2 (fl_mono (not_lt.1 hc)))
    · intro y hy
      obtain ⟨n, hn, rfl⟩ := Option.map_eq_some_iff.1 hy
      rw [e2] at hn; cases hn

/-- Data and bounds that the theorems are about: `5` is within `[5, 7)`. -/
example : (∃ pd, parse exEnv exParseOpts exTree = .ok pd) ∧ exEnv.Floats ∧
    (∃ n, (Bounds.mk (some (Num.int 5)) (some (Num.float 7)) none none).Has n) ∧
    HasInField exTree "lat".toList (fun v => ∃ x, numberOf exEnv exParseOpts v = some x ∧
      ((Bounds.mk (some (Num.int 5)) (some (Num.float 7)) none none).map Num.rat).Holds x) := by
  refine ⟨⟨_, rfl⟩, ?_, ⟨_, .inl rfl⟩, [.key "lat".toList], .int 5, by decide, rfl, rfl, 5, rfl, ?_, ?_, nofun, nofun⟩
  · intro s q h
    simp only [exEnv] at h
    split at h
    · cases h
      exact ⟨1, 0, by norm_num, by norm_num⟩
    · cases h
  · intro y hy
    cases hy
    norm_num [Num.rat]
  · intro y hy
    cases hy
    show (5 : ℚ) < 7
    norm_num

end Splitgill.Props
