import Verif.Proof.Zeros2
import Verif.Props.Filter
/-!
# C115: queries for zeros

Python and Elasticsearch read and write `-0.0` as a double of its own. For Python it is equal to `0`. For Elasticsearch it is another term, just
before `0.0`.
-/

namespace Splitgill.Props
open Splitgill

/-! ## One document -/

/-- **C115**, as it should be: `term_query(field, n)` matches the documents with a value in the field that is, or reads as, a number equal to
`n`, up to the precision of a double. -/
def C115_full : Prop := ∀ (Q : QueryEnv) (E : ParseEnv) (o : ParsingOptions) (d : Dict) (pd : ParsedData),
  (Value.dict d).wf = true → FieldNames (.dict d) → parse E o d = .ok pd → ∀ (field : PyStr) (n : Num),
  ∃ q, termQuery Q field (.value n.value) none = .ok q ∧ (q.matchesSigned Q pd.parsed = true ↔
    HasInField d field (fun v => ∃ x, numberOf E o v = some x ∧ fl x = fl n.rat))

/-- **C115 does not hold in full**: `{"a": -0.0}` is not found by `term_query("a", 0)`. -/
theorem C115_refuted : ¬ C115_full := by
  intro h
  obtain ⟨q, h1, h2⟩ := h exQuery exEnv exParseOpts [("a".toList, .float .negZero)] _ (by decide)
    (fieldNames_of_check (by decide)) rfl "a".toList (.int 0)
  cases h1
  have := h2.2 ⟨[.key "a".toList], _, by decide, rfl, rfl, 0, rfl, by simp [Num.rat]⟩
  revert this
  decide +kernel

/-- **C115** (what holds) for terms: `term_query(field, n)` matches the documents with a value in the field that is, or reads as, a number equal to
`n` and is not a negative zero. -/
theorem C115_terms_partial (Q : QueryEnv) (E : ParseEnv) (o : ParsingOptions) (d : Dict) (pd : ParsedData)
    (hw : (Value.dict d).wf = true) (hf : FieldNames (.dict d)) (h : parse E o d = .ok pd) (field : PyStr) (n : Num) :
    ∃ q, termQuery Q field (.value n.value) none = .ok q ∧ (q.matchesSigned Q pd.parsed = true ↔
      HasInField d field (fun v => ¬ IsNegZero E o v ∧ ∃ x, numberOf E o v = some x ∧ fl x = fl n.rat)) := by
  refine ⟨_, num_queried Q field n, (term_signed hw hf h field (num_signed n)).trans (hasInField_congr fun v => ?_)⟩
  rcases signed_conv (E := E) (o := o) v with ⟨h1, h2⟩ | ⟨h1, h2⟩ <;> rw [h1]
  · simp [h2]
  · simp [h2, Option.map_eq_some_iff]

/-- **C115**: `term_query(field, -0.0)` matches the documents with a negative zero in the field. -/
theorem C115_negative_zero (Q : QueryEnv) (E : ParseEnv) (o : ParsingOptions) (d : Dict) (pd : ParsedData)
    (hw : (Value.dict d).wf = true) (hf : FieldNames (.dict d)) (h : parse E o d = .ok pd) (field : PyStr) :
    ∃ q, termQuery Q field (.value (.float .negZero)) none = .ok q ∧ (q.matchesSigned Q pd.parsed = true ↔
      HasInField d field (IsNegZero E o)) := by
  refine ⟨_, rfl, (term_signed hw hf h field (w := .float .negZero) rfl).trans (hasInField_congr fun v => ?_)⟩
  rcases signed_conv (E := E) (o := o) v with ⟨h1, h2⟩ | ⟨h1, h2⟩ <;> rw [h1]
  · simp [h2]
  · simp [h2, Option.map_eq_some_iff]

/-- **C115** (what holds) for ranges: a negative zero keeps the bounds that the numbers just below zero keep, so `gte=0` does not find it, `lt=0`
does; other values keep the bounds that they keep as numbers. -/
theorem C115_ranges_partial (Q : QueryEnv) (E : ParseEnv) (o : ParsingOptions) (d : Dict) (pd : ParsedData)
    (hw : (Value.dict d).wf = true) (hf : FieldNames (.dict d)) (h : parse E o d = .ok pd) (field : PyStr) (b : Bounds Num)
    (hb : ∃ n, b.Has n) :
    ∃ q, rangeQuery Q field (b.map (fun n => .value n.value)) none = .ok q ∧ (q.matchesSigned Q pd.parsed = true ↔
      HasInField d field (fun v => (IsNegZero E o v ∧ (b.map (fun n => fl n.rat)).HoldsNegZero) ∨
        (¬ IsNegZero E o v ∧ ∃ x, numberOf E o v = some x ∧ (b.map (fun n => fl n.rat)).Holds (fl x)))) := by
  refine ⟨⟨parsedPath field .number, b.map Num.value⟩, ?_,
    (range_signed hw hf h field b Num.value (fun n => ⟨fl n.rat, true⟩) (fun n _ => num_signed n)).trans (hasInField_congr fun v => ?_)⟩
  · obtain ⟨q, t, hq, hon, _⟩ := (Asked.numbers b).query_ok Q field hb
    have hq : (rangeQuery Q field (b.map (fun n => .value n.value)) none).map EsQuery.range = .ok q := hq
    unfold rangeQuery at hq ⊢
    split at hq
    · cases hq
    · rename_i a ha
      have : typeOrInfer none a = .ok .number := by
        have : ∃ n : Num, a = .value n.value := by
          have ha : ((b.map (fun n => Arg.value n.value)).first) = some a := ha
          simp only [Bounds.first, Bounds.map, List.findSome?_cons, List.findSome?_nil, id] at ha
          rcases b with ⟨_ | x1, _ | x2, _ | x3, _ | x4⟩ <;> simp at ha <;> exact ⟨_, ha.symm⟩
        obtain ⟨n, rfl⟩ := this
        cases n <;> rfl
      simp only [this]
      rw [bounds_map_map]
      rfl
  · have e : (b.map (fun n => (⟨fl n.rat, true⟩ : Signed))) = (b.map (fun n => fl n.rat)).map (fun y => ⟨y, true⟩) := by
      rw [bounds_map_map]; rfl
    rw [e]
    rcases signed_conv (E := E) (o := o) v with ⟨h1, h2⟩ | ⟨h1, h2⟩ <;> rw [h1]
    · simp [h2, holds_minus]
    · cases numberOf E o v <;> simp [h2, holds_plus]

/-- **C115**: `range_query(field, gte=-0.0, lte=0)` matches the documents with a value in the field that is a zero, of either sign. -/
theorem C115_both_zeros (Q : QueryEnv) (E : ParseEnv) (o : ParsingOptions) (d : Dict) (pd : ParsedData)
    (hw : (Value.dict d).wf = true) (hf : FieldNames (.dict d)) (h : parse E o d = .ok pd) (field : PyStr) :
    ∃ q, rangeQuery Q field { gte := some (.value (.float .negZero)), lte := some (.value (.int 0)) } none = .ok q ∧
      (q.matchesSigned Q pd.parsed = true ↔ HasInField d field (fun v => ∃ x, numberOf E o v = some x ∧ fl x = 0)) := by
  refine ⟨⟨parsedPath field .number, Bounds.map id { gte := some (.float .negZero), lte := some (.int 0) }⟩, rfl,
    (range_signed hw hf h field _ id (fun v => if v = .float .negZero then ⟨0, false⟩ else ⟨0, true⟩) ?_).trans (hasInField_congr fun v => ?_)⟩
  · rintro a (e | e | e | e) <;> cases e
    · rfl
    · show some (Signed.mk (fl ((0 : ℤ) : ℚ)) true) = _
      simp [fl_zero]
  · have key : ∀ x : Signed, (Bounds.map (fun v => if v = Value.float .negZero then (⟨0, false⟩ : Signed) else ⟨0, true⟩)
        { gte := some (.float .negZero), lte := some (.int 0) }).Holds x ↔ x.number = 0 := by
      rintro ⟨x, b⟩
      have h1 : (⟨0, false⟩ : Signed) ≤ ⟨x, b⟩ ↔ 0 ≤ x := by
        show leSigned _ _ = true ↔ _
        simp [leSigned, le_iff_lt_or_eq]
      have h2 : (⟨x, b⟩ : Signed) ≤ ⟨0, true⟩ ↔ x ≤ 0 := by
        show leSigned _ _ = true ↔ _
        simp [leSigned, le_iff_lt_or_eq]
      simp [Bounds.Holds, Bounds.map, h1, h2]
      constructor
      · rintro ⟨h1, h2⟩; exact le_antisymm h2 h1
      · rintro rfl; exact ⟨le_rfl, le_rfl⟩
    simp only [key]
    rcases signed_conv (E := E) (o := o) v with ⟨h1, h2⟩ | ⟨h1, h2⟩ <;> rw [h1]
    · simp [isNegZero_number h2, fl_zero]
    · cases numberOf E o v <;> simp

/-- `{"a": -0.0, "b": [0, "1"]}` -/
def exZeros : Dict := [("a".toList, .float .negZero), ("b".toList, .list [.int 0, .str "1".toList])]

example : (Value.dict exZeros).wf = true ∧ FieldNames (.dict exZeros) ∧ (∃ pd, parse exEnv exParseOpts exZeros = .ok pd) ∧
    HasInField exZeros "a".toList (IsNegZero exEnv exParseOpts) ∧
    HasInField exZeros "b".toList (fun v => ¬ IsNegZero exEnv exParseOpts v ∧ ∃ x, numberOf exEnv exParseOpts v = some x ∧ fl x = fl (Num.int 0).rat) :=
  ⟨by decide, fieldNames_of_check (by decide), ⟨_, rfl⟩, ⟨[.key "a".toList], _, by decide, rfl, rfl, rfl⟩,
    ⟨[.key "b".toList, .idx 0], .int 0, by decide, rfl, rfl, fun h => h, 0, rfl, by simp [Num.rat]⟩⟩

/-- Which of the zeros of the example the queries match. -/
example : ∃ pd, parse exEnv exParseOpts exZeros = .ok pd ∧
    (∀ f : PyStr, f = "a".toList → ∀ q, termQuery exQuery f (.value (.int 0)) none = .ok q → q.matchesSigned exQuery pd.parsed = false) ∧
    (∀ q, rangeQuery exQuery "a".toList { gte := some (.value (.int 0)) } none = .ok q → q.matchesSigned exQuery pd.parsed = false) ∧
    (∀ q, rangeQuery exQuery "a".toList { lt := some (.value (.int 0)) } none = .ok q → q.matchesSigned exQuery pd.parsed = true) ∧
    (∀ q, rangeQuery exQuery "b".toList { lt := some (.value (.int 0)) } none = .ok q → q.matchesSigned exQuery pd.parsed = false) := by
  refine ⟨_, rfl, ?_, ?_, ?_, ?_⟩
  · rintro f rfl q h; cases h; decide +kernel
  all_goals (intro q h; cases h; decide +kernel)

/-! ## From calls to searches -/

/-- **C115** from calls to searches, as it should be: what C77 says of searches (if no two data of a record hold equal but different scalars at
the same place) holds with both zeros. -/
def C115_search_full : Prop :=
  ∀ (E : ParseEnv), E.IgnoresOrder → E.ScalarHints → ∀ (U : Unicode), U.Sane → ∀ (maxDocs : Nat) (db : PyStr) (calls : List ApiCall),
    Orderly calls → (∃ v, IsVersion (afterCalls U db calls) db v) →
    (∀ x ∈ committedOptionsOf db (afterCalls U db calls), 0 ≤ x.2.keywordLength) → NoPunsAmong U (calls.flatMap ApiCall.stream) →
    ∃ es, sync (realParser E) maxDocs db false (afterCalls U db calls) [] = .ok es ∧
      ∀ (Q : QueryEnv) (field : PyStr) (k : Asked), k.Bounded → ∃ q, k.query Q field = .ok q ∧
        ∀ v, (foundIds (es.searchSigned Q (.version v) q)).Nodup ∧ ∀ id, id ∈ foundIds (es.searchSigned Q (.version v) q) ↔
          HoldsAsOf (ingested U db calls) (committedOptionsOf db (afterCalls U db calls)) v id
            (fun a o => HasInField a field (k.holds Q E o))

/-- **C115** (what holds) after one sync: C77 holds with both zeros if no data that is given has a negative zero in it. -/
theorem C115_first_sync_partial (E : ParseEnv) (hE : E.IgnoresOrder) (hS : E.ScalarHints) (U : Unicode) (hU : U.Sane) (maxDocs : Nat)
    (db : PyStr) (calls : List ApiCall) (ho : Orderly calls) (hv : ∃ v, IsVersion (afterCalls U db calls) db v)
    (hk : ∀ x ∈ committedOptionsOf db (afterCalls U db calls), 0 ≤ x.2.keywordLength)
    (hn : NoPunsAmong U (calls.flatMap ApiCall.stream))
    (hz : ∀ r ∈ calls.flatMap ApiCall.stream, ∀ o, NoNegZeros E o (prepareRecordData U r)) :
    ∃ es, sync (realParser E) maxDocs db false (afterCalls U db calls) [] = .ok es ∧
      ∀ (Q : QueryEnv) (field : PyStr) (k : Asked), k.Bounded → ∃ q, k.query Q field = .ok q ∧
        ∀ v, (foundIds (es.searchSigned Q (.version v) q)).Nodup ∧ ∀ id, id ∈ foundIds (es.searchSigned Q (.version v) q) ↔
          HoldsAsOf (ingested U db calls) (committedOptionsOf db (afterCalls U db calls)) v id
            (fun a o => HasInField a field (k.holds Q E o)) := by
  obtain ⟨es, hi, h1, hl, hm, h2, h3⟩ := setup_first E U hU maxDocs db calls ho hv hn
  refine ⟨es, h1, fun Q field k hb => ?_⟩
  obtain ⟨q, t, hq, hon, _⟩ := k.query_ok Q field hb
  obtain ⟨q', hq', h⟩ := hl.asked hE hS hm h2 h3 hk Q field k hb
  rw [hq] at hq'
  cases hq'
  refine ⟨q, hq, fun v => ?_⟩
  rw [hl.search_signed hE hS hm h2 h3 (fun id x hx o => ?_) hon (k.query_noNegZero Q field hq) Q v]
  · exact h v
  · obtain ⟨r, hr, _, e⟩ := ingested_from U db calls hx
    rw [e]
    exact hz r hr o

/-- **C115** (what holds) after any calls and syncs between them, under the conditions of C77. -/
theorem C115_syncs_partial (E : ParseEnv) (hE : E.IgnoresOrder) (hS : E.ScalarHints) (U : Unicode) (hU : U.Sane) (maxDocs : Nat)
    (db : PyStr) (first : List ApiCall) (parts : List (List ApiCall)) (ho : Orderly (first ++ parts.flatten))
    (hv : ∃ v, IsVersion (afterCalls U db first) db v) (he : EachPart (NoUpdateDelete db) U db first parts)
    (hp : ∀ m ∈ statesOf U db first parts, NoPending db m)
    (hk : ∀ x ∈ committedOptionsOf db (afterCalls U db (first ++ parts.flatten)), 0 ≤ x.2.keywordLength)
    (hn : NoPunsAmong U ((first ++ parts.flatten).flatMap ApiCall.stream))
    (hz : ∀ r ∈ (first ++ parts.flatten).flatMap ApiCall.stream, ∀ o, NoNegZeros E o (prepareRecordData U r)) :
    ∃ es, runSyncs (realParser E) maxDocs db [] (statesOf U db first parts) = .ok es ∧
      ∀ (Q : QueryEnv) (field : PyStr) (k : Asked), k.Bounded → ∃ q, k.query Q field = .ok q ∧
        ∀ v, (foundIds (es.searchSigned Q (.version v) q)).Nodup ∧ ∀ id, id ∈ foundIds (es.searchSigned Q (.version v) q) ↔
          HoldsAsOf (ingested U db (first ++ parts.flatten)) (committedOptionsOf db (afterCalls U db (first ++ parts.flatten))) v id
            (fun a o => HasInField a field (k.holds Q E o)) := by
  obtain ⟨es, hi, h1, hl, hm, h2, h3, _⟩ := setup_syncs E hE U hU maxDocs db first parts ho hv he hp hn
  refine ⟨es, h1, fun Q field k hb => ?_⟩
  obtain ⟨q, t, hq, hon, _⟩ := k.query_ok Q field hb
  obtain ⟨q', hq', h⟩ := hl.asked hE hS hm h2 h3 hk Q field k hb
  rw [hq] at hq'
  cases hq'
  refine ⟨q, hq, fun v => ?_⟩
  rw [hl.search_signed hE hS hm h2 h3 (fun id x hx o => ?_) hon (k.query_noNegZero Q field hq) Q v]
  · exact h v
  · obtain ⟨r, hr, _, e⟩ := ingested_from U db _ hx
    rw [e]
    exact hz r hr o

theorem noNegZeros_of_flat {E : ParseEnv} (hE : ∀ s, E.toNumber s ≠ some .negZero) {o : ParsingOptions} {d : Dict}
    (h : d.all (fun kv => kv.2.isScalar && decide (kv.2 ≠ .float .negZero)) = true) : NoNegZeros E o d := by
  have hs : ∀ v : Value, v ≠ .float .negZero → ¬ IsNegZero E o v := by
    intro v hv
    unfold IsNegZero
    split
    · exact id
    · rintro rfl; exact hv rfl
    · exact hE _
  intro p v hv
  apply hs
  rintro rfl
  cases p with
  | nil => cases hv
  | cons c p =>
    cases c with
    | idx i => cases hv
    | key k =>
      rw [getAt] at hv
      obtain ⟨y, hy, hv⟩ := Option.bind_eq_some_iff.1 hv
      have := List.all_eq_true.1 h _ (aget_mem hy)
      simp only [Bool.and_eq_true, decide_eq_true_eq] at this
      cases p with
      | nil => cases hv; exact this.2 rfl
      | cons c p => cases y <;> cases c <;> simp_all [getAt, Value.isScalar]

/-- A record with `1` and `0.0`; and one with `-0.0`. -/
def exZeroCalls (f : PyFloat) : List ApiCall :=
  [.updateOptions exParseOpts true 1, .ingest none [⟨['a'], [(.str ['x'], .int 1), (.str ['y'], .float f)]⟩] true 2]

theorem exZeroCalls_orderly {f : PyFloat} (hf : f = .fin 0 ∨ f = .negZero) : Orderly (exZeroCalls f) := by
  rcases hf with rfl | rfl
  all_goals
    refine ⟨by decide +kernel, ?_⟩
    intro c hc
    simp only [exZeroCalls, List.mem_cons, List.not_mem_nil, or_false] at hc
    rcases hc with rfl | rfl <;> unfold NoSpan <;> decide

set_option maxRecDepth 100000 in
/-- The hypotheses of `C115_first_sync_partial` hold for calls with `0.0`, and the record is found. -/
example : Orderly (exZeroCalls (.fin 0)) ∧ (∃ v, IsVersion (afterCalls asciiU ['x'] (exZeroCalls (.fin 0))) ['x'] v) ∧
    NoPunsAmong asciiU ((exZeroCalls (.fin 0)).flatMap ApiCall.stream) ∧
    (∀ r ∈ (exZeroCalls (.fin 0)).flatMap ApiCall.stream, ∀ o, NoNegZeros exEnv' o (prepareRecordData asciiU r)) ∧
    ['a'] ∈ foundIds ((exIndexed (exZeroCalls (.fin 0))).searchSigned exQuery (.version 2) (.term ⟨parsedPath ['y'] .number, .int 0⟩)) := by
  refine ⟨exZeroCalls_orderly (.inl rfl), ⟨1, .inr ⟨(afterCalls asciiU ['x'] (exZeroCalls (.fin 0))).options.head (by decide +kernel), by decide +kernel,
    by decide +kernel, by decide +kernel⟩⟩, noPuns_of_flat (by decide +kernel) (by decide +kernel), fun r hr o => ?_, by decide +kernel⟩
  refine noNegZeros_of_flat (fun s => ?_) ?_
  · simp only [exEnv', exEnv]
    split <;> simp
  · revert r
    decide +kernel

set_option maxRecDepth 100000 in
/-- **C115 from calls to searches does not hold in full**: a record with `-0.0` in `y` is not found by `term_query("y", 0)`. -/
theorem C115_search_refuted : ¬ C115_search_full := by
  intro h
  obtain ⟨es, h1, h2⟩ := h exEnv' exEnv'_order exEnv'_scalar asciiU asciiU_sane 10 ['x'] (exZeroCalls .negZero) (exZeroCalls_orderly (.inr rfl))
    ⟨1, .inr ⟨(afterCalls asciiU ['x'] (exZeroCalls .negZero)).options.head (by decide +kernel), by decide +kernel, by decide +kernel, by decide +kernel⟩⟩
    (by decide +kernel) (noPuns_of_flat (by decide +kernel) (by decide +kernel))
  have hes : exIndexed (exZeroCalls .negZero) = es := by unfold exIndexed; rw [h1]
  subst hes
  obtain ⟨q, hq, h3⟩ := h2 exQuery ['y'] (.number (.int 0)) trivial
  cases hq
  have hin : ['a'] ∈ foundIds ((exIndexed (exZeroCalls .negZero)).searchSigned exQuery (.version 2) (.term ⟨parsedPath ['y'] .number, .int 0⟩)) := by
    refine ((h3 2).2 ['a']).2 ⟨by decide +kernel, [(['x'], .int 1), (['y'], .float .negZero), ("_id".toList, .str ['a'])], exParseOpts, ?_, ?_,
      [.key ['y']], .float .negZero, by decide, rfl, rfl, 0, rfl, by simp [Num.rat]⟩
    · have e : (ingested asciiU ['x'] (exZeroCalls .negZero) ['a']).committed =
        [(2, [(['x'], .int 1), (['y'], .float .negZero), ("_id".toList, .str ['a'])])] := by decide +kernel
      rw [e]
      exact ⟨2, by simp, le_rfl, by simp⟩
    · have e : effectiveOptions (ingested asciiU ['x'] (exZeroCalls .negZero) ['a']).committed
        (committedOptionsOf ['x'] (afterCalls asciiU ['x'] (exZeroCalls .negZero))) = [(1, exParseOpts)] := by decide +kernel
      rw [e]
      exact .inl ⟨1, by simp, by decide, by simp⟩
  revert hin
  decide +kernel

end Splitgill.Props
