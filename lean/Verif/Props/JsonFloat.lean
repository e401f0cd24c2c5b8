import Verif.Proof.JsonFloat3
import Verif.Props.Wire
/-!
# C113: floats are kept by the JSON that is sent

`orjson` (indexing/index.py:105-109) writes the shortest decimals that are read as the floats; Elasticsearch reads the nearest double.
-/

namespace Splitgill.Props
open Splitgill

/-- **C113**: a float is written as its shortest decimal: none with fewer digits is read as the float, and none with as many that is read so is
nearer. There are at most 17 digits. -/
theorem C113_text (plain : Int → Bool) (q : ℚ) (hd : IsDouble q) (hq : q ≠ 0) :
    ∃ p v s, p ≤ 17 ∧ 0 < v ∧ ShortestDecimal p |q| v ∧ WritesJson plain v s ∧ jsonFloat plain (.fin q) = if q < 0 then '-' :: s else s := by
  rcases lt_or_gt_of_ne hq with h | h
  · have hd' : IsDouble (-q) := by
      obtain ⟨m, e, hm, rfl⟩ := hd
      exact ⟨-m, e, by rwa [abs_neg], by push_cast; ring⟩
    obtain ⟨p, v, h1, h2, h3, h4⟩ := jsonPositive_writes plain (q := -q) (by linarith) hd'
    refine ⟨p, v, _, h1, h2, by rwa [abs_of_neg h], h4, ?_⟩
    show (if q = 0 then _ else if q < 0 then _ else _) = _
    rw [if_neg hq, if_pos h, if_pos h]
  · obtain ⟨p, v, h1, h2, h3, h4⟩ := jsonPositive_writes plain h hd
    refine ⟨p, v, _, h1, h2, by rwa [abs_of_pos h], h4, ?_⟩
    show (if q = 0 then _ else if q < 0 then _ else _) = _
    rw [if_neg hq, if_neg (by linarith), if_neg (by linarith)]

/-- Nearest ones of ties, decimals with fewer digits than the nearest one with 17, and those of small and large floats. -/
example : jsonFloat ryuPlain (.fin (fl (10 ^ 23))) = "1e23".toList ∧ jsonFloat ryuPlain (.fin (1 / 2 ^ 44)) = "5.684341886080802e-14".toList ∧
    jsonFloat ryuPlain (.fin (2 ^ 50 + 1 / 4)) = "1125899906842624.2".toList ∧ jsonFloat ryuPlain (.fin (2 ^ 50 + 3 / 4)) = "1125899906842624.8".toList ∧
    jsonFloat ryuPlain (.fin (fl (1 / 100000))) = "0.00001".toList ∧ jsonFloat ryuPlain (.fin (fl (1 / 10 ^ 6))) = "1e-6".toList ∧
    jsonFloat ryuPlain (.fin (2 ^ 53)) = "9007199254740992.0".toList ∧ jsonFloat ryuPlain (.fin (10 ^ 16)) = "1e16".toList ∧
    jsonFloat ryuPlain (.fin (-5 / 2)) = "-2.5".toList ∧ jsonFloat ryuPlain (.fin (fl (1 / 10) + fl (2 / 10))) ≠ [] := by
  decide +kernel

example : IsDouble (2 ^ 50 + 1 / 4) ∧ (2 ^ 50 + 1 / 4 : ℚ) ≠ 0 ∧ IsDouble (fl (10 ^ 23)) ∧ fl (10 ^ 23) ≠ 0 := by
  exact ⟨⟨2 ^ 52 + 1, -2, by norm_num, by norm_num⟩, by norm_num, (fl_rounded _).1.1, by decide +kernel⟩

/-- **C113**: the zeros keep their signs. -/
theorem C113_zero (plain : Int → Bool) : jsonFloat plain (.fin 0) = "0.0".toList ∧ jsonFloat plain .negZero = "-0.0".toList := ⟨rfl, rfl⟩

/-- **C113**: a float has only one shortest decimal. -/
theorem C113_unique (p k : Nat) (x v v' : ℚ) (h : ShortestDecimal p x v) (h' : ShortestDecimal k x v') : p = k ∧ v = v' := h.unique h'

example : ∃ p v, ShortestDecimal p (2 ^ 50 + 1 / 4) v := by
  obtain ⟨p, v, _, _, _, h, _⟩ := C113_text ryuPlain (2 ^ 50 + 1 / 4) ⟨2 ^ 52 + 1, -2, by norm_num, by norm_num⟩ (by norm_num)
  rw [abs_of_pos (by norm_num)] at h
  exact ⟨p, v, h⟩

/-- **C113**: every finite float is read as itself, and its text is a JSON number that is not one of an int. -/
theorem C113_keeps (plain : Int → Bool) (f : PyFloat) (hf : f.Double) (hn : f ≠ .nan ∧ f ≠ .pinf ∧ f ≠ .ninf) : (jsonFloats plain).Keeps f := by
  cases f with
  | nan => exact absurd rfl hn.1
  | pinf => exact absurd rfl hn.2.1
  | ninf => exact absurd rfl hn.2.2
  | negZero => exact jsonFloats_keeps plain (.inl rfl)
  | fin q => exact jsonFloats_keeps plain (.inr ⟨q, rfl, hf⟩)

example : (PyFloat.fin (fl (1 / 10))).Double ∧ PyFloat.negZero.Double ∧ PyFloat.nan.Double := ⟨(fl_rounded _).1.1, trivial, trivial⟩

/-- **C113**: different finite floats have different texts. -/
theorem C113_different (plain : Int → Bool) (f g : PyFloat) (hf : f.Double) (hn : f ≠ .nan ∧ f ≠ .pinf ∧ f ≠ .ninf) (hg : g.Double)
    (hm : g ≠ .nan ∧ g ≠ .pinf ∧ g ≠ .ninf) (h : jsonFloat plain f = jsonFloat plain g) : f = g := by
  have h1 := (C113_keeps plain f hf hn).read
  have h2 := (C113_keeps plain g hg hm).read
  have h3 : (jsonFloats plain).write f = (jsonFloats plain).write g := h
  rw [h3, h2] at h1
  exact (Option.some.inj h1).symm

/-- **C113**: what is read from the text of a value is the value, with `None` for NaN and the infinities; as `C94_json`, for all floats. -/
theorem C113_json (plain : Int → Bool) (v : Value) (hv : AllLeaves DoubleValue v) :
    loads (jsonFloats plain) (dumps (jsonFloats plain) v) = some v.sent :=
  C94_json _ v (AllLeaves.mono (fun _ => floatFits_of_double plain) hv)

example : AllLeaves DoubleValue (.list [.float (.fin (fl (1 / 10))), .dict [(['x'], .float .negZero), (['y'], .int (10 ^ 30))], .float .nan]) :=
  ⟨fun _ e => by cases e; exact (fl_rounded _).1.1, ⟨fun _ e => by cases e; trivial, fun _ e => (nomatch e), trivial⟩, fun _ e => by cases e; trivial, trivial⟩

/-- What is sent and read for this value. -/
example : dumps (jsonFloats ryuPlain) (.list [.float (.fin (fl (1 / 10))), .dict [(['x'], .float .negZero), (['y'], .int (10 ^ 30))], .float .nan]) =
    "[0.1,{\"x\":-0.0,\"y\":1000000000000000000000000000000},null]".toList := by
  decide +kernel

/-- **C113**: a decimal of at most 15 digits is sent as it was typed: the float it is read as is written as this decimal. -/
theorem C113_typed (plain : Int → Bool) (d : ℚ) (hd : 0 < d) (h : HasDigits 10 15 d) : WritesJson plain d (jsonFloat plain (.fin (fl d))) := by
  have hp : 0 < fl d := by
    have := fl_close d
    rw [abs_of_pos hd] at this
    have := (abs_le.1 (le_refl |d - fl d|)).2
    nlinarith
  obtain ⟨p, v, s, -, hv, h1, h2, h3⟩ := C113_text plain (fl d) (fl_rounded d).1.1 hp.ne'
  rw [if_neg (by linarith)] at h3
  rw [abs_of_pos hp] at h1
  rw [h3]
  obtain ⟨h4, h5⟩ := readAs_iff.1 h1.1
  have h6 : p ≤ 15 := h1.2.1 15 d (readAs_iff.2 ⟨h, rfl⟩)
  have n := decPos_nearest (n := 14) hp
  have e1 := digits_kept (le_refl 15) h n
  have e2 := digits_kept (le_refl 15) (h4.mono (by norm_num) h6) (by rw [h5]; exact n)
  rwa [← e1, e2]

example : (0 : ℚ) < 51.4778 ∧ HasDigits 10 15 51.4778 ∧ jsonFloat ryuPlain (.fin (fl 51.4778)) = "51.4778".toList :=
  ⟨by norm_num, ⟨514778, -4, by norm_num, by norm_num⟩, by decide +kernel⟩

/-- **C113**: from `0.00001` up to below `10 ** 16` there is no exponent. -/
theorem C113_plain (v : ℚ) (s : PyStr) (h : WritesJson ryuPlain v s) : 'e' ∉ s ↔ (1 : ℚ) / 100000 ≤ v ∧ v < 10 ^ 16 := by
  obtain ⟨e, h1, h2, h3⟩ := h
  have hb : (1 : ℚ) < 10 := by norm_num
  by_cases hp : ryuPlain e = true
  · rw [if_pos hp] at h3
    obtain ⟨w, r, rfl, hw, hr, -⟩ := h3
    simp only [ryuPlain, decide_eq_true_eq] at hp
    refine iff_of_true ?_ ⟨?_, ?_⟩
    · intro hm
      rcases List.mem_append.1 hm with hm | hm
      · have := hw _ hm
        revert this
        decide
      · rcases List.mem_cons.1 hm with hm | hm
        · exact absurd hm (by decide)
        · have := hr _ hm
          revert this
          decide
    · have : (10 : ℚ) ^ (-5 : ℤ) ≤ 10 ^ e := zpow_le_zpow_right₀ hb.le hp.1
      have e5 : (10 : ℚ) ^ (-5 : ℤ) = 1 / 100000 := by norm_num
      rw [e5] at this
      exact this.trans h1
    · have : (10 : ℚ) ^ (e + 1) ≤ 10 ^ (16 : ℤ) := zpow_le_zpow_right₀ hb.le (by omega)
      have e5 : (10 : ℚ) ^ (16 : ℤ) = 10 ^ 16 := by norm_num
      linarith
  · rw [if_neg hp] at h3
    obtain ⟨w, sg, ds, a, rfl, -⟩ := h3
    simp only [ryuPlain, decide_eq_true_eq] at hp
    refine iff_of_false (fun hm => hm (by simp)) ?_
    rintro ⟨g1, g2⟩
    apply hp
    constructor
    · by_contra hc
      have : (10 : ℚ) ^ (e + 1) ≤ 10 ^ (-5 : ℤ) := zpow_le_zpow_right₀ hb.le (by omega)
      have e5 : (10 : ℚ) ^ (-5 : ℤ) = 1 / 100000 := by norm_num
      rw [e5] at this
      exact absurd (h2.trans_le (this.trans g1)) (lt_irrefl _)
    · by_contra hc
      have : (10 : ℚ) ^ (16 : ℤ) ≤ 10 ^ e := zpow_le_zpow_right₀ hb.le (by omega)
      have e5 : (10 : ℚ) ^ (16 : ℤ) = 10 ^ 16 := by norm_num
      linarith

example : ∃ v s, WritesJson ryuPlain v s := ⟨_, _, C113_typed ryuPlain 51.4778 (by norm_num) ⟨514778, -4, by norm_num, by norm_num⟩⟩

theorem sendable_of_given {E : ParseEnv} {plain : Int → Bool} {U : Unicode} {db : PyStr} {calls : List ApiCall} {fields : List (List PyStr)}
    (hg : NumbersGiven U (calls.flatMap ApiCall.stream)) (hs : NamesSendable E fields db (afterCalls U db calls)) :
    Sendable E (jsonFloats plain) fields db (afterCalls U db calls) where
  ids := hs.ids
  versions := hs.versions
  options := hs.options
  values := fun r hr items hi x hx =>
    AllLeavesDict.mono (fun _ h => ⟨h.1, floatFits_of_double plain h.2⟩)
      (iter_leaves (runCalls_leaves calls Mongo.empty (by intro r hr; cases hr) hg r hr) hi x hx)
  names := hs.names
  types := hs.types

/-- **C102** (what holds) for all floats, with the conditions on the numbers said of the records given: after one sync the data comes back if ints fit
into 64 bits, whatever the floats are. Missing: as in `C102_first_sync_partial`. -/
theorem C102_floats_partial (E : ParseEnv) (hE : E.IgnoresOrder) (hS : E.ScalarHints) (plain : Int → Bool) (S : EsEnv) (hP : PlacesOk E S)
    (hl : S.NotLonger) (hL : LeavesOk E (fun v => IntFits v ∧ DoubleValue v)) (U : Unicode) (hU : U.Sane) (maxDocs chunkSize : Nat)
    (hc : 1 ≤ chunkSize) (db : PyStr) (hdb : '*' ∉ db) (hpl : PlainStr db) (calls : List ApiCall) (ho : Orderly calls)
    (hv : ∃ v, IsVersion (afterCalls U db calls) db v) (hg : NumbersGiven U (calls.flatMap ApiCall.stream))
    (fields : List (List PyStr)) (hn : fields.length ≤ 443) (hs : NamesSendable E fields db (afterCalls U db calls)) :
    ∃ s, Server.sync E (jsonFloats plain) S maxDocs chunkSize db false (afterCalls U db calls) [] = .ok s ∧ ∀ v id,
      (∀ a, AsOf (ingested U db calls id).committed v a → a ≠ [] → (ingested U db calls id).pending = none →
        ComesBack s db v id (fun d => simEq (.dict d) (.dict (sentDict (remainsDict a))) = true ∧
          (NoPunsAmong U (calls.flatMap ApiCall.stream) → strictEq (.dict d) (.dict (sentDict (remainsDict a))) = true) ∧
          (Rebuildable (.dict a) → AllLeavesDict Finite a → simEq (.dict d) (.dict a) = true))) ∧
      (¬ Alive (ingested U db calls id).committed v ∨ (ingested U db calls id).pending ≠ none → s.searchFor db (.version v) id = []) :=
  have ok : ∀ {v}, IntFits v ∧ DoubleValue v → IntFits v ∧ FloatFits (jsonFloats plain) v := fun h => ⟨h.1, floatFits_of_double plain h.2⟩
  C102_first_sync_partial E hE hS _ S hP hl ⟨ok hL.none, fun b => ok (hL.bool b), fun s => ok (hL.str s),
      fun s f i h => ok (hL.date s f i h), fun s f h => ok (hL.number s f h)⟩ U hU maxDocs chunkSize hc db hdb hpl calls ho hv
    fields hn (sendable_of_given hg hs)

/-- What `NamesSendable` says. -/
def namesSendable (E : ParseEnv) (fields : List (List PyStr)) (db : PyStr) (m : Mongo) : Bool :=
  let small := fun i : Int => decide (-2 ^ 63 ≤ i) && decide (i < 2 ^ 63)
  let short := fun s : PyStr => decide (utf8Len s ≤ 32766)
  (m.data db).all (fun r =>
    short r.id && r.id.all (fun c => decide (c ≠ '"') && decide (c ≠ '\\') && decide (32 ≤ c.toNat)) && r.getVersions.all small &&
    match r.iter with
    | .error _ => true
    | .ok items => items.all (fun x => (fieldsOfDict x.2).all (fun q => decide (q ∈ fields)) &&
        (committedOptionsOf db m).all (fun o => match (realParser E).parse x.2 o.2 with
          | none => true
          | some p => p.dataTypes.all short && p.parsedTypes.all short))) &&
  m.options.all (fun d => match d.version with | none => true | some v => small v) &&
  (committedOptionsOf db m).all (fun o => decide (0 ≤ o.2.keywordLength) && decide (o.2.keywordLength ≤ 8191))

theorem namesSendable_of_check {E : ParseEnv} {fields : List (List PyStr)} {db : PyStr} {m : Mongo} (h : namesSendable E fields db m = true) :
    NamesSendable E fields db m := by
  simp only [namesSendable, Bool.and_eq_true, List.all_eq_true, decide_eq_true_eq] at h
  obtain ⟨⟨h1, h2⟩, h3⟩ := h
  have hi : ∀ r ∈ m.data db, ∀ items, r.iter = .ok items → ∀ x ∈ items, _ := fun r hr items e => by
    have := (h1 r hr).2
    rw [e] at this
    simp only [List.all_eq_true, Bool.and_eq_true, decide_eq_true_eq] at this
    exact this
  refine ⟨fun r hr => ⟨fun c hc => ?_, (h1 r hr).1.1.1⟩, fun v hv => ?_, fun x hx => h3 x hx,
    fun r hr items e x hx => (hi r hr items e x hx).1, fun r hr items e x hx o ho p hp => ?_⟩
  · have := (h1 r hr).1.1.2 c hc
    exact ⟨this.1.1, this.1.2, this.2⟩
  · rcases hv with ⟨d, hd, hv⟩ | ⟨d, hd, _, hv⟩
    · exact (h1 d hd).1.2 v hv
    · have := h2 d hd
      rw [hv] at this
      simpa using this
  · have := (hi r hr items e x hx).2 o ho
    rw [hp] at this
    simpa only [Bool.and_eq_true, List.all_eq_true, decide_eq_true_eq] using this

/-- Two records with floats, a change of one of them and new options. -/
def exCallsF : List ApiCall :=
  [.ingest none [⟨['a'], [(.str ['x'], .float (.fin (fl (1 / 10))))]⟩, ⟨['b'], [(.str ['x'], .list [.float .negZero, .int 7])]⟩] true 1,
   .ingest none [⟨['a'], [(.str ['x'], .float (.fin (2 ^ 50 + 1 / 4)))]⟩] true 2, .updateOptions (exOpts 20) true 4]

set_option maxRecDepth 100000 in
/-- The conditions of `C102_floats_partial` are met by these. -/
example : LeavesOk exEnv' (fun v => IntFits v ∧ DoubleValue v) ∧ Orderly exCallsF ∧ (∃ v, IsVersion (afterCalls asciiU ['x'] exCallsF) ['x'] v) ∧
    NumbersGiven asciiU (exCallsF.flatMap ApiCall.stream) ∧ NamesSendable exEnv' exWireFields ['x'] (afterCalls asciiU ['x'] exCallsF) := by
  refine ⟨⟨⟨fun _ e => (nomatch e), fun _ e => (nomatch e)⟩, fun _ => ⟨fun _ e => (nomatch e), fun _ e => (nomatch e)⟩,
    fun _ => ⟨fun _ e => (nomatch e), fun _ e => (nomatch e)⟩, fun s f i h => ⟨fun j e => ?_, fun _ e => (nomatch e)⟩,
    fun s f h => ⟨fun _ e => (nomatch e), fun g e => ?_⟩⟩, ?_, ?_, ?_, namesSendable_of_check (by decide +kernel)⟩
  · cases e
    simp only [exEnv', exEnv] at h
    split at h
    · split at h
      · cases h; decide
      · split at h
        · cases h; decide
        · cases h
    · cases h
  · cases e
    simp only [exEnv', exEnv] at h
    split at h
    · cases h; exact ⟨1, 0, by norm_num, by norm_num⟩
    · cases h
  · refine ⟨by decide, ?_⟩
    intro c hc
    simp only [exCallsF, List.mem_cons, List.not_mem_nil, or_false] at hc
    rcases hc with rfl | rfl | rfl <;> unfold NoSpan <;> decide
  · exact ⟨4, .inr (by decide +kernel)⟩
  · have h : (exCallsF.flatMap ApiCall.stream).map (prepareRecordData asciiU) =
        [[(['x'], .float (.fin (fl (1 / 10)))), ("_id".toList, .str ['a'])], [(['x'], .list [.float .negZero, .int 7]), ("_id".toList, .str ['b'])],
         [(['x'], .float (.fin (2 ^ 50 + 1 / 4))), ("_id".toList, .str ['a'])]] := by decide +kernel
    intro r hr
    have hm := List.mem_map_of_mem (f := prepareRecordData asciiU) hr
    rw [h] at hm
    have hs : ∀ t : PyStr, IntFits (.str t) ∧ DoubleValue (.str t) := fun _ => ⟨fun _ e => (nomatch e), fun _ e => (nomatch e)⟩
    simp only [List.mem_cons, List.not_mem_nil, or_false] at hm
    rcases hm with hm | hm | hm <;> rw [hm]
    · exact ⟨⟨fun _ e => (nomatch e), fun _ e => by cases e; exact (fl_rounded _).1.1⟩, hs _, trivial⟩
    · exact ⟨⟨⟨fun _ e => (nomatch e), fun _ e => by cases e; trivial⟩, ⟨fun _ e => by cases e; decide, fun _ e => (nomatch e)⟩, trivial⟩, hs _, trivial⟩
    · exact ⟨⟨fun _ e => (nomatch e), fun _ e => by cases e; exact ⟨2 ^ 52 + 1, -2, by norm_num, by norm_num⟩⟩, hs _, trivial⟩

end Splitgill.Props
