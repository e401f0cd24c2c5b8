import Verif.Proof.DateText
import Verif.Props.Filter
/-!
# C85: datetimes and dates put in records are indexed at their own moment

`DateTime` is what `datetime` objects hold; `wall` and `epochUtc` are the microseconds since 1970. `dateOf E o v` (`Verif.Spec.Query`) is the
timestamp a value is indexed with as a date.
-/

namespace Splitgill.Props
open Splitgill

/-- The days are counted as in the calendar: from one day to the next, and from 1970-01-01. A datetime with an offset is the moment at which the
clocks of UTC show what its own clock shows less the offset. -/
theorem C85_calendar :
    (∀ y m d, 1 ≤ y → 1 ≤ m → m ≤ 12 → d ≤ monthLength y m →
      ordinal (nextDay y m d).1 (nextDay y m d).2.1 (nextDay y m d).2.2 = ordinal y m d + 1) ∧
    (∀ t : DateTime, t.valid = true → 1 ≤ t.day ∧ t.day ≤ monthLength t.year t.month) ∧
    DateTime.wall { year := 1970 } = 0 ∧
    (∀ t : DateTime, t.wall = DateTime.wall { year := t.year, month := t.month, day := t.day } +
      (t.hour * 3600 + t.minute * 60 + t.second) * 1000000 + t.micro) ∧
    (∀ t t' : DateTime, ordinal t'.year t'.month t'.day = ordinal t.year t.month t.day + 1 → t'.hour = t.hour → t'.minute = t.minute →
      t'.second = t.second → t'.micro = t.micro → t'.wall = t.wall + 86400 * 1000000) ∧
    (∀ t : DateTime, t.offset = none → t.epochUtc = t.wall) ∧
    (∀ (t utc : DateTime) (z : Int), t.offset = some z → utc.offset = none → t.wall = utc.wall + z → t.epochUtc = utc.epochUtc) := by
  refine ⟨fun y m d => ordinal_next, fun t => DateTime.valid_day, by decide, fun t => ?_, fun t t' h h1 h2 h3 h4 => ?_, fun t h => ?_,
    fun t utc z h1 h2 h => ?_⟩
  · simp only [DateTime.wall]; omega
  · simp only [DateTime.wall, h, h1, h2, h3, h4]; omega
  · simp [DateTime.epochUtc, h]
  · simp only [DateTime.epochUtc, h1, h2, Option.getD_some, Option.getD_none]; omega

/-- The texts of `ingest` hold all there is to know: `strptime` with the format that wrote it gives the datetime back. -/
theorem C85_read_back (pad : Bool) (t : DateTime) (hv : t.valid = true) (hp : pad = true ∨ 1000 ≤ t.year) :
    ∃ ds, parseFormat (if t.offset.isSome then "%Y-%m-%dT%H:%M:%S.%f%z".toList else "%Y-%m-%dT%H:%M:%S.%f".toList) = some ds ∧
      strptime ds (datetimeText pad t) = some t := by
  cases ho : t.offset with
  | some z => exact ⟨_, format_aware, aware_aware hv hp ho⟩
  | none => exact ⟨_, format_naive, naive_naive hv hp ho⟩

/-- **C85**, as it should be: with the default date formats, a datetime in a record is indexed as the moment it is (in UTC if it has no time
zone), whether or not `strftime` writes years before 1000 with leading zeros. -/
def C85_full : Prop :=
  ∀ (E : ParseEnv), E.ReadsDates → ∀ (o : ParsingOptions), o.dateFormats = startOptions.dateFormats → ∀ (U : Unicode) (pad : Bool)
    (t : DateTime), t.valid = true →
    dateOf E o (prepareData U (.datetime (datetimeText pad t))) = some (toTimestamp t.epochUtc)

theorem noOther_start {E : ParseEnv} {o : ParsingOptions} (h : o.dateFormats = startOptions.dateFormats) (s : PyStr) (ts : Int) :
    NoOtherReading E o s ts := fun f hf => Or.inl (h ▸ hf)

/-- **C85** (what holds) for datetimes: with years written with four digits. The options may have other formats, if they do not read the
text as another moment. -/
theorem C85_datetime_partial (E : ParseEnv) (hE : E.ReadsDates) (o : ParsingOptions) (U : Unicode) (pad : Bool) (t : DateTime)
    (hv : t.valid = true) (hp : pad = true ∨ 1000 ≤ t.year)
    (hf : (if t.offset.isSome then "%Y-%m-%dT%H:%M:%S.%f%z".toList else "%Y-%m-%dT%H:%M:%S.%f".toList) ∈ o.dateFormats)
    (hn : NoOtherReading E o (datetimeText pad t) (toTimestamp t.epochUtc)) :
    dateOf E o (prepareData U (.datetime (datetimeText pad t))) = some (toTimestamp t.epochUtc) :=
  dateOf_datetime hE hv hp hf hn

/-- **C85** for dates: they are indexed as their midnight in UTC. -/
theorem C85_date_partial (E : ParseEnv) (hE : E.ReadsDates) (o : ParsingOptions) (U : Unicode) (pad : Bool) (y m d : Nat)
    (hv : DateTime.valid { year := y, month := m, day := d } = true) (hp : pad = true ∨ 1000 ≤ y) (hf : "%Y-%m-%d".toList ∈ o.dateFormats)
    (hn : NoOtherReading E o (dateText pad { year := y, month := m, day := d })
      (toTimestamp (DateTime.wall { year := y, month := m, day := d }))) :
    dateOf E o (prepareData U (.date (dateText pad { year := y, month := m, day := d }))) =
      some (toTimestamp (DateTime.wall { year := y, month := m, day := d })) := by
  have e : DateTime.epochUtc { year := y, month := m, day := d } = DateTime.wall { year := y, month := m, day := d } := by
    simp [DateTime.epochUtc]
  have h := dateOf_date (pad := pad) (t := { year := y, month := m, day := d }) hE (o := o) hv hp hf (by rw [e]; exact hn)
  rw [e] at h
  exact h

/-- A library that reads dates as modelled. -/
def exDates : ParseEnv := { exEnv' with parseDate := fun s f => (parseFormat f).bind (fun ds => readTimestamp ds s) }

theorem exDates_reads : exDates.ReadsDates := fun f s ds h _ => by
  simp [exDates, h]

/-- 2021-02-28T23:30:00.250000 in a time zone one hour and a half behind UTC. -/
def exMoment : DateTime := { year := 2021, month := 2, day := 28, hour := 23, minute := 30, micro := 250000, offset := some (-5400000000) }

set_option maxRecDepth 10000 in
example : exMoment.valid = true ∧ exMoment.epochUtc = 1614560400250000 ∧
    datetimeText false exMoment = "2021-02-28T23:30:00.250000-0130".toList ∧ exDates.ReadsDates ∧
    dateOf exDates startOptions (prepareData asciiU (.datetime (datetimeText false exMoment))) = some (toTimestamp 1614560400250000) := by
  refine ⟨by decide, by decide, by decide, exDates_reads, ?_⟩
  exact C85_datetime_partial exDates exDates_reads startOptions asciiU false exMoment (by decide) (by decide) (by decide) (noOther_start rfl _ _)

example : dateOf exDates startOptions (prepareData asciiU (.date (dateText false { year := 2021, month := 3, day := 1 }))) =
    some (toTimestamp 1614556800000000) :=
  C85_date_partial exDates exDates_reads startOptions asciiU false 2021 3 1 (by decide) (by decide) (by decide) (noOther_start rfl _ _)

/-- Years below 1000 without padding. -/
example : [7, 10, 99, 100, 999, 1000].map (yearText false) = ["7", "10", "99", "100", "999", "1000"].map String.toList := by decide

/-- **C85** does not hold: where `%Y` is not padded, the year 999 has three digits, and no format reads that. -/
theorem C85_refuted : ¬ C85_full := by
  intro h
  have := h exDates exDates_reads startOptions rfl asciiU false { year := 999 } (by decide)
  revert this
  have e : dateOf exDates startOptions (prepareData asciiU (.datetime (datetimeText false { year := 999 }))) = none := by decide +kernel
  rw [e]
  exact nofun

/-- A datetime in a record is found by `term_query` with the same moment, in any time zone. -/
theorem C85_term_partial (Q : QueryEnv) (E : ParseEnv) (hE : E.ReadsDates) (o : ParsingOptions) (U : Unicode) (d : Dict) (pd : ParsedData)
    (hw : (Value.dict d).wf = true) (hd : FieldNames (.dict d)) (h : parse E o d = .ok pd) (p : Path) (pad : Bool) (t : DateTime)
    (hv : t.valid = true) (hp : pad = true ∨ 1000 ≤ t.year)
    (hf : (if t.offset.isSome then "%Y-%m-%dT%H:%M:%S.%f%z".toList else "%Y-%m-%dT%H:%M:%S.%f".toList) ∈ o.dateFormats)
    (hn : NoOtherReading E o (datetimeText pad t) (toTimestamp t.epochUtc))
    (hg : getAt p (.dict d) = some (prepareData U (.datetime (datetimeText pad t)))) :
    ∃ q, termQuery Q (fieldPath p) (.aware t.epochUtc) none = .ok q ∧ q.matches Q pd.parsed = true := by
  obtain ⟨q, h1, h2⟩ := C50_dates_partial Q E o d pd hw hd h (fieldPath p) (.aware t.epochUtc)
  refine ⟨q, h1, h2.2 ⟨p, _, rfl, hg, ?_, C85_datetime_partial E hE o U pad t hv hp hf hn⟩⟩
  have : datetimeText pad t ≠ [] := by
    rw [datetimeText_eq, timeText]
    simp
  simp [prepareData, Value.isIndexed, this]

/-- After one sync, a record with a datetime in its data as of `v` is found by `search(v)` with that moment, and with each range of moments
that it lies in. -/
theorem C85_found_partial (E : ParseEnv) (hE : E.IgnoresOrder) (hS : E.ScalarHints) (hD : E.ReadsDates) (U : Unicode) (hU : U.Sane)
    (maxDocs : Nat) (db : PyStr) (calls : List ApiCall) (ho : Orderly calls) (hv : ∃ v, IsVersion (afterCalls U db calls) db v)
    (hk : ∀ x ∈ committedOptionsOf db (afterCalls U db calls), 0 ≤ x.2.keywordLength)
    (hn : NoPunsAmong U (calls.flatMap ApiCall.stream)) :
    ∃ es, sync (realParser E) maxDocs db false (afterCalls U db calls) [] = .ok es ∧
      ∀ (Q : QueryEnv) (v : Int) (id : PyStr) (p : Path) (pad : Bool) (t : DateTime), t.valid = true → (pad = true ∨ 1000 ≤ t.year) →
        HoldsAsOf (ingested U db calls) (committedOptionsOf db (afterCalls U db calls)) v id (fun a o =>
          getAt p (.dict a) = some (prepareData U (.datetime (datetimeText pad t))) ∧
          (if t.offset.isSome then "%Y-%m-%dT%H:%M:%S.%f%z".toList else "%Y-%m-%dT%H:%M:%S.%f".toList) ∈ o.dateFormats ∧
          NoOtherReading E o (datetimeText pad t) (toTimestamp t.epochUtc)) →
        (∃ q, (Asked.moment (.aware t.epochUtc)).query Q (fieldPath p) = .ok q ∧ id ∈ foundIds (es.searchFor Q (.version v) q)) ∧
        ∀ b : Bounds Moment, (∃ s, b.Has s) → (b.map (fun m => toTimestamp (m.epoch Q))).Holds (toTimestamp t.epochUtc) →
          ∃ q, (Asked.moments b).query Q (fieldPath p) = .ok q ∧ id ∈ foundIds (es.searchFor Q (.version v) q) := by
  obtain ⟨es, h1, h2⟩ := C77_first_sync_partial E hE hS U hU maxDocs db calls ho hv hk hn
  refine ⟨es, h1, fun Q v id p pad t hv hp hh => ?_⟩
  have hne : (prepareData U (.datetime (datetimeText pad t))).isIndexed = true := by
    have : datetimeText pad t ≠ [] := by
      rw [datetimeText_eq, timeText]
      simp
    simp [prepareData, Value.isIndexed, this]
  have key : ∀ k : Asked, (∀ o, dateOf E o (prepareData U (.datetime (datetimeText pad t))) = some (toTimestamp t.epochUtc) →
      k.holds Q E o (prepareData U (.datetime (datetimeText pad t)))) → k.Bounded →
      ∃ q, k.query Q (fieldPath p) = .ok q ∧ id ∈ foundIds (es.searchFor Q (.version v) q) := by
    intro k h3 hb
    obtain ⟨q, hq, h4⟩ := h2 Q (fieldPath p) k hb
    refine ⟨q, hq, ((h4 v).2 id).2 ?_⟩
    obtain ⟨g1, a, o, g2, g3, g4, g5, g6⟩ := hh
    exact ⟨g1, a, o, g2, g3, p, _, rfl, g4, hne, h3 o (C85_datetime_partial E hD o U pad t hv hp g5 g6)⟩
  exact ⟨key _ (fun o h => h) trivial, fun b hb hin => key _ (fun o h => ⟨_, h, hin⟩) hb⟩

/-- A record with a datetime, ingested and committed at version 2. -/
def exDateCalls : List ApiCall := [.ingest none [⟨['a'], [(.str ['x'], .list [.datetime (datetimeText false exMoment)])]⟩] true 2]

set_option maxRecDepth 100000 in
/-- The hypotheses are met. -/
example : exDates.IgnoresOrder ∧ exDates.ScalarHints ∧ exDates.ReadsDates ∧ Orderly exDateCalls ∧
    (∃ v, IsVersion (afterCalls asciiU ['x'] exDateCalls) ['x'] v) ∧
    (∀ x ∈ committedOptionsOf ['x'] (afterCalls asciiU ['x'] exDateCalls), 0 ≤ x.2.keywordLength) ∧
    NoPunsAmong asciiU (exDateCalls.flatMap ApiCall.stream) ∧ exMoment.valid = true ∧ 1000 ≤ exMoment.year ∧
    HoldsAsOf (ingested asciiU ['x'] exDateCalls) (committedOptionsOf ['x'] (afterCalls asciiU ['x'] exDateCalls)) 5 ['a'] (fun a o =>
      getAt [.key ['x'], .idx 0] (.dict a) = some (prepareData asciiU (.datetime (datetimeText false exMoment))) ∧
      "%Y-%m-%dT%H:%M:%S.%f%z".toList ∈ o.dateFormats ∧
      NoOtherReading exDates o (datetimeText false exMoment) (toTimestamp exMoment.epochUtc)) := by
  refine ⟨⟨exEnv'_order.geojson, exEnv'_order.hint⟩, exEnv'_scalar, exDates_reads,
    ⟨by decide +kernel, by
      intro c hc
      simp only [exDateCalls, List.mem_cons, List.not_mem_nil, or_false] at hc
      rcases hc with rfl <;> unfold NoSpan <;> decide⟩,
    ⟨2, .inr ⟨(afterCalls asciiU ['x'] exDateCalls).options.head (by decide +kernel), by decide +kernel, by decide +kernel, by decide +kernel⟩⟩,
    by decide +kernel, ?_, by decide +kernel, by decide +kernel, by decide +kernel, ?_⟩
  · intro r hr r' hr' _ p v w hv hw _ _ _
    simp only [exDateCalls, List.flatMap_cons, List.flatMap_nil, ApiCall.stream, List.append_nil, List.mem_singleton] at hr hr'
    subst hr hr'
    exact Option.some.inj (hv.symm.trans hw)
  · have e1 : (ingested asciiU ['x'] exDateCalls ['a']).committed =
        [(2, [(['x'], .list [.str (datetimeText false exMoment)]), ("_id".toList, .str ['a'])])] := by decide +kernel
    have e2 : committedOptionsOf ['x'] (afterCalls asciiU ['x'] exDateCalls) = [(2, startOptions)] := by decide +kernel
    rw [e1, e2]
    refine ⟨_, startOptions, ⟨2, List.mem_singleton.2 rfl, by decide, ?_⟩, .inl ⟨2, by decide +kernel, by decide, ?_⟩, rfl, by decide +kernel,
      noOther_start rfl _ _⟩
    · intro w y h _
      simp only [List.mem_singleton, Prod.mk.injEq] at h
      omega
    · intro w y h _
      have := (List.mem_filter.1 h).1
      simp only [List.mem_singleton, Prod.mk.injEq] at this
      omega

end Splitgill.Props
