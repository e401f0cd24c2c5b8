import Verif.Proof.DateReads3
import Verif.Props.DateText
/-!
# C108: which texts are indexed as dates, and as which moments
-/

namespace Splitgill.Props
open Splitgill

/-- The text is one of the format for the datetime. -/
def Means (f s : PyStr) (t : DateTime) : Prop := ∃ ds, formatDirs f = some ds ∧ Writes ds s {} t ∧ t.valid = true

/-- The format has only directives that are modelled. -/
def Modelled (f : PyStr) : Prop := ∃ ds, formatDirs f = some ds

/-- A directive comes twice in the format. -/
def Repeats (f : PyStr) : Prop := ∃ ds, formatDirs f = some ds ∧ ∃ d : Dir, (∀ c, d ≠ .lit c) ∧ 2 ≤ ds.count d

/-- Each number of the format is followed by something that cannot be a part of it. -/
def Separated (f : PyStr) : Prop := ∃ ds, formatDirs f = some ds ∧ SeparatedDirs ds = true

/-- **C108**, as it should be: whatever formats the options have, no text makes the loop over them raise; a text is read as a date if and only if it
is one of a format for a datetime, and then as the moment of such a datetime. -/
def C108_full : Prop := ∀ (other : PyStr → PyStr → Option Int) (formats : List PyStr), (∀ f ∈ formats, Modelled f) → ∀ s, Ascii s →
  ∃ r, dateLoop other s formats = .ok r ∧ (r = none ↔ ¬ ∃ f ∈ formats, ∃ t, Means f s t) ∧
    ∀ ts, r = some ts → ∃ f ∈ formats, ∃ t, Means f s t ∧ ts = toTimestamp t.epochUtc

theorem repeatsDirs_iff (ds : List Dir) : repeatsDirs ds = true ↔ ∃ d : Dir, (∀ c, d ≠ .lit c) ∧ 2 ≤ ds.count d := by
  induction ds with
  | nil => exact ⟨fun h => (nomatch h), fun ⟨_, _, h⟩ => by simp at h⟩
  | cons e ds ih =>
    have hlit : ∀ c, e = .lit c → (repeatsDirs (e :: ds) = true ↔ ∃ d : Dir, (∀ c, d ≠ .lit c) ∧ 2 ≤ (e :: ds).count d) := by
      rintro c rfl
      rw [repeatsDirs, ih]
      refine exists_congr (fun d => and_congr_right (fun hd => ?_))
      rw [List.count_cons_of_ne (fun e => hd c e.symm)]
    have hnot : (∀ c, e ≠ .lit c) → repeatsDirs (e :: ds) = (ds.contains e || repeatsDirs ds) := by
      intro h
      cases e with
      | lit c => exact absurd rfl (h c)
      | _ => rfl
    by_cases hl : ∃ c, e = .lit c
    · obtain ⟨c, hc⟩ := hl
      exact hlit c hc
    · have hl : ∀ c, e ≠ .lit c := fun c hc => hl ⟨c, hc⟩
      rw [hnot hl, Bool.or_eq_true, ih, List.contains_iff_mem]
      constructor
      · rintro (h | ⟨d, h1, h2⟩)
        · refine ⟨e, hl, ?_⟩
          rw [List.count_cons_self]
          have := List.count_pos_iff.2 h
          omega
        · exact ⟨d, h1, le_trans h2 (List.count_le_count_cons)⟩
      · rintro ⟨d, h1, h2⟩
        by_cases hd : e = d
        · subst hd
          rw [List.count_cons_self] at h2
          exact .inl (List.count_pos_iff.1 (by omega))
        · rw [List.count_cons_of_ne hd] at h2
          exact .inr ⟨d, h1, h2⟩

theorem Repeats.iff {f : PyStr} {ds : List Dir} (h : formatDirs f = some ds) : Repeats f ↔ repeatsDirs ds = true := by
  rw [repeatsDirs_iff]
  exact ⟨fun ⟨ds', h1, h2⟩ => by rw [h] at h1; cases h1; exact h2, fun h2 => ⟨ds, h, h2⟩⟩

theorem read_means {f s : PyStr} {ds : List Dir} (h : formatDirs f = some ds) {ts : Int} (hr : readTimestamp ds s = some ts) :
    ∃ t, Means f s t ∧ ts = toTimestamp t.epochUtc := by
  obtain ⟨t, h1, rfl⟩ := Option.map_eq_some_iff.1 hr
  exact ⟨t, ⟨ds, h, strptime_sound h1⟩, rfl⟩

theorem read_none_iff {f s : PyStr} {ds : List Dir} (h : formatDirs f = some ds) (hs : SeparatedDirs ds = true) :
    readTimestamp ds s = none ↔ ¬ ∃ t, Means f s t := by
  constructor
  · rintro h1 ⟨t, ds', h2, h3⟩
    rw [h] at h2; cases h2
    rw [readTimestamp, (strptime_iff hs).2 h3] at h1
    cases h1
  · intro h1
    cases e : readTimestamp ds s with
    | none => rfl
    | some ts =>
      obtain ⟨t, ht, _⟩ := read_means h e
      exact absurd ⟨t, ht⟩ h1

/-- **C108**: a text that is read as a date is one of a format of the options for a datetime, and it is read as the moment of this datetime. This holds for
all formats with directives that are modelled. -/
theorem C108_meant (other : PyStr → PyStr → Option Int) (formats : List PyStr) (hm : ∀ f ∈ formats, Modelled f) (s : PyStr) (ts : Int)
    (h : dateLoop other s formats = .ok (some ts)) : ∃ f ∈ formats, ∃ t, Means f s t ∧ ts = toTimestamp t.epochUtc := by
  induction formats with
  | nil => cases h
  | cons f fs ih =>
    obtain ⟨ds, hd⟩ := hm f List.mem_cons_self
    rw [dateLoop, hd] at h
    dsimp only at h
    split at h
    · cases h
    · split at h
      · rename_i x hx
        cases h
        obtain ⟨t, ht⟩ := read_means hd hx
        exact ⟨f, List.mem_cons_self, t, ht⟩
      · obtain ⟨g, hg, t, ht⟩ := ih (fun g hg => hm g (List.mem_cons_of_mem _ hg)) h
        exact ⟨g, List.mem_cons_of_mem _ hg, t, ht⟩

/-- **C108**: the loop raises if and only if it comes to a format with a directive that comes twice, before it comes to one which reads the text. -/
theorem C108_raises (other : PyStr → PyStr → Option Int) (formats : List PyStr) (hm : ∀ f ∈ formats, Modelled f) (s : PyStr) :
    (∃ e, dateLoop other s formats = .error e) ↔
      ∃ before f after, formats = before ++ f :: after ∧ Repeats f ∧ (∀ g ∈ before, ¬ Repeats g) ∧ dateLoop other s before = .ok none := by
  induction formats with
  | nil =>
    refine ⟨fun ⟨_, h⟩ => (by cases h), ?_⟩
    rintro ⟨before, f, after, h, _⟩
    cases before <;> cases h
  | cons f fs ih =>
    have ih := ih (fun g hg => hm g (List.mem_cons_of_mem _ hg))
    obtain ⟨ds, hd⟩ := hm f List.mem_cons_self
    rw [dateLoop, hd]
    dsimp only
    by_cases hr : repeatsDirs ds = true
    · rw [if_pos hr]
      exact ⟨fun _ => ⟨[], f, fs, rfl, (Repeats.iff hd).2 hr, fun g hg => (nomatch hg), rfl⟩, fun _ => ⟨_, rfl⟩⟩
    · rw [if_neg hr]
      have some_step : ∀ l ts, readTimestamp ds s = some ts → dateLoop other s (f :: l) = .ok (some ts) := fun l ts e => by
        rw [dateLoop, hd]; dsimp only; rw [if_neg hr, e]
      have none_step : ∀ l, readTimestamp ds s = none → dateLoop other s (f :: l) = dateLoop other s l := fun l e => by
        rw [dateLoop, hd]; dsimp only; rw [if_neg hr, e]
      cases hx : readTimestamp ds s with
      | some ts =>
        dsimp only
        refine ⟨fun ⟨_, h⟩ => (by cases h), ?_⟩
        rintro ⟨before, g, after, h, h1, h2, h3⟩
        cases before with
        | nil =>
          cases h
          exact absurd ((Repeats.iff hd).1 h1) hr
        | cons b before =>
          cases h
          rw [some_step _ _ hx] at h3
          cases h3
      | none =>
        dsimp only
        rw [ih]
        constructor
        · rintro ⟨before, g, after, h, h1, h2, h3⟩
          refine ⟨f :: before, g, after, by rw [h]; rfl, h1, ?_, ?_⟩
          · intro x hx'
            rcases List.mem_cons.1 hx' with rfl | hx'
            · exact fun e => hr ((Repeats.iff hd).1 e)
            · exact h2 x hx'
          · rw [none_step _ hx]; exact h3
        · rintro ⟨before, g, after, h, h1, h2, h3⟩
          cases before with
          | nil =>
            cases h
            exact absurd ((Repeats.iff hd).1 h1) hr
          | cons b before =>
            cases h
            rw [none_step _ hx] at h3
            exact ⟨before, g, after, rfl, h1, fun x hx' => h2 x (List.mem_cons_of_mem _ hx'), h3⟩

/-- **C108** (what holds): if no directive comes twice in a format and each number is followed by something that cannot be a part of it, a text is read if
and only if it is one of a format for a datetime. Missing: formats with directives that come twice, which raise (`C108_refuted`), and formats such as
`%m%d`, in which `111` is the first of November and the eleventh of January. -/
theorem C108_read_partial (other : PyStr → PyStr → Option Int) (formats : List PyStr) (hs : ∀ f ∈ formats, Separated f) (hr : ∀ f ∈ formats, ¬ Repeats f)
    (s : PyStr) : ∃ r, dateLoop other s formats = .ok r ∧ (r = none ↔ ¬ ∃ f ∈ formats, ∃ t, Means f s t) ∧
      ∀ ts, r = some ts → ∃ f ∈ formats, ∃ t, Means f s t ∧ ts = toTimestamp t.epochUtc := by
  induction formats with
  | nil => exact ⟨none, rfl, ⟨fun _ ⟨f, hf, _⟩ => (nomatch hf), fun _ => rfl⟩, fun ts h => (nomatch h)⟩
  | cons f fs ih =>
    obtain ⟨r, h1, h2, h3⟩ := ih (fun g hg => hs g (List.mem_cons_of_mem _ hg)) (fun g hg => hr g (List.mem_cons_of_mem _ hg))
    obtain ⟨ds, hd, hsep⟩ := hs f List.mem_cons_self
    rw [dateLoop, hd]
    dsimp only
    rw [if_neg (fun e => hr f List.mem_cons_self ((Repeats.iff hd).2 e))]
    cases hx : readTimestamp ds s with
    | some ts =>
      obtain ⟨t, ht⟩ := read_means hd hx
      refine ⟨some ts, rfl, ⟨fun h => (by cases h), fun h => absurd ⟨f, List.mem_cons_self, t, ht.1⟩ h⟩, fun ts' e => ?_⟩
      cases e
      exact ⟨f, List.mem_cons_self, t, ht⟩
    | none =>
      have hnot := (read_none_iff hd hsep).1 hx
      refine ⟨r, h1, h2.trans (not_congr ⟨?_, ?_⟩), fun ts e => ?_⟩
      · rintro ⟨g, hg, t, ht⟩
        exact ⟨g, List.mem_cons_of_mem _ hg, t, ht⟩
      · rintro ⟨g, hg, t, ht⟩
        rcases List.mem_cons.1 hg with rfl | hg
        · exact absurd ⟨t, ht⟩ hnot
        · exact ⟨g, hg, t, ht⟩
      · obtain ⟨g, hg, t, ht⟩ := h3 ts e
        exact ⟨g, List.mem_cons_of_mem _ hg, t, ht⟩

theorem start_formats {f : PyStr} (h : f ∈ startOptions.dateFormats) : ∃ ds, formatDirs f = some ds ∧ parseFormat f = some ds ∧ SeparatedDirs ds = true ∧
    ¬ Repeats f := by
  have key : ∀ ds, formatDirs f = some ds → SeparatedDirs ds = true → repeatsDirs ds = false → ∃ ds, formatDirs f = some ds ∧ parseFormat f = some ds ∧
      SeparatedDirs ds = true ∧ ¬ Repeats f := by
    intro ds h1 h2 h3
    refine ⟨ds, h1, ?_, h2, ?_⟩
    · rw [parseFormat, h1, Option.filter_some, h3]; rfl
    · rw [Repeats.iff h1, h3]; simp
  have s := separated_default
  simp only [startOptions, List.mem_cons, List.not_mem_nil, or_false] at h
  rcases h with rfl | rfl | rfl
  · exact key (dateDirs ++ (timeDirs ++ [.z])) (by decide) s.2.2 (by decide)
  · exact key dateDirs (by decide) s.1 (by decide)
  · exact key (dateDirs ++ timeDirs) (by decide) s.2.1 (by decide)

/-- **C108** for the default formats, in any order: a text is read as a moment if and only if it is one of a format for a datetime at this moment; there is
at most one such datetime. -/
theorem C108_default (other : PyStr → PyStr → Option Int) (formats : List PyStr) (hf : ∀ f, f ∈ formats ↔ f ∈ startOptions.dateFormats) (s : PyStr) :
    (∀ ts, dateLoop other s formats = .ok (some ts) ↔ ∃ f ∈ startOptions.dateFormats, ∃ t, Means f s t ∧ ts = toTimestamp t.epochUtc) ∧
    (∀ f ∈ startOptions.dateFormats, ∀ g ∈ startOptions.dateFormats, ∀ t t', Means f s t → Means g s t' → t = t') ∧
    ∃ r, dateLoop other s formats = .ok r := by
  have hu : ∀ f ∈ startOptions.dateFormats, ∀ g ∈ startOptions.dateFormats, ∀ t t', Means f s t → Means g s t' → t = t' := by
    rintro f h1 g h2 t t' ⟨d1, e1, w1, _⟩ ⟨d2, e2, w2, _⟩
    obtain ⟨d1', g1, k1, _⟩ := start_formats h1
    obtain ⟨d2', g2, k2, _⟩ := start_formats h2
    rw [e1] at g1; cases g1
    rw [e2] at g2; cases g2
    exact (default_unique h1 h2 k1 k2 w1 w2).2
  obtain ⟨r, h1, h2, h3⟩ := C108_read_partial other formats
    (fun f h => by obtain ⟨ds, g1, _, g2, _⟩ := start_formats ((hf f).1 h); exact ⟨ds, g1, g2⟩)
    (fun f h => by obtain ⟨_, _, _, _, g⟩ := start_formats ((hf f).1 h); exact g) s
  refine ⟨fun ts => ?_, hu, r, h1⟩
  rw [h1]
  constructor
  · intro e
    obtain ⟨f, g1, g2⟩ := h3 ts (Except.ok.inj e)
    exact ⟨f, (hf f).1 g1, g2⟩
  · rintro ⟨f, g1, t, g2, rfl⟩
    cases r with
    | none => exact absurd ⟨f, (hf f).2 g1, t, g2⟩ (h2.1 rfl)
    | some ts =>
      obtain ⟨g, k1, t', k2, rfl⟩ := h3 ts rfl
      rw [hu g ((hf g).1 k1) f g1 t' t k2 g2]

/-- **C108** in `parse_value`: where the loop does not raise it gives the date of the value, for readers of dates as `strptime`. -/
theorem C108_value (E : ParseEnv) (hE : E.ReadsDates) (o : ParsingOptions) (v : Value) (ha : Ascii (strValue E o v)) (r : Option Int)
    (h : dateLoop E.parseDate (strValue E o v) o.dateFormats = .ok r) : parsedDate E o v = r := by
  unfold parsedDate
  generalize o.dateFormats = l at h ⊢
  induction l with
  | nil => cases h; rfl
  | cons f fs ih =>
    rw [List.findSome?_cons]
    rw [dateLoop] at h
    cases hd : formatDirs f with
    | none =>
      rw [hd] at h
      dsimp only at h
      cases e : E.parseDate (strValue E o v) f with
      | some ts => rw [e] at h; exact Except.ok.inj h
      | none => rw [e] at h; exact ih h
    | some ds =>
      rw [hd] at h
      dsimp only at h
      split at h
      · cases h
      · rename_i hr
        have hp : parseFormat f = some ds := by
          rw [parseFormat, hd, Option.filter_some, Bool.eq_false_iff.2 hr]; rfl
        rw [hE f _ ds hp ha]
        cases e : readTimestamp ds (strValue E o v) with
        | some ts => rw [e] at h; exact Except.ok.inj h
        | none => rw [e] at h; exact ih h

/-- **C108 does not hold in full**: a format in which a directive comes twice, which the builder of options takes, makes the loop raise `re.error`
instead of `ValueError` for each text. -/
theorem C108_refuted : ¬ C108_full := by
  intro h
  obtain ⟨r, hr, _⟩ := h (fun _ _ => none) ["%Y/%Y".toList] (by
    intro f hf
    rw [List.mem_singleton] at hf
    subst hf
    exact ⟨[.Y, .lit '/', .Y], by decide⟩) "2021".toList (by unfold Ascii; decide)
  have : dateLoop (fun _ _ => none) "2021".toList ["%Y/%Y".toList] = .error .redefinition := by decide
  rw [this] at hr
  cases hr

/-- Formats that meet the hypotheses, and what they read; one that is not separated, with a text of two datetimes. -/
example : Separated "%d/%m/%Y".toList ∧ ¬ Repeats "%d/%m/%Y".toList ∧ ¬ Separated "%m%d".toList ∧
    Means "%d/%m/%Y".toList "1/12/2021".toList { year := 2021, month := 12, day := 1 } ∧
    Means "%m%d".toList "111".toList { month := 11, day := 1 } ∧ Means "%m%d".toList "111".toList { month := 1, day := 11 } ∧
    dateLoop (fun _ _ => none) "1/12/2021".toList ["%Y-%m-%d".toList, "%d/%m/%Y".toList] = .ok (some 1638316800000) ∧
    dateLoop (fun _ _ => none) "31/2/2021".toList ["%Y-%m-%d".toList, "%d/%m/%Y".toList] = .ok none := by
  have e : formatDirs "%d/%m/%Y".toList = some [.d, .lit '/', .m, .lit '/', .Y] := by decide
  have e' : formatDirs "%m%d".toList = some [.m, .d] := by decide
  refine ⟨⟨_, e, by decide⟩, by rw [Repeats.iff e]; decide, fun ⟨ds, h1, h2⟩ => ?_, ⟨_, e, strptime_sound (by decide)⟩, ⟨_, e', strptime_sound (by decide)⟩,
    ⟨_, e', ?_, by decide⟩, by decide +kernel, by decide +kernel⟩
  · rw [e'] at h1
    cases h1
    revert h2
    decide
  · refine Writes.cons (w := ['1']) (s := ['1', '1']) (t' := { month := 1 }) (.m _ 1 _ ⟨by unfold AllDigits; decide, .inl rfl, by decide⟩ (by decide) (by decide)) ?_
    exact Writes.cons (w := ['1', '1']) (s := []) (.d _ 11 _ ⟨by unfold AllDigits; decide, .inr rfl, by decide⟩ (by decide) (by decide)) (.nil _)

/-- Texts of the default formats, and some that are not: minutes are below 60, `%z` may have colons but not one only. -/
example : ["2021-2-3", "2021-02-03T04:05:06.7", "2021-02-03T04:05:06.7Z", "2021-02-03T04:05:06.7+01:30:15.5", "2021-02-03T04:60:06.7",
      "2021-02-03T04:05:06.7+0130:15", "2021-02-30", "21-02-03", " 2021-02-03", "2021-02-03 ", "2021-02-03T04:05:06.1234567"].map
    (fun s => dateLoop (fun _ _ => none) s.toList startOptions.dateFormats) =
    [.ok (some 1612310400000), .ok (some 1612325106700), .ok (some 1612325106700), .ok (some 1612319691200), .ok none, .ok none, .ok none, .ok none,
      .ok none, .ok none, .ok none] := by decide +kernel

example : exDates.ReadsDates ∧ Ascii (strValue exDates startOptions (.str "2021-2-3".toList)) ∧
    dateLoop exDates.parseDate (strValue exDates startOptions (.str "2021-2-3".toList)) startOptions.dateFormats = .ok (some 1612310400000) :=
  ⟨exDates_reads, by unfold Ascii; decide, by decide +kernel⟩

end Splitgill.Props
