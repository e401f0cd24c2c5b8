import Verif.Proof.Prepare
/-!
# C13, C16-C19: cleaning of the data that is stored
-/

namespace Splitgill.Props
open Splitgill

/-- Example tables: the ASCII part of unicode. -/
def asciiU : Unicode where
  isC c := decide (c.toNat < 32 ∨ c.toNat = 127)
  isSpace c := decide (c = ' ' ∨ (9 ≤ c.toNat ∧ c.toNat ≤ 13) ∨ (28 ≤ c.toNat ∧ c.toNat ≤ 31))

theorem asciiU_sane : asciiU.Sane := by constructor <;> decide

/-- **C13** the stored data of a record is empty exactly when the caller passed empty data; otherwise
its `_id` is the id of the record without control characters, whatever the caller's data has. -/
theorem C13_prepared_id (U : Unicode) (r : Record) :
    (prepareRecordData U r = [] ↔ r.data = []) ∧
    (r.data ≠ [] → ∃ t, aget "_id".toList (prepareRecordData U r) = some (.str t) ∧
      t = r.id.filter (fun c => !(U.isC c && !(c == '\n' || c == '\r' || c == '\t')))) := by
  have key : r.data ≠ [] → aget dataIdField (prepareRecordData U r) =
      some (.str (r.id.filter (fun c => !invalidValueChar U c))) := by
    intro h
    have : r.isDelete = false := by simp [Record.isDelete, h]
    rw [prepareRecordData, this]
    simp only [Bool.false_eq_true, if_false]
    rw [aget_aset]; simp [prepareData]
  refine ⟨⟨?_, ?_⟩, ?_⟩
  · intro h
    by_cases hd : r.data = []
    · exact hd
    · have := key hd; rw [h] at this; simp at this
  · intro h; simp [prepareRecordData, Record.isDelete, h]
  · intro h
    refine ⟨_, key h, ?_⟩
    apply List.filter_congr
    intro c _
    simp only [invalidValueChar, bne, Bool.not_or, Bool.and_assoc]

/-- The data has control characters and another `_id`: the stored `_id` is the cleaned id. -/
example : aget "_id".toList (prepareRecordData asciiU
    ⟨['a', '\x00', '\n'], [(.str "_id".toList, .int 3), (.str ['x'], .none)]⟩) =
      some (.str ['a', '\n']) := by rfl

/-- **C16** every field name at every depth of the stored data is clean (see `CleanName`). -/
theorem C16_names_clean (U : Unicode) (hU : U.Sane) (r : Record) :
    NamesClean U (.dict (prepareRecordData U r)) := by
  unfold prepareRecordData
  split
  · intro p d h
    rcases getAt_dict h with ⟨_, e⟩ | ⟨q, k, w, hw, h'⟩
    · cases e; simp
    · cases hw
  · have hd := prepareData_names hU (.dict r.data)
    rw [prepareData] at hd
    intro p d h
    rcases getAt_dict h with ⟨_, e⟩ | ⟨q, k, w, hw, h'⟩
    · cases e
      intro k hk
      rcases mem_akeys_aset.mp hk with e | hk
      · subst e
        have := prepareFieldName_clean hU (.str dataIdField)
        have e : prepareFieldName U (.str dataIdField) = dataIdField := by
          have h1 : strip U ((dataIdField.filter (fun c => !U.isC c)).map
            (fun c => if c = '.' then '_' else c)) = dataIdField := by
            have : dataIdField.filter (fun c => !U.isC c) = dataIdField := by
              simp [dataIdField, List.filter, hU.c_under, hU.c_i, hU.c_d]
            rw [this]
            have : dataIdField.map (fun c => if c = '.' then '_' else c) = dataIdField := by decide
            rw [this]
            apply strip_id
            · intro c hc; simp [dataIdField] at hc; subst hc; exact hU.s_under
            · intro c hc; simp [dataIdField] at hc; subst hc; exact hU.s_d
          unfold prepareFieldName
          have e : (RawKey.str dataIdField).text = dataIdField := rfl
          rw [e, h1]
          simp [dataIdField]
        rwa [e] at this
      · exact hd [] _ rfl k hk
    · rcases mem_aset hw with e | hw
      · cases e
        have := getAt_scalar (by simp [prepareData, Value.isScalar]) h'
        simp [prepareData] at this
      · have hk : aget k (aofList (prepareItems U r.data)) = some w :=
          aget_of_mem (nodup_aofList _) hw
        exact hd (.key k :: q) d (by simp [getAt, hk, h'])

/-- The tables of the ASCII characters are sane; the name `" _a.b\0 "` becomes `-a_b`. -/
example : asciiU.Sane ∧ prepareFieldName asciiU (.str " _a.b\x00 ".toList) = "-a_b".toList ∧
    prepareFieldName asciiU (.str "\x00".toList) = "-".toList ∧
    prepareFieldName asciiU (.str "_id".toList) = "_id".toList ∧
    prepareFieldName asciiU (.str "_id ".toList) = "-id".toList := ⟨asciiU_sane, by decide⟩

/-- **C17** (full statement) every string at every depth of the stored data is clean. -/
def C17_full : Prop := ∀ (U : Unicode) (r : Record), TextsClean U (.dict (prepareRecordData U r))

/-- **C17 is false of the code**: `str(value)` of a value of another type is stored as it is. -/
theorem C17_refuted : ¬ C17_full := by
  intro h
  have := h asciiU ⟨['a'], [(.str ['x'], .other ['\x00'])]⟩ [.key ['x']] ['\x00'] (by rfl) '\x00'
    (by simp) (by decide)
  revert this; decide

/-- **C17** (what holds) every string at every depth of the stored data is clean, provided the texts of the
values that are not `str` (dates and fallback objects) are.  Missing: fallback objects whose `str()` has
control characters. -/
theorem C17_texts_clean_partial (U : Unicode) (r : Record)
    (hr : ∀ k v, (k, v) ∈ r.data → v.TextsOk U) : TextsClean U (.dict (prepareRecordData U r)) := by
  unfold prepareRecordData
  split
  · intro p d h
    rcases getAt_dict h with ⟨_, e⟩ | ⟨q, k, w, hw, h'⟩
    · cases e
    · cases hw
  · have hd := prepareData_texts (U := U) (.dict r.data) (by rw [Raw.TextsOk, textsOkDict_iff]; exact hr)
    rw [prepareData] at hd
    intro p d h
    rcases getAt_dict h with ⟨_, e⟩ | ⟨q, k, w, hw, h'⟩
    · cases e
    · rcases mem_aset hw with e | hw
      · cases e
        have := getAt_scalar (by simp [prepareData, Value.isScalar]) h'
        simp only [prepareData] at this
        cases this
        exact cleanText_filter U _
      · have hk : aget k (aofList (prepareItems U r.data)) = some w :=
          aget_of_mem (nodup_aofList _) hw
        exact hd (.key k :: q) d (by simp [getAt, hk, h'])

/-- A record with a date, nested strings with control characters and a clean fallback text. -/
example : ∀ k v, (k, v) ∈ ([(.str ['x'], .list [.str "a\x00\n".toList, .date "2020-01-02".toList]),
    (.other ['1'], .other "1.5".toList)] : List (RawKey × Raw)) → v.TextsOk asciiU := by
  intro k v h
  simp only [List.mem_cons, Prod.mk.injEq, List.not_mem_nil, or_false] at h
  rcases h with ⟨_, rfl⟩ | ⟨_, rfl⟩
  · refine ⟨trivial, ?_, trivial⟩
    unfold Raw.TextsOk CleanText; decide
  · unfold Raw.TextsOk CleanText; decide

/-- **C18** (names) cleaning a field name twice is the same as cleaning it once. -/
theorem C18_names_idempotent (U : Unicode) (hU : U.Sane) (k : RawKey) :
    prepareFieldName U (.str (prepareFieldName U k)) = prepareFieldName U k :=
  prepareFieldName_id (prepareFieldName_clean hU k)

/-- **C18** (full statement, values) -/
def C18_full : Prop := ∀ (U : Unicode), U.Sane → ∀ v : Raw,
  prepareData U (prepareData U v).toRaw = prepareData U v

/-- **C18 is false of the code** for a fallback object whose text has a control character. -/
theorem C18_refuted : ¬ C18_full := by
  intro h
  have := h asciiU asciiU_sane (.other ['\x00'])
  have e : prepareData asciiU (prepareData asciiU (.other ['\x00'])).toRaw = .str [] := by rfl
  rw [e] at this
  simp [prepareData] at this

/-- **C18** (what holds) preparing stored data again gives identical data, provided the texts of dates and
fallback objects are clean.  Missing: other fallback texts. -/
theorem C18_values_idempotent_partial (U : Unicode) (hU : U.Sane) (v : Raw) (hv : v.TextsOk U) :
    prepareData U (prepareData U v).toRaw = prepareData U v :=
  prepareData_toRaw _ (prepareData_wf U v) (prepareData_names hU v) (prepareData_texts v hv)

/-- In particular data read back from the collection and ingested again is not changed by the
cleaning: for values without dates and fallback objects there is no condition. -/
example (s : PyStr) : prepareData asciiU (prepareData asciiU
    (.dict [(.other ['_'], .list [.str s, .none])])).toRaw =
    prepareData asciiU (.dict [(.other ['_'], .list [.str s, .none])]) :=
  C18_values_idempotent_partial _ asciiU_sane _ ⟨⟨trivial, trivial, trivial⟩, trivial⟩

/-- **C19** (full statement) the prepared dict has one entry for each entry of the input dict. -/
def C19_full : Prop := ∀ (U : Unicode), U.Sane → ∀ d : List (RawKey × Raw), (akeys d).Nodup →
  ∃ r, prepareData U (.dict d) = .dict r ∧ r.length = d.length

/-- **C19 is false of the code**: `{"a.b": 1, "a_b": 2}` becomes `{"a_b": 2}`. -/
theorem C19_refuted : ¬ C19_full := by
  intro h
  obtain ⟨r, h1, h2⟩ := h asciiU asciiU_sane [(.str "a.b".toList, .int 1), (.str "a_b".toList, .int 2)]
    (by decide)
  have e : prepareData asciiU (.dict [(.str "a.b".toList, .int 1), (.str "a_b".toList, .int 2)]) =
    .dict [("a_b".toList, .int 2)] := by rfl
  rw [e] at h1; cases h1; simp at h2

/-- **C19** (what holds) no entry is lost exactly when no two names become the same; then every entry is there
with its prepared value.  Missing: names that collide after cleaning. -/
theorem C19_entries_partial (U : Unicode) (d : List (RawKey × Raw)) :
    ∃ r, prepareData U (.dict d) = .dict r ∧
      (r.length = d.length ↔ ((akeys d).map (prepareFieldName U)).Nodup) ∧
      (((akeys d).map (prepareFieldName U)).Nodup →
        ∀ k v, (k, v) ∈ d → aget (prepareFieldName U k) r = some (prepareData U v)) := by
  have e : akeys (prepareItems U d) = (akeys d).map (prepareFieldName U) := by
    rw [prepareItems_eq]; simp [akeys]
  refine ⟨_, by rw [prepareData], ?_, ?_⟩
  · rw [← e, ← length_aofList_iff, prepareItems_eq]; simp
  · intro hn k v hv
    rw [← e] at hn
    rw [aofList_nodup hn]
    apply aget_of_mem hn
    rw [prepareItems_eq, List.mem_map]
    exact ⟨(k, v), hv, rfl⟩

example : ((akeys ([(.str "a.b".toList, .int 1), (.other "1".toList, .int 2)] :
    List (RawKey × Raw))).map (prepareFieldName asciiU)).Nodup := by decide

end Splitgill.Props
