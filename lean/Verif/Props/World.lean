import Verif.Proof.World5
import Verif.Props.Options
import Verif.Props.History
/-!
# C24-C26, C61: several databases of one client, options, committed version
-/

namespace Splitgill.Props
open Splitgill

/-! ## C24 -/

/-- C24: no call on one database changes anything of another. -/
def C24_full : Prop :=
  ∀ (U : Unicode) (m : Mongo) (a b : PyStr) (call : ApiCall), a ≠ b → Unaffected m (call.run U a m).2 b

/-- C24 is false: `rollback_options()` of `a` removes the uncommitted options of `b`. -/
theorem C24_refuted : ¬ C24_full := by
  intro h
  have := (h asciiU (insertOptions ['b'] exOptions Mongo.empty) ['a'] ['b'] .rollbackOptions (by decide)).options
  revert this
  decide

/-- C24 is false for `commit()` too: a commit of `a`, which has nothing uncommitted, gives a version to the
uncommitted options of `b`. -/
theorem C24_commit_refuted :
    ∃ (m : Mongo) (a b : PyStr), a ≠ b ∧ ¬ PendingData m a ∧ ¬ PendingOptions m a ∧
      ¬ Unaffected m (commit a 5 m).2 b := by
  refine ⟨insertOptions ['b'] exOptions Mongo.empty, ['a'], ['b'], by decide, ?_, ?_, ?_⟩
  · rintro ⟨d, h, _⟩; cases h
  · rintro ⟨d, h, h1, _⟩
    simp [insertOptions, Mongo.empty] at h
    subst h
    revert h1; decide
  · intro h
    have := h.options
    revert this
    decide

/-- **C24** the part that holds, for any sequence of calls on other databases: the data, the lock and the committed
options of `b` stay, and if `b` has no uncommitted options (of its own) everything of it stays. Missing: the
uncommitted options of `b`, which a call on another database commits or removes. -/
theorem C24_isolation_partial (U : Unicode) (m : Mongo) (b : PyStr) (calls : List (PyStr × ApiCall))
    (hc : ∀ dc ∈ calls, dc.1 ≠ b) :
    let m' := runCalls U m calls
    m'.data b = m.data b ∧ isLocked b m' = isLocked b m ∧
    (∀ d ∈ m.options, d.name = b → d.version ≠ none → d ∈ m'.options) ∧
    (¬ PendingOptions m b → Unaffected m m' b) := by
  intro m'
  have h := keep_calls U calls m hc
  have hl : isLocked b m' = isLocked b m := by simp only [isLocked, m', h.locks]
  refine ⟨h.data, hl, h.options.committed, fun hp => ⟨h.data, h.options.clean ?_, hl⟩⟩
  intro d hd hn hv
  exact hp ⟨d, hd, hn, hv⟩

/-- Two databases, calls on `a` that change it, `b` with data and committed options. -/
example :
    let m := runCalls asciiU Mongo.empty [(['b'], .updateOptions exOptions true 3), (['b'], .ingest none [exRec ['r'] 1] true 4)]
    ¬ PendingOptions m ['b'] ∧ (m.data ['b']).length = 1 ∧ m.options.length = 1 ∧
    (runCalls asciiU m [(['a'], .ingest none [exRec ['r'] 1] false 4), (['a'], .updateOptions exOptions true 5)]).options.length = 2 := by
  refine ⟨?_, by decide, by decide, by decide⟩
  rintro ⟨d, h, _, h2⟩
  have : ∀ d ∈ (runCalls asciiU Mongo.empty [(['b'], .updateOptions exOptions true 3), (['b'], .ingest none [exRec ['r'] 1] true 4)]).options,
    d.version ≠ none := by decide
  exact this d h h2

/-! ## C25 -/

/-- C25: after a commit that commits data, the database has options. -/
def C25_full : Prop :=
  ∀ (U : Unicode) (calls : List (PyStr × ApiCall)) (db : PyStr) (clock v : Int),
    let m := runCalls U Mongo.empty calls
    PendingData m db → (commit db clock m).1 = .ok (some v) → getOptions db false (commit db clock m).2 ≠ []

/-- C25 is false: when another database of the client has options, the first commit of a database gives it no
default options. -/
theorem C25_refuted : ¬ C25_full := by
  intro h
  refine h asciiU [(['a'], .ingest none [exRec ['r'] 1] true 1), (['b'], .ingest none [exRec ['r'] 1] false 2)]
    ['b'] 3 3 ?_ (by decide) (by decide)
  refine ⟨⟨['r'], none, exData ['r'] 1, []⟩, ?_, rfl⟩
  have : (runCalls asciiU Mongo.empty [(['a'], .ingest none [exRec ['r'] 1] true 1),
    (['b'], .ingest none [exRec ['r'] 1] false 2)]).data ['b'] = [⟨['r'], none, exData ['r'] 1, []⟩] := by decide
  rw [this]; simp

/-- **C25** the part that holds: if only one database of the client is used, then after every commit that
returns a version it has committed options. Missing: clients with several databases. -/
theorem C25_options_partial (U : Unicode) (calls : List ApiCall) (db : PyStr) (clock v : Int) :
    let m := runCalls U Mongo.empty (calls.map (fun c => (db, c)))
    (commit db clock m).1 = .ok (some v) → getOptions db false (commit db clock m).2 ≠ [] := by
  intro m hv
  have ho : OnlyOptions db m.options := only_calls U calls (by intro d hd; cases hd)
  have ho' := only_commit clock ho
  by_cases hl : db ∈ m.locks
  · rw [commit_locked hl] at hv; cases hv
  rw [commit_eq hl] at hv ho' ⊢
  split at hv
  · rename_i hp
    rw [if_pos hp] at ho' ⊢
    dsimp only at ho' ⊢
    have hne : ∃ d, d ∈ commitOptions clock (withDefaults db m) := by
      apply List.exists_mem_of_ne_nil
      intro h
      have h : withDefaults db m = [] := by simpa [commitOptions] using h
      unfold withDefaults at h
      split at h
      · rename_i h2
        simp [hasOptions, hasUncommittedOptions, h] at h2
      · simp at h
    obtain ⟨d, hd⟩ := hne
    intro hg
    have hv' := commitOptions_clean _ _ d hd
    have := (getOptions_keys (m := { data := (m.setData db (commitColl clock (m.data db))).data, options := commitOptions clock (withDefaults db m), locks := m.locks }) (db := db) d.version).2
      ⟨by simpa [Option.isSome_iff_ne_none] using hv', d, hd, ho' d hd, rfl⟩
    rw [hg] at this; cases this
  · cases hv

example :
    let m := runCalls asciiU Mongo.empty ([ApiCall.ingest none [exRec ['r'] 1] false 1].map (fun c => (['x'], c)))
    (commit ['x'] 9 m).1 = .ok (some 9) ∧ (getOptions ['x'] false (commit ['x'] 9 m).2).map (·.1) = [some 9] := by
  decide

/-! ## C26 -/

/-- C26: after `update_options(options)` the latest committed options are those given. -/
def C26_full : Prop :=
  ∀ (m : Mongo) (db : PyStr) (o : ParsingOptions) (clock : Int), isLocked db m = false → OptionsOk o →
    (∀ d ∈ m.options, ∀ v, d.version = some v → v < clock) →
    ∃ o', latestOptions db (updateOptions db o true clock m).2 = some o' ∧ SameOptions o' o

/-- C26 is false: a hint changed in anything but its latitude field counts as unchanged. -/
theorem C26_refuted : ¬ C26_full := by
  intro h
  let o1 : ParsingOptions := { exOptions with geoHints := [⟨"lat".toList, "lon".toList, none, 16⟩] }
  let o2 : ParsingOptions := { exOptions with geoHints := [⟨"lat".toList, "lng".toList, none, 16⟩] }
  obtain ⟨o', h1, h2⟩ := h (updateOptions ['x'] o1 true 1 Mongo.empty).2 ['x'] o2 2 (by decide)
    ⟨by decide, by decide, by decide, by decide⟩ (by decide)
  have h3 : latestOptions ['x'] (updateOptions ['x'] o2 true 2 (updateOptions ['x'] o1 true 1 Mongo.empty).2).2 =
    some o1 := by decide
  rw [h3] at h1
  cases h1
  have := (h2.geoHints ⟨"lat".toList, "lng".toList, none, 16⟩).2 (by simp [o2])
  revert this; decide

/-- **C26** the part that holds: when hints of the old and new options with the same latitude field are the same,
the latest options after `update_options(options)`, or after `update_options(options, commit=False)` and
`commit()`, are the given ones. Missing: options that only change a hint's other fields. -/
theorem C26_update_partial (m : Mongo) (db : PyStr) (o : ParsingOptions) (clock : Int) (hl : isLocked db m = false)
    (ho : OptionsOk o) (hclock : ∀ d ∈ m.options, ∀ v, d.version = some v → v < clock)
    (hh : ∀ l, latestOptions db m = some l → HintsAgree l o) :
    (∃ o', latestOptions db (updateOptions db o true clock m).2 = some o' ∧ SameOptions o' o) ∧
    (∃ o', latestOptions db (commit db clock (updateOptions db o false clock m).2).2 = some o' ∧ SameOptions o' o) := by
  have hl : db ∉ m.locks := by simpa [isLocked] using hl
  have hrb : (if hasUncommittedOptions m = true then rollbackOptions m else m) = rollbackOptions m := by
    split
    · rfl
    · rename_i h
      have : m.options.filter (fun d => d.version.isSome) = m.options := by
        rw [List.filter_eq_self]
        intro d hd
        by_contra hc
        exact h (hasUncommittedOptions_iff.2 ⟨d, hd, by simpa using hc⟩)
      simp only [rollbackOptions, this]
  have hcm : committedOptions db (rollbackOptions m).options = committedOptions db m.options := by
    simp only [committedOptions, rollbackOptions, List.filter_filter]
    apply List.filter_congr
    intro d _
    cases d.version <;> simp
  have hlast : ∀ m', committedOptions db m'.options = committedOptions db m.options → latestOptions db m' = latestOptions db m := by
    intro m' he
    simp only [latestOptions, getOptions_eq, he]
  by_cases hs : sameAsLatest (latestOptions db m) o = true
  · have hsame : ∃ o', latestOptions db m = some o' ∧ SameOptions o' o := by
      rcases latestOptions_spec db m with ⟨h1, _⟩ | ⟨d, v, h1, _⟩
      · rw [h1] at hs; cases hs
      · refine ⟨_, h1, ?_⟩
        rw [h1] at hs
        exact pyEq_same (fromDoc_ok _) (hh _ h1) hs
    have hm' : updateOptionsNoCommit db o m = rollbackOptions m := by
      simp only [updateOptionsNoCommit, hrb, hs, if_true]
    simp only [updateOptions, hs, if_true, hm']
    refine ⟨by rw [hlast _ hcm]; exact hsame, ?_⟩
    obtain ⟨o', h1, h2⟩ := hsame
    refine ⟨o', ?_, h2⟩
    rw [← h1]
    apply hlast
    rw [commit_eq (m := rollbackOptions m) hl]
    split
    · dsimp only
      have hnp : hasUncommittedOptions (rollbackOptions m) = false := by
        simp [hasUncommittedOptions, rollbackOptions]
        intro d _ h1 h2; simp [h2] at h1
      have hw : withDefaults db (rollbackOptions m) = (rollbackOptions m).options := by
        unfold withDefaults
        rw [if_pos]
        rcases latestOptions_spec db m with ⟨h3, _⟩ | ⟨d, v, _, h3, h4, _⟩
        · rw [h3] at h1; cases h1
        · rw [← hcm] at h3
          simp only [committedOptions, List.mem_filter] at h3
          simp only [hasOptions, Bool.or_eq_true, List.any_eq_true]
          exact .inl ⟨d, h3.1, by simp [h4]⟩
      rw [hw, commitOptions_none hnp, hcm]
    · exact hcm
  · have hm' : updateOptionsNoCommit db o m = insertOptions db o (rollbackOptions m) := by
      simp only [updateOptionsNoCommit, hrb, hs]; rfl
    simp only [updateOptions, hs, if_true, hm']
    have hcommit : ∃ o', latestOptions db (commit db clock (insertOptions db o (rollbackOptions m))).2 = some o' ∧
        SameOptions o' o := by
      have hp : hasUncommittedOptions (insertOptions db o (rollbackOptions m)) = true :=
        hasUncommittedOptions_iff.2 ⟨⟨db, none, o.toDoc⟩, by simp [insertOptions], rfl⟩
      have hcv : ∀ os : List OptDoc, commitOptions clock (os ++ [⟨db, none, o.toDoc⟩]) =
          commitOptions clock os ++ [⟨db, some clock, o.toDoc⟩] := by intro os; simp [commitOptions]
      refine ⟨ParsingOptions.fromDoc o.toDoc, ?_, ?_⟩
      · rw [commit_eq (m := insertOptions db o (rollbackOptions m)) hl, hp, Bool.or_true, if_pos rfl]
        refine latestOptions_last (os := committedOptions db m.options) (d := ⟨db, some clock, o.toDoc⟩) (v := clock)
          ?_ rfl ?_
        · dsimp only
          simp only [withDefaults, hp, Bool.or_true, if_true]
          simp only [insertOptions]
          rw [hcv]
          have hnp : (rollbackOptions m).options.any (fun d => d.version.isNone) = false := by
            simp [rollbackOptions]
            intro d _ h1 h2; simp [h2] at h1
          rw [commitOptions_none hnp]
          rw [← hcm]
          simp [committedOptions]
        · intro d hd v hv
          simp only [committedOptions, List.mem_filter] at hd
          have := hclock d hd.1 v hv; omega
      · exact C27_from_doc_to_doc o ho o.toDoc ⟨.refl _, .refl _, .refl _, .refl _, rfl, rfl⟩
    exact ⟨hcommit, hcommit⟩

/-- Options are committed, then changed. -/
example :
    let m := (updateOptions ['x'] exOptions true 1 Mongo.empty).2
    let o := { exOptions with keywordLength := 10, geoHints := [⟨"lat".toList, "lon".toList, none, 16⟩] }
    (∀ l, latestOptions ['x'] m = some l → HintsAgree l o) ∧ OptionsOk o ∧ isLocked ['x'] m = false ∧
    (updateOptions ['x'] o true 2 m).1 = .ok (some 2) := by
  refine ⟨?_, ⟨by decide, by decide, by decide, by decide⟩, by decide, by decide⟩
  intro l hl
  have : latestOptions ['x'] (updateOptions ['x'] exOptions true 1 Mongo.empty).2 = some exOptions := by decide
  rw [this] at hl; cases hl
  unfold HintsAgree; decide

/-! ## C61 -/

/-- C61: the committed version is the greatest version of a record or of the options, and there is data exactly
if a record has a committed version. -/
def C61_full : Prop :=
  ∀ (U : Unicode) (es : List Event), Regular es → ∀ (m : Mongo) (db : PyStr),
    runEvents U [] es = .ok (m.data db) →
    (∀ v, getCommittedVersion db m = some v ↔ IsVersion m db v ∧ ∀ w, IsVersion m db w → w ≤ v) ∧
    (hasData db m = true ↔ ∃ d ∈ m.data db, d.getVersions ≠ [])

/-- C61 is false: once all records have uncommitted changes, their committed versions are not seen. -/
theorem C61_refuted : ¬ C61_full := by
  intro h
  have h1 := h asciiU [.ingest none [exRec ['a'] 1], .commit 10, .ingest none [exRec ['a'] 2]]
    ⟨by decide, by intro e he; simp at he; rcases he with rfl | rfl | rfl <;> unfold NoSpan <;> decide⟩
    (Mongo.empty.setData ['x'] [⟨['a'], none, exData ['a'] 2, [(10, [⟨[], { dc := some [(['x'], .int 1)] }⟩])]⟩]) ['x'] (by decide)
  have h2 := h1.2.2 ⟨_, List.mem_singleton.2 rfl, by decide⟩
  revert h2; decide

/-- **C61** the part that holds: in every state without uncommitted data, `get_committed_version()` is the greatest
version of a record (its current version or one of its history) or of the options of this database, `None` if
there is none; and `has_data()` says whether a record has a committed version. Missing: states with
uncommitted data, in which both ignore the versions of records with uncommitted changes. -/
theorem C61_version_partial (U : Unicode) (es : List Event) (hes : Regular es) (m : Mongo) (db : PyStr)
    (hm : runEvents U [] es = .ok (m.data db)) (hp : ¬ PendingData m db) :
    (∀ v, getCommittedVersion db m = some v ↔ IsVersion m db v ∧ ∀ w, IsVersion m db w → w ≤ v) ∧
    (getCommittedVersion db m = none ↔ ∀ v, ¬ IsVersion m db v) ∧
    (hasData db m = true ↔ ∃ d ∈ m.data db, d.getVersions ≠ []) := by
  obtain ⟨s, _, hr⟩ := reach hes hm
  have hdoc : ∀ d ∈ m.data db, ∃ v, d.version = some v ∧ v ∈ d.getVersions ∧ ∀ w ∈ d.getVersions, w ≤ v := by
    intro d hd
    cases hv : d.version with
    | none => exact absurd ⟨d, hd, hv⟩ hp
    | some v =>
      have hrep := hr.rep d.id
      rw [findRecord_of_mem hr.nodup hd] at hrep
      obtain ⟨h1, h2⟩ := hrep.version_max hv
      exact ⟨v, rfl, h1, h2⟩
  have hg : getCommittedVersion db m =
      ((m.data db).filterMap (·.version) ++ (m.options.filter (fun d => decide (d.name = db))).filterMap (·.version)).max? := by
    simp only [getCommittedVersion, max_append]
  have := max_spec (l := (m.data db).filterMap (·.version) ++ (m.options.filter (fun d => decide (d.name = db))).filterMap (·.version))
    (p := IsVersion m db) ?_ ?_
  · rw [hg]
    refine ⟨this.1, this.2, ?_⟩
    simp only [hasData, List.any_eq_true]
    constructor
    · rintro ⟨d, hd, _⟩
      obtain ⟨v, _, h2, _⟩ := hdoc d hd
      exact ⟨d, hd, List.ne_nil_of_mem h2⟩
    · rintro ⟨d, hd, _⟩
      obtain ⟨v, h1, _⟩ := hdoc d hd
      exact ⟨d, hd, by simp [h1]⟩
  · intro v hv
    rcases List.mem_append.1 hv with hv | hv
    · rw [List.mem_filterMap] at hv
      obtain ⟨d, hd, he⟩ := hv
      obtain ⟨w, h1, h2, _⟩ := hdoc d hd
      rw [h1] at he; cases he
      exact .inl ⟨d, hd, h2⟩
    · rw [List.mem_filterMap] at hv
      obtain ⟨d, hd, he⟩ := hv
      simp only [List.mem_filter, decide_eq_true_eq] at hd
      exact .inr ⟨d, hd.1, hd.2, he⟩
  · rintro v (⟨d, hd, hv⟩ | ⟨d, hd, h1, h2⟩)
    · obtain ⟨w, h1, _, h3⟩ := hdoc d hd
      exact ⟨w, List.mem_append_left _ (List.mem_filterMap.2 ⟨d, hd, h1⟩), h3 v hv⟩
    · refine ⟨v, List.mem_append_right _ (List.mem_filterMap.2 ⟨d, ?_, h2⟩), Int.le_refl _⟩
      simp [hd, h1]

/-- Without the condition on the data: what is returned is a version, and `has_data()` is never wrongly true. -/
theorem C61_sound_partial (m : Mongo) (db : PyStr) :
    (∀ v, getCommittedVersion db m = some v → IsVersion m db v) ∧
    (hasData db m = true → ∃ d ∈ m.data db, d.getVersions ≠ []) := by
  have hself : ∀ (d : MongoRecord) (v : Int), d.version = some v → v ∈ d.getVersions := by
    intro d v h
    simp only [MongoRecord.getVersions, Bool.false_eq_true, if_false]
    unfold sortAsc; rw [(sortBy_perm _ _).mem_iff]
    simp [h]
  constructor
  · intro v h
    simp only [getCommittedVersion, max_append] at h
    have := (List.max?_eq_some_iff.1 h).1
    rcases List.mem_append.1 this with hv | hv
    · rw [List.mem_filterMap] at hv
      obtain ⟨d, hd, he⟩ := hv
      exact .inl ⟨d, hd, hself d v he⟩
    · rw [List.mem_filterMap] at hv
      obtain ⟨d, hd, he⟩ := hv
      simp only [List.mem_filter, decide_eq_true_eq] at hd
      exact .inr ⟨d, hd.1, hd.2, he⟩
  · simp only [hasData, List.any_eq_true]
    rintro ⟨d, hd, h⟩
    obtain ⟨v, hv⟩ := Option.isSome_iff_exists.1 h
    exact ⟨d, hd, List.ne_nil_of_mem (hself d v hv)⟩

/-- A database with three versions of data and options in between. -/
example :
    let m := runCalls asciiU Mongo.empty [(['x'], .ingest none [exRec ['a'] 1] true 1), (['x'], .updateOptions exOptions true 5),
      (['x'], .ingest none [exRec ['b'] 1] true 3)]
    getCommittedVersion ['x'] m = some 5 ∧ hasData ['x'] m = true ∧
    runEvents asciiU [] [.ingest none [exRec ['a'] 1], .commit 1, .ingest none [exRec ['b'] 1], .commit 3] = .ok (m.data ['x']) := by
  decide

end Splitgill.Props
