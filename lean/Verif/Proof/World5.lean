import Verif.Proof.World4
/-! # What a call on one database leaves of another -/

namespace Splitgill

/-- The options of `b`: its committed documents stay, and if it has no others, nothing changes. -/
structure OptKeep (b : PyStr) (os os' : List OptDoc) : Prop where
  committed : ∀ d ∈ os, d.name = b → d.version ≠ none → d ∈ os'
  clean : (∀ d ∈ os, d.name = b → d.version ≠ none) →
    os'.filter (fun d => decide (d.name = b)) = os.filter (fun d => decide (d.name = b))

theorem OptKeep.refl (b : PyStr) (os : List OptDoc) : OptKeep b os os := ⟨fun d h _ _ => h, fun _ => rfl⟩

theorem OptKeep.clean_after {b : PyStr} {os os' : List OptDoc} (h : OptKeep b os os')
    (hc : ∀ d ∈ os, d.name = b → d.version ≠ none) : ∀ d ∈ os', d.name = b → d.version ≠ none := by
  intro d hd hn
  have : d ∈ os'.filter (fun d => decide (d.name = b)) := by simp [hd, hn]
  rw [h.clean hc] at this
  simp only [List.mem_filter] at this
  exact hc d this.1 hn

theorem OptKeep.trans {b : PyStr} {os os' os'' : List OptDoc} (h : OptKeep b os os') (h' : OptKeep b os' os'') :
    OptKeep b os os'' :=
  ⟨fun d hd hn hv => h'.committed d (h.committed d hd hn hv) hn hv,
   fun hc => (h'.clean (h.clean_after hc)).trans (h.clean hc)⟩

theorem OptKeep.rollback (b : PyStr) (os : List OptDoc) : OptKeep b os (os.filter (fun d => d.version.isSome)) := by
  constructor
  · intro d hd _ hv
    rw [List.mem_filter]; exact ⟨hd, by simpa [Option.isSome_iff_ne_none] using hv⟩
  · intro hc
    rw [List.filter_filter]
    apply List.filter_congr
    intro d hd
    by_cases e : d.name = b
    · have := hc d hd e
      simp [e, Option.isSome_iff_ne_none, this]
    · simp [e]

theorem OptKeep.insert {a b : PyStr} (hab : a ≠ b) (os : List OptDoc) (o : OptionsDoc) :
    OptKeep b os (os ++ [⟨a, none, o⟩]) := by
  constructor
  · intro d hd _ _; exact List.mem_append_left _ hd
  · intro _; simp [hab]

theorem OptKeep.commit (b : PyStr) (v : Int) (os : List OptDoc) : OptKeep b os (commitOptions v os) := by
  constructor
  · intro d hd _ hv
    rw [commitOptions, List.mem_map]
    exact ⟨d, hd, by rw [if_neg (by simpa using hv)]⟩
  · intro hc
    induction os with
    | nil => rfl
    | cons d os ih =>
      have ih := ih (fun d hd => hc d (by simp [hd]))
      have e : commitOptions v (d :: os) = (if d.version.isNone then { d with version := some v } else d) :: commitOptions v os := rfl
      rw [e, List.filter_cons, List.filter_cons, ih]
      by_cases hv : d.version.isNone = true
      · have hn : d.name ≠ b := fun h => hc d (by simp) h (by simpa using hv)
        simp [hv, hn]
      · simp [hv]

/-- What is kept of database `b`. -/
structure Keep (b : PyStr) (m m' : Mongo) : Prop where
  data : m'.data b = m.data b
  locks : m'.locks = m.locks
  options : OptKeep b m.options m'.options

theorem Keep.refl (b : PyStr) (m : Mongo) : Keep b m m := ⟨rfl, rfl, .refl _ _⟩

theorem Keep.trans {b : PyStr} {m m' m'' : Mongo} (h : Keep b m m') (h' : Keep b m' m'') : Keep b m m'' :=
  ⟨h'.data.trans h.data, h'.locks.trans h.locks, h.options.trans h'.options⟩

theorem keep_setData {a b : PyStr} (hab : a ≠ b) (m : Mongo) (c : Coll) : Keep b m (m.setData a c) :=
  ⟨by simp [Mongo.setData, hab.symm], rfl, .refl _ _⟩

theorem keep_commit {a b : PyStr} (hab : a ≠ b) (clock : Int) (m : Mongo) : Keep b m (commit a clock m).2 := by
  by_cases h : a ∈ m.locks
  · rw [commit_locked h]; exact .refl _ _
  · rw [commit_eq h]
    split
    · refine ⟨by simp [Mongo.setData, hab.symm], rfl, ?_⟩
      refine OptKeep.trans ?_ (OptKeep.commit b clock _)
      unfold withDefaults
      split
      · exact .refl _ _
      · exact .insert hab _ _
    · exact .refl _ _

theorem keep_updateNoCommit {a b : PyStr} (hab : a ≠ b) (o : ParsingOptions) (m : Mongo) :
    Keep b m (updateOptionsNoCommit a o m) := by
  unfold updateOptionsNoCommit
  have h1 : Keep b m (if hasUncommittedOptions m = true then rollbackOptions m else m) := by
    split
    · exact ⟨rfl, rfl, .rollback _ _⟩
    · exact .refl _ _
  dsimp only
  split
  · exact h1
  · exact h1.trans ⟨rfl, rfl, .insert hab _ _⟩

theorem keep_call (U : Unicode) {a b : PyStr} (hab : a ≠ b) (m : Mongo) (call : ApiCall) :
    Keep b m (call.run U a m).2 := by
  cases call with
  | ingest mf rs doCommit clock =>
    simp only [ApiCall.run]
    split
    · exact .refl _ _
    · rename_i c _
      have h1 := keep_setData hab m c
      split
      · exact h1.trans (keep_commit hab _ _)
      · exact h1
  | commit clock => exact keep_commit hab _ _
  | updateOptions o doCommit clock =>
    simp only [ApiCall.run, updateOptions]
    split
    · exact keep_updateNoCommit hab _ _
    · split
      · exact (keep_updateNoCommit hab _ _).trans (keep_commit hab _ _)
      · exact keep_updateNoCommit hab _ _
  | rollbackOptions => exact ⟨rfl, rfl, .rollback _ _⟩
  | rollbackRecords =>
    simp only [ApiCall.run]
    split
    · exact .refl _ _
    · exact keep_setData hab _ _

theorem keep_calls (U : Unicode) {b : PyStr} : ∀ (calls : List (PyStr × ApiCall)) (m : Mongo),
    (∀ dc ∈ calls, dc.1 ≠ b) → Keep b m (runCalls U m calls)
  | [], m, _ => .refl _ _
  | dc :: calls, m, h =>
    (keep_call U (h dc (by simp)) m dc.2).trans (keep_calls U calls _ (fun dc hd => h dc (by simp [hd])))

/-! ## Calls on a single database -/

/-- All options are of one database. -/
def OnlyOptions (db : PyStr) (os : List OptDoc) : Prop := ∀ d ∈ os, d.name = db

theorem only_commit {db : PyStr} (clock : Int) {m : Mongo} (h : OnlyOptions db m.options) :
    OnlyOptions db (commit db clock m).2.options := by
  by_cases hl : db ∈ m.locks
  · rw [commit_locked hl]; exact h
  · rw [commit_eq hl]
    split
    · intro d hd
      simp only [commitOptions, List.mem_map] at hd
      obtain ⟨d', hd', rfl⟩ := hd
      have : d'.name = db := by
        unfold withDefaults at hd'
        split at hd'
        · exact h d' hd'
        · rcases List.mem_append.1 hd' with hd' | hd'
          · exact h d' hd'
          · simp at hd'; rw [hd']
      split <;> exact this
    · exact h

theorem only_updateNoCommit {db : PyStr} (o : ParsingOptions) {m : Mongo} (h : OnlyOptions db m.options) :
    OnlyOptions db (updateOptionsNoCommit db o m).options := by
  unfold updateOptionsNoCommit
  have h1 : OnlyOptions db (if hasUncommittedOptions m = true then rollbackOptions m else m).options := by
    split
    · intro d hd
      simp only [rollbackOptions, List.mem_filter] at hd
      exact h d hd.1
    · exact h
  dsimp only
  split
  · exact h1
  · intro d hd
    simp only [insertOptions, List.mem_append, List.mem_singleton] at hd
    rcases hd with hd | hd
    · exact h1 d hd
    · rw [hd]

theorem only_call (U : Unicode) {db : PyStr} {m : Mongo} (h : OnlyOptions db m.options) (call : ApiCall) :
    OnlyOptions db (call.run U db m).2.options := by
  cases call with
  | ingest mf rs doCommit clock =>
    simp only [ApiCall.run]
    split
    · exact h
    · split
      · exact only_commit _ h
      · exact h
  | commit clock => exact only_commit _ h
  | updateOptions o doCommit clock =>
    simp only [ApiCall.run, updateOptions]
    split
    · exact only_updateNoCommit _ h
    · split
      · exact only_commit _ (only_updateNoCommit _ h)
      · exact only_updateNoCommit _ h
  | rollbackOptions =>
    intro d hd
    simp only [ApiCall.run, rollbackOptions, List.mem_filter] at hd
    exact h d hd.1
  | rollbackRecords =>
    simp only [ApiCall.run]
    split <;> exact h

theorem only_calls (U : Unicode) {db : PyStr} : ∀ (calls : List ApiCall) {m : Mongo}, OnlyOptions db m.options →
    OnlyOptions db (runCalls U m (calls.map (fun c => (db, c)))).options
  | [], _, h => h
  | c :: calls, m, h => only_calls U calls (m := (c.run U db m).2) (only_call U h c)

/-! ## Maximum -/

theorem max_append (a b : List Int) : (a.max?.toList ++ b.max?.toList).max? = (a ++ b).max? := by
  cases ha : a.max? with
  | none => rw [List.max?_eq_none_iff] at ha; subst ha; cases hb : b.max? <;> simp [hb]
  | some x =>
    cases hb : b.max? with
    | none => rw [List.max?_eq_none_iff] at hb; subst hb; simp [ha]
    | some y =>
      have h1 := List.max?_eq_some_iff.1 ha
      have h2 := List.max?_eq_some_iff.1 hb
      symm
      simp only [Option.toList_some, List.singleton_append]
      have : ([x, y] : List Int).max? = some (max x y) := rfl
      rw [this, List.max?_eq_some_iff]
      constructor
      · rcases Int.le_total x y with h | h
        · rw [Int.max_eq_right h]; exact List.mem_append_right _ h2.1
        · rw [Int.max_eq_left h]; exact List.mem_append_left _ h1.1
      · intro z hz
        rcases List.mem_append.1 hz with hz | hz
        · have := h1.2 z hz; omega
        · have := h2.2 z hz; omega

theorem max_spec {l : List Int} {p : Int → Prop} (h1 : ∀ v ∈ l, p v) (h2 : ∀ v, p v → ∃ w ∈ l, v ≤ w) :
    (∀ v, l.max? = some v ↔ (p v ∧ ∀ w, p w → w ≤ v)) ∧ (l.max? = none ↔ ∀ v, ¬ p v) := by
  constructor
  · intro v
    rw [List.max?_eq_some_iff]
    constructor
    · rintro ⟨h, hm⟩
      refine ⟨h1 v h, fun w hw => ?_⟩
      obtain ⟨u, hu, hle⟩ := h2 w hw
      have := hm u hu; omega
    · rintro ⟨h, hm⟩
      obtain ⟨u, hu, hle⟩ := h2 v h
      have := hm u (h1 u hu)
      have e : u = v := by omega
      subst e
      exact ⟨hu, fun w hw => hm w (h1 w hw)⟩
  · rw [List.max?_eq_none_iff]
    constructor
    · rintro rfl v hv
      obtain ⟨w, hw, _⟩ := h2 v hv; cases hw
    · intro h
      cases l with
      | nil => rfl
      | cons x l => exact absurd (h1 x (by simp)) (h x)

/-- In a record without uncommitted data the current version is the greatest. -/
theorem Rep.version_max {K : DataClass} {doc : MongoRecord} {h : Hist} (hr : Rep K (some doc) h) {v : Int} (hv : doc.version = some v) :
    v ∈ doc.getVersions ∧ ∀ w ∈ doc.getVersions, w ≤ v := by
  have hg := hr.getVersions
  have hm : ∀ w, w ∈ doc.getVersions ↔ w ∈ h.committed.map Prod.fst := by
    intro w
    have : doc.getVersions = doc.getVersions false := rfl
    rw [this, hg.2, List.mem_reverse]
  have hd := hr.desc
  obtain ⟨cs, p⟩ := h
  cases p with
  | some p =>
    have : DocRep K doc none p cs := hr
    rw [this.version] at hv; cases hv
  | none =>
    cases cs with
    | nil => exact hr.elim
    | cons vd cs =>
      obtain ⟨w, d⟩ := vd
      obtain ⟨h1, h2⟩ := (hr : DocRep K doc (some w) d cs ∧ ∀ v' ∈ cs.map Prod.fst, v' < w)
      rw [h1.version] at hv; cases hv
      refine ⟨(hm v).2 (by simp), fun w hw => ?_⟩
      rw [hm, List.map_cons, List.mem_cons] at hw
      rcases hw with rfl | hw
      · omega
      · have := h2 w hw; omega

end Splitgill
