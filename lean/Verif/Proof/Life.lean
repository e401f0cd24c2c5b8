import Verif.Proof.Sync4
import Verif.Proof.World5
import Verif.Proof.Reach
import Verif.Spec.Life
/-!
# Lemmas: databases written through the API
-/

namespace Splitgill

/-- `v` is at most the last version. -/
def Below (hi : Option Int) (v : Int) : Prop := ∃ h, hi = some h ∧ v ≤ h

theorem Below.lt {hi : Option Int} {v c : Int} (h : Below hi v) (hc : gtAfter hi c = true) : v < c := by
  obtain ⟨x, rfl, h⟩ := h
  simp only [gtAfter, decide_eq_true_eq] at hc; omega

theorem Below.not {hi : Option Int} {v : Int} (h : Below hi v) : gtAfter hi v = false := by
  obtain ⟨x, rfl, h⟩ := h
  simpa [gtAfter] using h

/-- A history starts with data. -/
def FirstOk (h : Hist) : Prop :=
  (∀ vd, h.committed.getLast? = some vd → vd.2 ≠ []) ∧ (h.committed = [] → h.pending ≠ some [])

theorem FirstOk.ingest {h : Hist} (hf : FirstOk h) (mf : Option PyStr) (d : Dict) : FirstOk (h.ingest mf d) := by
  obtain ⟨cs, p⟩ := h
  cases cs with
  | nil =>
    refine ⟨by simp [Hist.ingest], fun _ => ?_⟩
    cases d <;> simp [Hist.ingest]
  | cons c cs => exact ⟨hf.1, fun h => by simp [Hist.ingest] at h⟩

theorem FirstOk.commit {h : Hist} (hf : FirstOk h) (v : Int) : FirstOk (h.commit v) := by
  obtain ⟨cs, p⟩ := h
  cases p with
  | none => exact hf
  | some d =>
    refine ⟨?_, fun h => by simp [Hist.commit] at h⟩
    intro vd hvd
    cases cs with
    | nil =>
      simp [Hist.commit] at hvd
      subst hvd
      exact fun he => hf.2 rfl (by simpa using he)
    | cons c cs =>
      refine hf.1 vd ?_
      simpa [Hist.commit, List.getLast?_cons_cons] using hvd

theorem FirstOk.rollback {h : Hist} (hf : FirstOk h) : FirstOk h.rollback := ⟨hf.1, fun _ => by simp [Hist.rollback]⟩

theorem FirstOk.ingestAll (U : Unicode) (mf : Option PyStr) : ∀ (rs : List Record) (s : Store), (∀ id, FirstOk (s id)) →
    ∀ id, FirstOk (s.ingest U mf rs id)
  | [], _, h, id => h id
  | r :: rs, s, h, id => by
    refine FirstOk.ingestAll U mf rs _ (fun id => ?_) id
    dsimp only
    split
    · exact (h id).ingest _ _
    · exact h id

theorem firstOk_run {U : Unicode} {s s' : Store} {es : List Event} (hr : SpecRun U s es s') (h : ∀ id, FirstOk (s id)) :
    ∀ id, FirstOk (s' id) := by
  induction hr with
  | nil => exact h
  | @cons s s1 s2 e es h1 _ ih =>
    apply ih
    intro id
    cases e with
    | ingest mf rs => rw [h1 id]; exact FirstOk.ingestAll U mf rs s h id
    | commit v => rw [h1 id]; exact (h id).commit v
    | rollback => rw [h1 id]; exact (h id).rollback
    | ingestCrash mf rs k =>
      rcases h1 id with e | e <;> rw [e]
      · exact h id
      · exact FirstOk.ingestAll U mf rs s h id
    | commitCrash v done =>
      rw [h1 id]; split
      · exact (h id).commit v
      · exact h id
    | rollbackCrash k =>
      rcases h1 id with e | e <;> rw [e]
      · exact h id
      · exact (h id).rollback

/-- What is true of a database between calls; all versions are at most `hi`. -/
structure LifeInv (K : PyStr → DataClass) (db : PyStr) (m : Mongo) (s : Store) (hi : Option Int) : Prop where
  rep : RColl K (m.data db) s
  first : ∀ id, FirstOk (s id)
  vers : ∀ id, ∀ vd ∈ (s id).committed, Below hi vd.1
  locks : m.locks = [] ∨ m.locks = [db]
  only : OnlyOptions db m.options
  optVers : ∀ d ∈ m.options, ∀ v, d.version = some v → Below hi v

theorem LifeInv.mono {K : PyStr → DataClass} {db : PyStr} {m : Mongo} {s : Store} {hi hi' : Option Int} (h : LifeInv K db m s hi)
    (hle : ∀ v, Below hi v → Below hi' v) : LifeInv K db m s hi' :=
  ⟨h.rep, h.first, fun id vd hvd => hle _ (h.vers id vd hvd), h.locks, h.only, fun d hd v hv => hle _ (h.optVers d hd v hv)⟩

/-- The same if no call was interrupted. -/
structure CalmInv (K : PyStr → DataClass) (db : PyStr) (m : Mongo) (s : Store) (hi : Option Int) : Prop extends LifeInv K db m s hi where
  free : m.locks = []
  optSome : ∀ id, (s id).committed ≠ [] → ∃ d ∈ m.options, d.version ≠ none

variable {K : PyStr → DataClass}

/-- How it changes: committed versions stay and the new ones are above `hi`. -/
structure Evolves (hi : Option Int) (m m' : Mongo) (s s' : Store) : Prop where
  suffix : ∀ id, (s id).committed <:+ (s' id).committed
  new : ∀ id, ∀ vd ∈ (s' id).committed, vd ∈ (s id).committed ∨ gtAfter hi vd.1 = true
  options : ∀ v, Below hi v → m'.options.filter (fun d => decide (d.version = some v)) =
    m.options.filter (fun d => decide (d.version = some v))
  optNew : ∀ d ∈ m'.options, ∀ v, d.version = some v → Below hi v ∨ gtAfter hi v = true

theorem below_or (hi : Option Int) (v : Int) : Below hi v ∨ gtAfter hi v = true := by
  cases hi with
  | none => exact .inr rfl
  | some h =>
    by_cases hv : v ≤ h
    · exact .inl ⟨h, rfl, hv⟩
    · right; simp [gtAfter]; omega

theorem Evolves.refl (hi : Option Int) (m : Mongo) (s : Store) : Evolves hi m m s s :=
  ⟨fun _ => List.suffix_refl _, fun _ _ h => .inl h, fun _ _ => rfl, fun _ _ v _ => below_or hi v⟩

theorem Evolves.trans {hi hi' : Option Int} (hle : ∀ v, Below hi v → Below hi' v) {m m' m'' : Mongo} {s s' s'' : Store}
    (h : Evolves hi m m' s s') (h' : Evolves hi' m' m'' s' s'') : Evolves hi m m'' s s'' := by
  have hgt : ∀ v, gtAfter hi' v = true → gtAfter hi v = true := by
    intro v hv
    rcases below_or hi v with hb | hb
    · have := (hle v hb).not; rw [this] at hv; cases hv
    · exact hb
  refine ⟨fun id => (h.suffix id).trans (h'.suffix id), fun id vd hvd => ?_, fun v hv => ?_, fun _ _ v _ => below_or hi v⟩
  · rcases h'.new id vd hvd with h1 | h1
    · exact h.new id vd h1
    · exact .inr (hgt _ h1)
  · rw [h'.options v (hle v hv), h.options v hv]

/-! ## The parts of calls -/

theorem commitOptions_filter {c v : Int} (h : v ≠ c) (os : List OptDoc) :
    (commitOptions c os).filter (fun d => decide (d.version = some v)) = os.filter (fun d => decide (d.version = some v)) := by
  induction os with
  | nil => rfl
  | cons d os ih =>
    have hc : commitOptions c (d :: os) = (if d.version.isNone then { d with version := some c } else d) :: commitOptions c os := rfl
    rw [hc, List.filter_cons, List.filter_cons, ih]
    cases hv : d.version with
    | none =>
      have : ¬ some c = some v := by simpa using fun e => h e.symm
      simp [this]
    | some w => simp [hv]

theorem commitOptions_versions {c v : Int} {os : List OptDoc} {d : OptDoc} (hd : d ∈ commitOptions c os)
    (hv : d.version = some v) : v = c ∨ ∃ d' ∈ os, d'.version = some v := by
  rw [commitOptions, List.mem_map] at hd
  obtain ⟨d', hd', rfl⟩ := hd
  split at hv
  · left; simpa using hv.symm
  · exact .inr ⟨d', hd', hv⟩

/-- An event that changes only the data. -/
theorem LifeInv.event {U : Unicode} {db : PyStr} {m : Mongo} {s : Store} {hi : Option Int} (h : LifeInv K db m s hi)
    (e : Event) (hv : e.version = none) (hq : Fits K U e.stream) (hs : NoSpan 200 e.stream) :
    ∃ c s', Event.run U (m.data db) e = .ok c ∧ e.Spec U s s' ∧ LifeInv K db (m.setData db c) s' hi ∧ Evolves hi m (m.setData db c) s s' := by
  obtain ⟨c, s', h1, h2, h3⟩ := run_event (U := U) h.rep e (by intro v he; rw [hv] at he; cases he) hq hs
  have hr : SpecRun U s [e] s' := .cons h2 .nil
  have hnew : ∀ id, ∀ vd ∈ (s' id).committed, vd ∈ (s id).committed := by
    intro id vd hvd
    rcases hr.versions id vd hvd with h | h
    · exact h
    · simp [hv] at h
  have hsuf := hr.suffix
  refine ⟨c, s', h1, h2, ⟨?_, firstOk_run hr h.first, fun id vd hvd => h.vers id vd (hnew id vd hvd), h.locks, h.only,
    h.optVers⟩, ⟨hsuf, fun id vd hvd => .inl (hnew id vd hvd), fun _ _ => rfl, fun _ _ v _ => below_or hi v⟩⟩
  rw [setData_data]; exact h3

/-- A call returns `ret`, or it raises `AlreadyLocked`, and then the database is locked and `ret` is `None`. -/
def Returns (db : PyStr) (m : Mongo) (r : Except ApiErr (Option Int)) (ret : Option Int) : Prop :=
  r = .ok ret ∨ (r = .error .alreadyLocked ∧ ret = none ∧ m.locks = [db])

/-- A commit. -/
theorem LifeInv.commit (U : Unicode) {db : PyStr} {m : Mongo} {s : Store} {hi : Option Int} (h : LifeInv K db m s hi)
    {c : Int} (hc : gtAfter hi c = true) :
    ∃ ret, Returns db m (Splitgill.commit db c m).1 ret ∧
      LifeInv K db (Splitgill.commit db c m).2 (ApiCall.effect U ret s (.commit c)) (some c) ∧
      Evolves hi m (Splitgill.commit db c m).2 s (ApiCall.effect U ret s (.commit c)) ∧
      (ret ≠ none → ∃ d ∈ (Splitgill.commit db c m).2.options, d.version ≠ none) := by
  have hle : ∀ v, Below hi v → Below (some c) v := fun v hb => ⟨c, rfl, Int.le_of_lt (hb.lt hc)⟩
  have honly := only_commit c h.only
  have hlocks := commit_locks (db := db) (clock := c) (m := m)
  rcases h.locks with hfree | hlocked
  swap
  · have he : Splitgill.commit db c m = (.error .alreadyLocked, m) := by simp [Splitgill.commit, withLock, acquire, hlocked]
    rw [he]
    exact ⟨none, .inr ⟨rfl, rfl, hlocked⟩, h.mono hle, Evolves.refl _ _ _, fun h => absurd rfl h⟩
  have hnl : db ∉ m.locks := by rw [hfree]; simp
  by_cases hp : (hasUncommittedData (m.data db) || hasUncommittedOptions m) = true
  · have hcommit : ∀ id, (s id).commit c = s id ∨ ∃ d, (s id).pending = some d ∧ (s id).commit c = ⟨(c, d) :: (s id).committed, none⟩ := by
      intro id
      cases hpd : (s id).pending with
      | none => left; simp [Hist.commit, hpd]
      | some d => right; exact ⟨d, rfl, by simp [Hist.commit, hpd]⟩
    rw [commit_eq hnl, if_pos hp] at honly ⊢
    dsimp only at honly ⊢
    have heff : ApiCall.effect U (some c) s (.commit c) = fun id => (s id).commit c := rfl
    refine ⟨some c, .inl rfl, ?_⟩
    rw [heff]
    refine ⟨⟨?_, fun id => (h.first id).commit c, ?_, h.locks, honly, ?_⟩, ⟨?_, ?_, ?_, fun _ _ v _ => below_or hi v⟩, fun _ => ?_⟩
    · dsimp only
      rw [setData_data]
      exact commitColl_spec h.rep (fun id vd hvd => (h.vers id vd hvd).lt hc)
    · intro id vd hvd
      rcases hcommit id with e | ⟨d, _, e⟩ <;> rw [e] at hvd
      · exact hle _ (h.vers id vd hvd)
      · rcases List.mem_cons.1 hvd with rfl | hvd
        · exact ⟨c, rfl, Int.le_refl _⟩
        · exact hle _ (h.vers id vd hvd)
    · intro d hd v hv
      rcases commitOptions_versions hd hv with rfl | ⟨d', hd', hv'⟩
      · exact ⟨v, rfl, Int.le_refl _⟩
      · refine hle _ (h.optVers d' ?_ v hv')
        unfold withDefaults at hd'
        split at hd'
        · exact hd'
        · rcases List.mem_append.1 hd' with hd' | hd'
          · exact hd'
          · rw [List.mem_singleton] at hd'; subst hd'; cases hv'
    · intro id
      rcases hcommit id with e | ⟨d, _, e⟩ <;> rw [e]
      · exact List.suffix_refl _
      · exact List.suffix_cons _ _
    · intro id vd hvd
      rcases hcommit id with e | ⟨d, _, e⟩ <;> rw [e] at hvd
      · exact .inl hvd
      · rcases List.mem_cons.1 hvd with rfl | hvd
        · exact .inr hc
        · exact .inl hvd
    · intro v hv
      dsimp only
      rw [commitOptions_filter (by have := hv.lt hc; omega)]
      unfold withDefaults
      split
      · rfl
      · simp
    · skip
      have hne : withDefaults db m ≠ [] := by
        unfold withDefaults
        split
        · rename_i ho
          intro he
          simp [hasOptions, hasUncommittedOptions, he] at ho
        · simp
      obtain ⟨d, hd⟩ := List.exists_mem_of_ne_nil (commitOptions c (withDefaults db m)) (by simpa [commitOptions] using hne)
      exact ⟨d, hd, commitOptions_clean _ _ d hd⟩
  · have he : Splitgill.commit db c m = (.ok none, m) := by rw [commit_eq hnl, if_neg hp]
    rw [he]
    exact ⟨none, .inl rfl, h.mono hle, Evolves.refl _ _ _, fun h => absurd rfl h⟩

theorem rollbackOptions_filter (m : Mongo) (v : Int) :
    (rollbackOptions m).options.filter (fun d => decide (d.version = some v)) = m.options.filter (fun d => decide (d.version = some v)) := by
  simp only [rollbackOptions, List.filter_filter]
  apply List.filter_congr
  intro d _
  cases hv : d.version <;> simp

/-- A change of uncommitted options only. -/
theorem LifeInv.options {db : PyStr} {m m' : Mongo} {s : Store} {hi : Option Int} (h : LifeInv K db m s hi)
    (hd : m'.data = m.data) (hl : m'.locks = m.locks) (ho : OnlyOptions db m'.options)
    (hv : ∀ v, m'.options.filter (fun d => decide (d.version = some v)) = m.options.filter (fun d => decide (d.version = some v))) :
    LifeInv K db m' s hi ∧ Evolves hi m m' s s := by
  have hmem : ∀ d v, d.version = some v → (d ∈ m'.options ↔ d ∈ m.options) := by
    intro d v hdv
    constructor
    · intro hd
      have : d ∈ m'.options.filter (fun d => decide (d.version = some v)) := List.mem_filter.2 ⟨hd, by simpa using hdv⟩
      rw [hv v] at this
      exact (List.mem_filter.1 this).1
    · intro hd
      have : d ∈ m.options.filter (fun d => decide (d.version = some v)) := List.mem_filter.2 ⟨hd, by simpa using hdv⟩
      rw [← hv v] at this
      exact (List.mem_filter.1 this).1
  refine ⟨⟨by rw [hd]; exact h.rep, h.first, h.vers, by rw [hl]; exact h.locks, ho, ?_⟩,
    ⟨fun _ => List.suffix_refl _, fun _ _ h => .inl h, fun v _ => hv v, fun _ _ v _ => below_or hi v⟩⟩
  intro d hd v hdv
  exact h.optVers d ((hmem d v hdv).1 hd) v hdv

theorem LifeInv.updateNoCommit {db : PyStr} {m : Mongo} {s : Store} {hi : Option Int} (h : LifeInv K db m s hi)
    (o : ParsingOptions) : LifeInv K db (updateOptionsNoCommit db o m) s hi ∧ Evolves hi m (updateOptionsNoCommit db o m) s s := by
  refine h.options ?_ ?_ (only_updateNoCommit o h.only) ?_
  · unfold updateOptionsNoCommit
    split <;> (dsimp only; split <;> rfl)
  · unfold updateOptionsNoCommit
    split <;> (dsimp only; split <;> rfl)
  · intro v
    have h1 : (if hasUncommittedOptions m = true then rollbackOptions m else m).options.filter (fun d => decide (d.version = some v)) =
        m.options.filter (fun d => decide (d.version = some v)) := by
      split
      · exact rollbackOptions_filter m v
      · rfl
    unfold updateOptionsNoCommit
    dsimp only
    by_cases hs : sameAsLatest (latestOptions db m) o = true
    · rw [if_pos hs]; exact h1
    · rw [if_neg hs]
      simp only [insertOptions, List.filter_append]
      rw [h1]; simp

/-- A call. -/
theorem LifeInv.call {U : Unicode} {db : PyStr} {m : Mongo} {s : Store} {hi : Option Int} (h : LifeInv K db m s hi)
    (call : ApiCall) (hc : ∀ c, call.clock? = some c → gtAfter hi c = true) (hq : Fits K U call.stream) (hs : NoSpan 200 call.stream) :
    ∃ ret, Returns db m (call.run U db m).1 ret ∧ LifeInv K db (call.run U db m).2 (call.effect U ret s) (call.clock?.or hi) ∧
      Evolves hi m (call.run U db m).2 s (call.effect U ret s) ∧
      (ret ≠ none → ∃ d ∈ (call.run U db m).2.options, d.version ≠ none) := by
  have hself : ∀ v, Below hi v → Below hi v := fun _ h => h
  have hno : ∀ {P : Prop}, (none : Option Int) ≠ none → P := fun h => absurd rfl h
  cases call with
  | ingest mf rs doCommit clock =>
    obtain ⟨c, s1, h1, h1', h2, h3⟩ := h.event (U := U) (.ingest mf rs) rfl hq hs
    have h1 : ingest U mf (m.data db) rs = .ok c := h1
    have e1 : s1 = s.ingest U mf rs := funext h1'
    subst e1
    cases doCommit with
    | false =>
      refine ⟨none, ?_⟩
      simp only [ApiCall.run, h1, ApiCall.clock?, Bool.false_eq_true, if_false, Option.none_or]
      exact ⟨.inl rfl, h2, h3, hno⟩
    | true =>
      obtain ⟨ret, h6, h4, h5, h7⟩ := h2.commit U (hc clock rfl)
      refine ⟨ret, ?_⟩
      simp only [ApiCall.run, h1, ApiCall.clock?, if_true, Option.some_or]
      exact ⟨h6, h4, h3.trans hself h5, h7⟩
  | commit clock => exact h.commit U (hc clock rfl)
  | updateOptions o doCommit clock =>
    obtain ⟨h1, h2⟩ := h.updateNoCommit o
    simp only [ApiCall.run, updateOptions]
    by_cases hsame : sameAsLatest (latestOptions db m) o = true
    · rw [if_pos hsame]
      refine ⟨none, .inl rfl, ?_, h2, hno⟩
      cases doCommit with
      | false => exact h1
      | true => exact h1.mono (fun v hb => ⟨clock, rfl, Int.le_of_lt (hb.lt (hc clock rfl))⟩)
    · rw [if_neg hsame]
      cases doCommit with
      | false => exact ⟨none, .inl rfl, h1, h2, hno⟩
      | true =>
        obtain ⟨ret, h6, h4, h5, h7⟩ := h1.commit U (hc clock rfl)
        refine ⟨ret, ?_, h4, h2.trans hself h5, h7⟩
        rcases h6 with h6 | ⟨h6, h8, h9⟩
        · exact .inl h6
        · refine .inr ⟨h6, h8, ?_⟩
          have : (updateOptionsNoCommit db o m).locks = m.locks := by
            unfold updateOptionsNoCommit
            split <;> (dsimp only; split <;> rfl)
          rw [← this]; exact h9
  | rollbackOptions =>
    obtain ⟨h1, h2⟩ := h.options (m' := rollbackOptions m) rfl rfl (fun d hd => h.only d (List.mem_filter.1 hd).1) (rollbackOptions_filter m)
    exact ⟨none, .inl rfl, h1, h2, hno⟩
  | rollbackRecords =>
    obtain ⟨c, s1, h1, h1', h2, h3⟩ := h.event (U := U) .rollback rfl (by intro r hr; cases hr) hs
    have h1 : rollbackRecords (m.data db) = .ok c := h1
    have e1 : s1 = fun id => (s id).rollback := funext h1'
    subst e1
    refine ⟨none, ?_⟩
    simp only [ApiCall.run, h1]
    exact ⟨.inl rfl, h2, h3, hno⟩

theorem call_locks (U : Unicode) (db : PyStr) (m : Mongo) (call : ApiCall) : (call.run U db m).2.locks = m.locks := by
  have hu : ∀ o, (updateOptionsNoCommit db o m).locks = m.locks := by
    intro o
    unfold updateOptionsNoCommit
    split <;> (dsimp only; split <;> rfl)
  cases call with
  | ingest mf rs doCommit clock =>
    simp only [ApiCall.run]
    split
    · rfl
    · split
      · rw [commit_locks]; rfl
      · rfl
  | commit clock => exact commit_locks
  | updateOptions o doCommit clock =>
    simp only [ApiCall.run, updateOptions]
    split
    · exact hu o
    · split
      · rw [commit_locks]; exact hu o
      · exact hu o
  | rollbackOptions => rfl
  | rollbackRecords =>
    simp only [ApiCall.run]
    split <;> rfl

theorem ingest_committed (U : Unicode) (mf : Option PyStr) : ∀ (rs : List Record) (s : Store) (id : PyStr),
    (s.ingest U mf rs id).committed = (s id).committed
  | [], _, _ => rfl
  | r :: rs, s, id => by
    have : s.ingest U mf (r :: rs) = Store.ingest U mf rs (fun id => if id = r.id then (s id).ingest mf (prepareRecordData U r) else s id) := rfl
    rw [this, ingest_committed U mf rs]
    split
    · unfold Hist.ingest; split <;> rfl
    · rfl

theorem effect_committed (U : Unicode) (s : Store) (call : ApiCall) (id : PyStr) :
    (call.effect U none s id).committed = (s id).committed := by
  cases call <;> first | rfl | exact ingest_committed U _ _ s id

/-- A call, if no call was interrupted before. -/
theorem CalmInv.call {U : Unicode} {db : PyStr} {m : Mongo} {s : Store} {hi : Option Int} (h : CalmInv K db m s hi)
    (call : ApiCall) (hc : ∀ c, call.clock? = some c → gtAfter hi c = true) (hq : Fits K U call.stream) (hs : NoSpan 200 call.stream) :
    ∃ ret, (call.run U db m).1 = .ok ret ∧ CalmInv K db (call.run U db m).2 (call.effect U ret s) (call.clock?.or hi) ∧
      Evolves hi m (call.run U db m).2 s (call.effect U ret s) := by
  obtain ⟨ret, h1, h2, h3, h4⟩ := h.toLifeInv.call call hc hq hs
  refine ⟨ret, ?_, ⟨h2, by rw [call_locks]; exact h.free, fun id hne => ?_⟩, h3⟩
  · rcases h1 with h1 | ⟨_, _, h1⟩
    · exact h1
    · rw [h.free] at h1; cases h1
  · cases ret with
    | some v => exact h4 (by simp)
    | none =>
      rw [effect_committed] at hne
      obtain ⟨d, hd, hdv⟩ := h.optSome id hne
      obtain ⟨v, hv⟩ := Option.ne_none_iff_exists'.1 hdv
      have hm : d ∈ m.options.filter (fun d => decide (d.version = some v)) := List.mem_filter.2 ⟨hd, by simpa using hv⟩
      rw [← h3.options v (h.optVers d hd v hv)] at hm
      exact ⟨d, (List.mem_filter.1 hm).1, hdv⟩

/-- The last clock value. -/
def lastClock (hi : Option Int) (calls : List ApiCall) : Option Int := calls.foldl (fun hi c => c.clock?.or hi) hi

theorem CalmInv.calls {U : Unicode} {db : PyStr} : ∀ (calls : List ApiCall) {m : Mongo} {s : Store} {hi : Option Int},
    CalmInv K db m s hi → (∀ c ∈ calls.filterMap ApiCall.clock?, gtAfter hi c = true) →
    (∀ c ∈ calls, Fits K U c.stream) → Orderly calls →
    CalmInv K db (runCalls U m (calls.map (fun c => (db, c)))) (ingestedFrom U db m s calls) (lastClock hi calls) ∧
      Evolves hi m (runCalls U m (calls.map (fun c => (db, c)))) s (ingestedFrom U db m s calls)
  | [], m, s, hi, h, _, _, _ => ⟨h, Evolves.refl _ _ _⟩
  | call :: calls, m, s, hi, h, hc, hq, ho => by
    have hcl : ∀ c, call.clock? = some c → gtAfter hi c = true := fun c he => hc c (by simp [List.filterMap_cons, he])
    obtain ⟨ret, hret, h1, h2⟩ := h.call (U := U) call hcl (hq call (by simp)) (ho.noSpan call (by simp))
    have ho' : Orderly calls := by
      refine ⟨?_, fun c h => ho.noSpan c (by simp [h])⟩
      have := ho.clock
      rw [List.filterMap_cons] at this
      cases hk : call.clock? with
      | none => rwa [hk] at this
      | some v => rw [hk] at this; exact (List.pairwise_cons.1 this).2
    have hgt : ∀ c ∈ calls.filterMap ApiCall.clock?, gtAfter (call.clock?.or hi) c = true := by
      intro c hcm
      cases hk : call.clock? with
      | none => exact hc c (by simp [List.filterMap_cons, hk, hcm])
      | some v =>
        have := ho.clock
        rw [List.filterMap_cons, hk] at this
        have := (List.pairwise_cons.1 this).1 c hcm
        simp [gtAfter, this]
    obtain ⟨h3, h4⟩ := CalmInv.calls calls h1 hgt (fun c h => hq c (by simp [h])) ho'
    have e : ingestedFrom U db m s (call :: calls) = ingestedFrom U db (call.run U db m).2 (call.effect U ret s) calls := by
      rw [ingestedFrom]
      have : call.run U db m = (.ok ret, (call.run U db m).2) := Prod.ext hret rfl
      rw [this]
    rw [e]
    refine ⟨h3, h2.trans ?_ h4⟩
    intro v hb
    cases hk : call.clock? with
    | none => exact hb
    | some c => exact ⟨c, rfl, Int.le_of_lt (hb.lt (hcl c hk))⟩

theorem LifeInv.empty (db : PyStr) : LifeInv K db Mongo.empty Store.empty none :=
  ⟨RColl.empty, fun _ => ⟨by simp [Store.empty], fun _ => by simp [Store.empty]⟩, by simp [Store.empty], .inl rfl,
    (by intro d hd; cases hd), (by intro d hd; cases hd)⟩

theorem CalmInv.empty (db : PyStr) : CalmInv K db Mongo.empty Store.empty none :=
  ⟨LifeInv.empty db, rfl, fun id h => absurd rfl h⟩

end Splitgill

namespace Splitgill

/-! ## From there to `DbOk` and `Later` -/

variable {K : PyStr → DataClass}

theorem RColl.hist {c : Coll} {s : Store} (h : RColl K c s) (id : PyStr) : VersEq (K id) (histOf c id) (s id).committed := by
  obtain ⟨items, h1, h2⟩ := Rep.history h id
  simp only [histOf, h1]
  have := h2.committed
  rwa [committedOf_states] at this

theorem LifeInv.hist {db : PyStr} {m : Mongo} {s : Store} {hi : Option Int} (h : LifeInv K db m s hi) (id : PyStr) :
    VersEq (K id) (histOf (m.data db) id) (s id).committed := RColl.hist h.rep id

theorem VersEq.getLast {K : DataClass} {a b : List (Int × Dict)} (h : VersEq K a b) {x : Int × Dict} (hx : a.getLast? = some x) :
    ∃ y, b.getLast? = some y ∧ x.1 = y.1 ∧ DEq K x.2 y.2 := by
  induction h with
  | nil => cases hx
  | @cons p q as bs h hr ih =>
    cases hr with
    | nil => simp at hx ⊢; subst hx; exact h
    | cons h' hr' =>
      rw [List.getLast?_cons_cons] at hx ⊢
      exact ih hx

theorem committedOptionsOf_mem {db : PyStr} {m : Mongo} {v : Int} {o : ParsingOptions} :
    (v, o) ∈ committedOptionsOf db m ↔ (some v, o) ∈ getOptions db false m := by
  simp only [committedOptionsOf, List.mem_filterMap]
  constructor
  · rintro ⟨⟨k, o'⟩, h1, h2⟩
    cases k with
    | none => cases h2
    | some w => simp only [Option.map_some, Option.some.injEq, Prod.mk.injEq] at h2; rw [← h2.1, ← h2.2]; exact h1
  · intro h; exact ⟨_, h, rfl⟩

theorem foldl_aset_nodup {α : Type} (f : OptDoc → α) : ∀ (l : List OptDoc) (acc : List (Option Int × α)), (akeys acc).Nodup →
    (akeys (l.foldl (fun acc d => aset d.version (f d) acc) acc)).Nodup
  | [], _, h => h
  | d :: l, acc, h => foldl_aset_nodup f l _ (nodup_aset h)

theorem getOptions_nodup (db : PyStr) (m : Mongo) : (akeys (getOptions db false m)).Nodup :=
  foldl_aset_nodup _ _ [] (by simp [akeys])

theorem committedOptionsOf_nodup (db : PyStr) (m : Mongo) : ((committedOptionsOf db m).map Prod.fst).Nodup := by
  have h := getOptions_nodup db m
  unfold committedOptionsOf
  generalize getOptions db false m = l at h
  induction l with
  | nil => simp
  | cons x l ih =>
    obtain ⟨k, o⟩ := x
    simp only [akeys, List.map_cons, List.nodup_cons] at h
    cases k with
    | none => simpa using ih h.2
    | some v =>
      simp only [List.filterMap_cons, Option.map_some, List.map_cons, List.nodup_cons]
      refine ⟨?_, ih h.2⟩
      intro hm
      apply h.1
      obtain ⟨⟨w, o'⟩, h1, h2⟩ := List.mem_map.1 hm
      obtain ⟨⟨k', o''⟩, h3, h4⟩ := List.mem_filterMap.1 h1
      cases k' with
      | none => cases h4
      | some w' =>
        simp only [Option.map_some, Option.some.injEq, Prod.mk.injEq] at h4
        simp only at h2
        refine List.mem_map.2 ⟨_, h3, ?_⟩
        simp only [h4.1, h2]

theorem RColl.dbOk {db : PyStr} {m : Mongo} {s : Store} (h : RColl K (m.data db) s) (hfirst : ∀ id, FirstOk (s id))
    (ho : ValidOptions (committedOptionsOf db m)) : DbOk db m := by
  refine ⟨h.nodup, fun r hr => ?_, fun id => ?_, fun id v d hd => ?_, ho⟩
  · have hf := findRecord_of_mem (c := m.data db) h.nodup hr
    obtain ⟨items, h1, h2⟩ := Rep.history h r.id
    simp only [history, hf] at h1
    refine ⟨items, h1, fun v hv => ?_⟩
    have hrep := h.rep r.id
    rw [hf] at hrep
    generalize s r.id = hs at hrep h2
    obtain ⟨cs, p⟩ := hs
    cases p with
    | some p => have := DocRep.version hrep; rw [hv] at this; cases this
    | none =>
      cases cs with
      | nil => exact hrep.elim
      | cons c cs =>
        obtain ⟨w, d⟩ := c
        have hver := DocRep.version hrep.1
        rw [hv] at hver; cases hver
        have key : ∀ (items : List VersionedData) (l : List (Int × Dict)),
            StatesEq (K r.id) items (l.map (fun vd => (some vd.1, vd.2))) → items = (committedOf items).map (fun vd => (some vd.1, vd.2)) := by
          intro items l hl
          induction l generalizing items with
          | nil => cases hl; rfl
          | cons a l ih =>
            cases hl with
            | @cons x _ xs _ hx hxs =>
              obtain ⟨k, e⟩ := x
              have hk : k = some a.1 := hx.1
              subst hk
              have := ih _ hxs
              simp only [committedOf, List.filterMap_cons, Option.map_some, List.map_cons]
              congr 1
        have h2' : StatesEq (K r.id) items (((v, d) :: cs).map (fun vd => (some vd.1, vd.2))) := by
          simpa [Hist.states] using h2
        refine ⟨key items _ h2', ?_⟩
        cases h2' with
        | @cons x _ xs _ hx hxs =>
          obtain ⟨k, e⟩ := x
          have hk : k = some v := hx.1
          subst hk
          exact ⟨e, rfl⟩
  · rw [(h.hist id).fst]
    exact (h.rep id).desc
  · obtain ⟨y, hy, _, hd2⟩ := (h.hist id).getLast hd
    have := (hfirst id).1 y hy
    exact fun he => this (hd2.nil_iff.1 he)

theorem LifeInv.dbOk {db : PyStr} {m : Mongo} {s : Store} {hi : Option Int} (h : LifeInv K db m s hi)
    (ho : ∃ d ∈ m.options, d.version ≠ none) : DbOk db m := by
  refine RColl.dbOk h.rep h.first ⟨?_, committedOptionsOf_nodup db m⟩
  · obtain ⟨d, hd, hv⟩ := ho
    obtain ⟨v, hv'⟩ := Option.ne_none_iff_exists'.1 hv
    have := (getOptions_keys (db := db) (m := m) (some v)).2 ⟨rfl, d, hd, h.only d hd, hv'⟩
    obtain ⟨⟨k, o⟩, h1, h2⟩ := List.mem_map.1 this
    simp only at h2; subst h2
    exact List.ne_nil_of_mem (committedOptionsOf_mem.2 h1)

theorem getOptions_aget {db : PyStr} {m : Mongo} (v : Int) : aget (some v) (getOptions db false m) =
    ((m.options.filter (fun d => decide (d.version = some v))).filter (fun d => decide (d.name = db))).getLast?.map
      (fun d => ParsingOptions.fromDoc d.options) := by
  rw [getOptions, foldl_aset_aget]
  have : ∀ l : List OptDoc, (l.filter (fun d => decide (d.name = db) && (false || d.version.isSome))).reverse.find? (fun d => decide (d.version = some v)) =
      ((l.filter (fun d => decide (d.version = some v))).filter (fun d => decide (d.name = db))).getLast? := by
    intro l
    rw [← List.head?_filter, List.filter_reverse, List.head?_reverse, List.filter_filter, List.filter_filter]
    congr 1
    apply List.filter_congr
    intro d _
    cases hv : d.version <;> simp [Bool.and_comm]
  rw [this]
  cases ((m.options.filter (fun d => decide (d.version = some v))).filter (fun d => decide (d.name = db))).getLast? <;> rfl

/-- The parser gives the same for data that is equal in this sense. -/
def Parser.RespectsFor {P : Type} (X : Parser P) (K : PyStr → DataClass) : Prop :=
  ∀ id a b o, DEq (K id) a b → X.parse a o = X.parse b o

theorem Parser.Respects.plain {P : Type} {X : Parser P} (h : X.Respects) : X.RespectsFor (fun _ => plainClass) :=
  fun _ a b o hab => h a b o hab.sim

theorem Evolves.laterFor {P : Type} {X : Parser P} {id : PyStr} (hX : ∀ a b o, DEq (K id) a b → X.parse a o = X.parse b o) {db : PyStr}
    {m m' : Mongo} {s s' : Store} {t : Int}
    {hi : Option Int} (he : Evolves (some t) m m' s s') (h : LifeInv K db m s (some t)) (h' : LifeInv K db m' s' hi) :
    LaterFor X db id t m m' := by
  constructor
  · have h1 := h.hist id
    have h2 := h'.hist id
    -- the old versions in the new history
    have hf : (s' id).committed.filter (fun vd => decide (vd.1 ≤ t)) = (s id).committed := by
      obtain ⟨new, hn⟩ := he.suffix id
      have hdesc := (h'.rep.rep id).desc
      rw [← hn] at hdesc ⊢
      rw [List.filter_append, List.filter_eq_nil_iff.2, List.nil_append, List.filter_eq_self.2]
      · intro vd hvd
        obtain ⟨x, hx, hle⟩ := h.vers id vd hvd
        cases hx; simpa using hle
      · intro vd hvd
        rw [List.map_append, List.pairwise_append] at hdesc
        rcases he.new id vd (by rw [← hn]; exact List.mem_append_left _ hvd) with hold | hgt
        · have := hdesc.2.2 vd.1 (List.mem_map_of_mem hvd) vd.1 (List.mem_map_of_mem hold)
          omega
        · simpa [gtAfter] using hgt
    have h3 : VersEq (K id) ((histOf (m'.data db) id).filter (fun vd => decide (vd.1 ≤ t)))
        ((s' id).committed.filter (fun vd => decide (vd.1 ≤ t))) := by
      generalize histOf (m'.data db) id = a at h2
      generalize (s' id).committed = b at h2
      clear hf
      induction h2 with
      | nil => exact .nil
      | @cons x y as bs hxy _ ih =>
        rw [List.filter_cons, List.filter_cons, hxy.1]
        split
        · exact .cons hxy ih
        · exact ih
    rw [hf] at h3
    exact (h1.trans h3.symm).imp (fun a b hab => ⟨hab.1, fun o => hX _ _ o hab.2, hab.2.nil_iff⟩)
  · intro v o
    rw [committedOptionsOf_mem, committedOptionsOf_mem, ← aget_iff_mem (getOptions_nodup db m), ← aget_iff_mem (getOptions_nodup db m')]
    constructor
    · intro ha
      have hk : some v ∈ akeys (getOptions db false m) := by
        by_contra hn; rw [aget_eq_none_iff.2 hn] at ha; cases ha
      obtain ⟨_, d, hd, _, hv⟩ := (getOptions_keys (db := db) (m := m) (some v)).1 hk
      have hb := h.optVers d hd v hv
      refine ⟨?_, ?_⟩
      · rw [getOptions_aget] at ha ⊢
        rw [he.options v hb]; exact ha
      · obtain ⟨x, hx, hle⟩ := hb; cases hx; exact hle
    · rintro ⟨ha, hle⟩
      rw [getOptions_aget] at ha ⊢
      rw [he.options v ⟨t, rfl, hle⟩] at ha; exact ha

theorem Evolves.later {P : Type} {X : Parser P} (hX : X.RespectsFor K) {db : PyStr} {m m' : Mongo} {s s' : Store} {t : Int}
    {hi : Option Int} (he : Evolves (some t) m m' s s') (h : LifeInv K db m s (some t)) (h' : LifeInv K db m' s' hi) :
    Later X db t m m' :=
  ⟨fun id => (he.laterFor (hX id) h h').hist, (he.laterFor (hX []) h h').opts⟩

/-- After calls in order. -/
theorem life {U : Unicode} {db : PyStr} {calls : List ApiCall} (hq : ∀ c ∈ calls, Fits K U c.stream) (h : Orderly calls) :
    CalmInv K db (afterCalls U db calls) (ingested U db calls) (lastClock none calls) :=
  (CalmInv.calls (U := U) calls (CalmInv.empty db) (fun _ _ => rfl) hq h).1

theorem lastClock_append (hi : Option Int) (a b : List ApiCall) : lastClock hi (a ++ b) = lastClock (lastClock hi a) b :=
  List.foldl_append ..

theorem lastClock_eq : ∀ (calls : List ApiCall) (hi : Option Int),
    lastClock hi calls = (calls.filterMap ApiCall.clock?).getLast?.or hi
  | [], hi => rfl
  | c :: calls, hi => by
    have h : lastClock hi (c :: calls) = lastClock (c.clock?.or hi) calls := rfl
    rw [h, lastClock_eq calls, List.filterMap_cons]
    cases hc : c.clock? with
    | none => rfl
    | some x =>
      rw [List.getLast?_cons]
      cases (calls.filterMap ApiCall.clock?).getLast? <;> simp

theorem lastClock_mem : ∀ (calls : List ApiCall) (hi : Option Int) (t : Int), lastClock hi calls = some t →
    hi = some t ∨ t ∈ calls.filterMap ApiCall.clock?
  | [], hi, t, h => .inl h
  | c :: calls, hi, t, h => by
    have h : lastClock (c.clock?.or hi) calls = some t := h
    rcases lastClock_mem calls _ t h with h1 | h1
    · cases hc : c.clock? with
      | none => rw [hc] at h1; exact .inl h1
      | some x => rw [hc] at h1; cases h1; right; simp [List.filterMap_cons, hc]
    · right
      rw [List.filterMap_cons]
      split <;> simp [h1]

theorem Orderly.left {a b : List ApiCall} (h : Orderly (a ++ b)) : Orderly a :=
  ⟨by have := h.clock; rw [List.filterMap_append] at this; exact (List.pairwise_append.1 this).1,
   fun e he => h.noSpan e (List.mem_append_left _ he)⟩

theorem Orderly.right {a b : List ApiCall} (h : Orderly (a ++ b)) : Orderly b :=
  ⟨by have := h.clock; rw [List.filterMap_append] at this; exact (List.pairwise_append.1 this).2.1,
   fun e he => h.noSpan e (List.mem_append_right _ he)⟩

theorem afterCalls_append (U : Unicode) (db : PyStr) (a b : List ApiCall) :
    afterCalls U db (a ++ b) = runCalls U (afterCalls U db a) (b.map (fun c => (db, c))) := by
  simp only [afterCalls, runCalls, List.map_append, List.foldl_append]

theorem life_dbOk {U : Unicode} {db : PyStr} {calls : List ApiCall} (h : Orderly calls) {v : Int}
    (hv : IsVersion (afterCalls U db calls) db v) : DbOk db (afterCalls U db calls) := by
  have hs := life (K := fun _ => plainClass) (U := U) (db := db) (fun c _ => fits_plain U c.stream) h
  apply hs.toLifeInv.dbOk
  rcases hv with ⟨d, hd, hv⟩ | ⟨d, hd, _, hv⟩
  · apply hs.optSome d.id
    have hrep := hs.rep.rep d.id
    rw [findRecord_of_mem (c := (afterCalls U db calls).data db) hs.rep.nodup hd] at hrep
    have hg := hrep.getVersions.2
    intro he
    rw [he] at hg
    have : d.getVersions = d.getVersions false := rfl
    rw [this, hg] at hv
    cases hv
  · exact ⟨d, hd, by rw [hv]; simp⟩

theorem DbOk.isVersion {db : PyStr} {m : Mongo} (h : DbOk db m) : ∃ v, IsVersion m db v := by
  obtain ⟨⟨v, o⟩, hm⟩ := List.exists_mem_of_ne_nil _ h.options.nonempty
  have := committedOptionsOf_mem.1 hm
  obtain ⟨_, d, h1, h2, h3⟩ := (getOptions_keys (db := db) (m := m) (some v)).1 (List.mem_map_of_mem this)
  exact ⟨v, .inr ⟨d, h1, h2, h3⟩⟩

/-- The version between the commits before and after. -/
theorem life_evolves {U : Unicode} {db : PyStr} {a b : List ApiCall}
    (hq : ∀ c ∈ a ++ b, Fits K U c.stream) (h : Orderly (a ++ b)) {v : Int} (hv : IsVersion (afterCalls U db a) db v) :
    ∃ t, (a.filterMap ApiCall.clock?).getLast? = some t ∧ LifeInv K db (afterCalls U db a) (ingested U db a) (some t) ∧
      ∃ s' hi, LifeInv K db (afterCalls U db (a ++ b)) s' hi ∧
        Evolves (some t) (afterCalls U db a) (afterCalls U db (a ++ b)) (ingested U db a) s' := by
  have hs := life (K := K) (U := U) (db := db) (fun c hc => hq c (List.mem_append_left _ hc)) h.left
  have hb : Below (lastClock none a) v := by
    rcases hv with ⟨d, hd, hv⟩ | ⟨d, hd, _, hv⟩
    · have hrep := hs.rep.rep d.id
      rw [findRecord_of_mem (c := (afterCalls U db a).data db) hs.rep.nodup hd] at hrep
      have hg := hrep.getVersions.2
      have : d.getVersions = d.getVersions false := rfl
      rw [this, hg, List.mem_reverse] at hv
      obtain ⟨vd, h1, h2⟩ := List.mem_map.1 hv
      exact h2 ▸ hs.vers d.id vd h1
    · exact hs.optVers d hd v hv
  obtain ⟨t, ht, _⟩ := hb
  have htm : t ∈ a.filterMap ApiCall.clock? := by
    rcases lastClock_mem a none t ht with h | h
    · cases h
    · exact h
  have htl : (a.filterMap ApiCall.clock?).getLast? = some t := by rw [lastClock_eq, Option.or_none] at ht; exact ht
  have hlt : ∀ c ∈ b.filterMap ApiCall.clock?, t < c := by
    intro c hc
    have := h.clock
    rw [List.filterMap_append, List.pairwise_append] at this
    exact this.2.2 t htm c hc
  rw [ht] at hs
  obtain ⟨h1, h2⟩ := CalmInv.calls (U := U) b hs (fun c hc => by simpa [gtAfter] using hlt c hc)
    (fun c hc => hq c (List.mem_append_right _ hc)) h.right
  rw [← afterCalls_append] at h1 h2
  exact ⟨t, htl, hs.toLifeInv, _, _, h1.toLifeInv, h2⟩

theorem life_later {P : Type} {X : Parser P} (hX : X.RespectsFor K) {U : Unicode} {db : PyStr} {a b : List ApiCall}
    (hq : ∀ c ∈ a ++ b, Fits K U c.stream) (h : Orderly (a ++ b)) {v : Int} (hv : IsVersion (afterCalls U db a) db v) :
    ∃ t, (a.filterMap ApiCall.clock?).getLast? = some t ∧
      Later X db t (afterCalls U db a) (afterCalls U db (a ++ b)) := by
  obtain ⟨t, h1, h2, s', hi, h3, h4⟩ := life_evolves hq h hv
  exact ⟨t, h1, h4.later hX h2 h3⟩

theorem Later.isVersion {P : Type} {X : Parser P} {db : PyStr} {m m' : Mongo} {t : Int} (h : Later X db t m m')
    (hm : DbOk db m) : ∃ v, IsVersion m' db v := by
  obtain ⟨⟨v, o⟩, hmem⟩ := List.exists_mem_of_ne_nil _ hm.options.nonempty
  have := committedOptionsOf_mem.1 ((h.opts v o).1 hmem).1
  obtain ⟨_, d, h1, h2, h3⟩ := (getOptions_keys (db := db) (m := m') (some v)).1 (List.mem_map_of_mem this)
  exact ⟨v, .inr ⟨d, h1, h2, h3⟩⟩

theorem life_timeline {P : Type} {X : Parser P} (hX : X.RespectsFor K) {U : Unicode} {db : PyStr} {extra : Int → Mongo → Prop} :
    ∀ (parts : List (List ApiCall)) (first : List ApiCall), (∀ c ∈ first ++ parts.flatten, Fits K U c.stream) →
      Orderly (first ++ parts.flatten) →
      (∃ v, IsVersion (afterCalls U db first) db v) → EachPart extra U db first parts →
      Timeline X db extra (statesOf U db first parts)
  | [], first, _, ho, ⟨v, hv⟩, _ => by
    rw [List.flatten_nil, List.append_nil] at ho
    exact life_dbOk ho hv
  | part :: parts, first, hq, ho, ⟨v, hv⟩, he => by
    rw [List.flatten_cons, ← List.append_assoc] at ho hq
    have ok := life_dbOk ho.left.left hv
    obtain ⟨t, ht, hl⟩ := life_later hX (fun c hc => hq c (List.mem_append_left _ hc)) ho.left hv
    have ih := life_timeline hX parts (first ++ part) hq ho (hl.isVersion ok) he.2
    have : statesOf U db (first ++ part) parts = afterCalls U db (first ++ part) :: (statesOf U db (first ++ part) parts).tail := by
      cases parts <;> rfl
    rw [this] at ih
    rw [statesOf, this]
    exact ⟨ok, ⟨t, hl, he.1 t ht⟩, ih⟩

theorem statesOf_getLast (U : Unicode) (db : PyStr) : ∀ (parts : List (List ApiCall)) (first : List ApiCall),
    ∃ ms, statesOf U db first parts = ms ++ [afterCalls U db (first ++ parts.flatten)]
  | [], first => ⟨[], by simp [statesOf]⟩
  | part :: parts, first => by
    obtain ⟨ms, h⟩ := statesOf_getLast U db parts (first ++ part)
    refine ⟨afterCalls U db first :: ms, ?_⟩
    rw [statesOf, h, List.flatten_cons, List.append_assoc]; rfl

end Splitgill

namespace Splitgill

/-- Calls that do not commit. -/
theorem life_same {K : PyStr → DataClass} {P : Type} {X : Parser P} (hX : X.RespectsFor K) {U : Unicode} {db : PyStr} {a b : List ApiCall}
    (hq : ∀ c ∈ a ++ b, Fits K U c.stream) (h : Orderly (a ++ b)) (hb : ∀ c ∈ b, c.clock? = none) {v : Int}
    (hv : IsVersion (afterCalls U db a) db v) :
    SameCommitted X db (afterCalls U db a) (afterCalls U db (a ++ b)) := by
  obtain ⟨t, ht, hl⟩ := life_later hX hq h hv
  have hs := life (K := K) (U := U) (db := db) hq h
  have hlast : lastClock none (a ++ b) = some t := by
    rw [lastClock_eq, List.filterMap_append, List.filterMap_eq_nil_iff.2 hb, List.append_nil, ht]; rfl
  rw [hlast] at hs
  constructor
  · intro id
    have h1 := hl.hist id
    rwa [List.filter_eq_self.2] at h1
    intro vd hvd
    have hk : vd.1 ∈ (histOf ((afterCalls U db (a ++ b)).data db) id).map Prod.fst := List.mem_map_of_mem hvd
    rw [(hs.hist id).fst] at hk
    obtain ⟨vd', h2, h3⟩ := List.mem_map.1 hk
    obtain ⟨x, hx, hle⟩ := hs.vers id vd' h2
    cases hx
    rw [← h3]; simpa using hle
  · intro w o
    rw [hl.opts w o]
    refine ⟨fun h => h.1, fun hm => ⟨hm, ?_⟩⟩
    have := committedOptionsOf_mem.1 hm
    obtain ⟨_, d, hd, _, hdv⟩ := (getOptions_keys (db := db) (m := afterCalls U db (a ++ b)) (some w)).1 (List.mem_map_of_mem this)
    obtain ⟨x, hx, hle⟩ := hs.optVers d hd w hdv
    cases hx; exact hle

end Splitgill
