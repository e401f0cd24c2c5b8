import Verif.Spec.OptProcs
import Verif.Proof.OptHist
/-!
# Lemmas about processes that work on the options
-/

namespace Splitgill

theorem newest_of_same {db : PyStr} {m : Mongo} {o : ParsingOptions} (h : sameAsLatest (latestOptions db m) o = true) :
    NewestOptions db m o := by
  unfold latestOptions at h
  dsimp only at h
  cases hm : ((getOptions db false m).filterMap (·.1)).max? with
  | none => rw [hm] at h; cases h
  | some v =>
    rw [hm] at h
    dsimp only at h
    have hmax := List.max?_eq_some_iff.1 hm
    cases ha : aget (some v) (getOptions db false m) with
    | none => rw [ha] at h; cases h
    | some l =>
      rw [ha] at h
      refine ⟨v, l, aget_mem ha, fun w l' hw => hmax.2 w (List.mem_filterMap.2 ⟨_, hw, rfl⟩), h⟩

theorem same_of_newest {db : PyStr} {m : Mongo} {o : ParsingOptions} (h : NewestOptions db m o) :
    sameAsLatest (latestOptions db m) o = true := by
  obtain ⟨v, l, h1, h2, h3⟩ := h
  have hm : ((getOptions db false m).filterMap (·.1)).max? = some v := by
    refine List.max?_eq_some_iff.2 ⟨List.mem_filterMap.2 ⟨_, h1, rfl⟩, fun w hw => ?_⟩
    obtain ⟨⟨k, l'⟩, hx, rfl⟩ := List.mem_filterMap.1 hw
    exact h2 w l' hx
  have ha : aget (some v) (getOptions db false m) = some l := aget_of_mem (getOptions_nodup _ _) h1
  simp only [latestOptions, hm, ha, sameAsLatest, h3]

theorem newest_iff {db : PyStr} {m : Mongo} {o : ParsingOptions} : NewestOptions db m o ↔ sameAsLatest (latestOptions db m) o = true :=
  ⟨same_of_newest, newest_of_same⟩

theorem eqList_refl {α : Type} {eq : α → α → Bool} (h : ∀ a, eq a a = true) (l : List α) : setEq eq l l = true := by
  simp only [setEq, decide_true, Bool.true_and, List.all_eq_true]
  intro x hx
  exact setMem_eq.2 ⟨x, hx, h x⟩

theorem optionsEq_refl (o : ParsingOptions) : o.pyEq o = true := by
  simp [ParsingOptions.pyEq, eqList_refl (eq := strEq) (fun a => by simp [strEq]),
    eqList_refl (eq := GeoFieldHint.pyEq) (fun a => by simp [GeoFieldHint.pyEq])]

/-! ## One update and any number of commits -/

section
variable (docs : List OptDoc)

/-- `v` is later than the versions of the documents. -/
def LateFor (v : Int) : Prop := ∀ d ∈ docs, ∀ w, d.version = some w → w < v

/-- A commit on a database with options never goes to the default options. -/
def PlainPc : Pc → Prop
  | .pendingOptions => False
  | .getOptions => False
  | .upCheck _ => False
  | .upRollback _ => False
  | .upInsert _ => False
  | .data v => LateFor docs v
  | .options v => LateFor docs v
  | _ => True

theorem plain_step {db : PyStr} {clock : Int} {pick : Nat} {m : Mongo} {c : Pc} (hc : PlainPc docs c) (ho : hasOptions m = true)
    (hk : LateFor docs clock) :
    PlainPc docs (commitStep db clock pick m c).2 ∧
    ((commitStep db clock pick m c).1.options = m.options ∨
      ∃ v, LateFor docs v ∧ (commitStep db clock pick m c).1.options = commitNthOptions v pick m.options) ∧
    ((∃ x, (commitStep db clock pick m c).2 = .release x) → hasUncommittedOptions (commitStep db clock pick m c).1 = false) ∧
    ((∃ x, (commitStep db clock pick m c).2 = .done x) → (∃ x, c = .release x) ∨ ∃ x, c = .done x) := by
  cases c with
  | acquire =>
    by_cases hl : db ∈ m.locks
    · rw [commitStep_acquire_locked hl]; simp [PlainPc]
    · rw [commitStep_acquire_free hl]; simp [PlainPc]
  | checkData =>
    simp only [commitStep]
    cases hasUncommittedData (m.data db) <;> simp [PlainPc]
  | checkOptions =>
    simp only [commitStep]
    cases hu : hasUncommittedOptions m <;> simp [PlainPc]
  | hasOptions => simp [commitStep, ho, PlainPc]
  | pendingOptions => exact hc.elim
  | getOptions => exact hc.elim
  | upCheck l => exact hc.elim
  | upRollback l => exact hc.elim
  | upInsert l => exact hc.elim
  | clock => simp [commitStep, PlainPc, hk]
  | data v =>
    simp only [commitStep]
    split
    · exact ⟨hc, .inl rfl, by simp, by simp⟩
    · exact ⟨hc, .inl rfl, by simp, by simp⟩
  | options v =>
    simp only [commitStep]
    cases hu : hasUncommittedOptions m
    · simp [PlainPc, hu]
    · exact ⟨hc, .inr ⟨v, hc, rfl⟩, by simp, by simp⟩
  | release r => simp [commitStep, PlainPc, Splitgill.release]
  | raising => simp [commitStep, PlainPc, Splitgill.release]
  | done r => simp [commitStep, PlainPc]
  | locked => simp [commitStep, PlainPc]
  | failed => simp [commitStep, PlainPc]

theorem commitNth_committed {v : Int} : ∀ {k : Nat} {ds t : List OptDoc}, (∀ d ∈ ds, d.version ≠ none) →
    commitNthOptions v k (ds ++ t) = ds ++ commitNthOptions v k t
  | _, [], _, _ => rfl
  | k, d :: ds, t, h => by
    have hd : d.version.isNone = false := by
      have := h d (by simp)
      cases hv : d.version with
      | none => exact absurd hv this
      | some _ => rfl
    rw [List.cons_append, List.cons_append, commitNthOptions.eq_def]
    simp only [hd, Bool.false_eq_true, if_false]
    rw [commitNth_committed (fun d hd => h d (by simp [hd]))]

variable (db : PyStr) (o : ParsingOptions)

/-- What has been added to the documents. -/
def TailOk (t : List OptDoc) : Prop := t = [] ∨ ∃ ver, t = [⟨db, ver, o.toDoc⟩] ∧ ∀ v, ver = some v → LateFor docs v

theorem tailOk_commitNth {t : List OptDoc} {v : Int} {k : Nat} (h : TailOk docs db o t) (hv : LateFor docs v) :
    TailOk docs db o (commitNthOptions v k t) := by
  rcases h with rfl | ⟨ver, rfl, hl⟩
  · exact .inl rfl
  · right
    cases ver with
    | some w => exact ⟨some w, rfl, hl⟩
    | none =>
      cases k with
      | zero => exact ⟨some v, rfl, fun _ e => by cases e; exact hv⟩
      | succ k => exact ⟨none, rfl, hl⟩

/-- The tail still is there, and if it was committed it is. -/
def TailLe (t t' : List OptDoc) : Prop :=
  (t = [] → t' = []) ∧ (t ≠ [] → t' ≠ []) ∧ ((∀ d ∈ t, d.version ≠ none) → ∀ d ∈ t', d.version ≠ none)

theorem tailLe_refl (t : List OptDoc) : TailLe t t := ⟨id, id, id⟩

theorem tailLe_commitNth {v : Int} : ∀ (k : Nat) (t : List OptDoc), TailLe t (commitNthOptions v k t)
  | _, [] => tailLe_refl _
  | k, d :: t => by
    refine ⟨by simp, fun _ => ?_, fun h => ?_⟩
    · rw [commitNthOptions.eq_def]
      dsimp only
      split
      · cases k <;> simp
      · simp
    · have := commitNth_committed (v := v) (k := k) (t := []) h
      rw [List.append_nil] at this
      rw [this]
      simpa [commitNthOptions] using h

/-- Where the process of the update is, and what it has done. -/
def OwnOk (t : List OptDoc) : OptPc → Prop
  | .getOptions => t = []
  | .check l => t = [] ∧ ∀ m : Mongo, m.options = docs → l = latestOptions db m
  | .insert l => t = [] ∧ ∀ m : Mongo, m.options = docs → l = latestOptions db m
  | .commit c => PlainPc docs c ∧ t ≠ [] ∧ (((∃ x, c = .release x) ∨ ∃ x, c = .done x) → ∀ d ∈ t, d.version ≠ none)
  | .done => t = [] ∧ ∀ m : Mongo, m.options = docs → sameAsLatest (latestOptions db m) o = true
  | .failed => True
  | _ => False

/-- Where another process is. -/
def OtherOk : OptPc → Prop
  | .commit c => PlainPc docs c
  | .done => True
  | .failed => True
  | _ => False

structure AloneInv (p : Nat) (s : OptSys) : Prop where
  tail : ∃ t, s.mongo.options = docs ++ t ∧ TailOk docs db o t ∧
    ∀ x, s.procs p = some x → x.db = db ∧ x.call = .update o true ∧ OwnOk docs db o t x.pc
  others : ∀ q x, q ≠ p → s.procs q = some x → x.alive = true → OtherOk docs x.pc
  there : s.procs p ≠ none

variable {docs db o}

theorem OwnOk.later {t t' : List OptDoc} {pc : OptPc} (h : OwnOk docs db o t pc) (hl : TailLe t t') : OwnOk docs db o t' pc := by
  cases pc with
  | getOptions => exact hl.1 h
  | check l => exact ⟨hl.1 h.1, h.2⟩
  | insert l => exact ⟨hl.1 h.1, h.2⟩
  | rollback l => exact h
  | delete => exact h
  | commit c => exact ⟨h.1, hl.2.1 h.2.1, fun hc => hl.2.2 (h.2.2 hc)⟩
  | done => exact ⟨hl.1 h.1, h.2⟩
  | failed => trivial

theorem has_of_docs {m : Mongo} {t : List OptDoc} (hd : ∃ d ∈ docs, d.version ≠ none) (hm : m.options = docs ++ t) :
    hasOptions m = true := by
  obtain ⟨d, h1, h2⟩ := hd
  unfold hasOptions
  rw [hm, List.any_append, Bool.or_eq_true]
  left
  refine List.any_eq_true.2 ⟨d, h1, ?_⟩
  cases hv : d.version with
  | none => exact absurd hv h2
  | some _ => rfl

theorem plain_tail (hd : ∃ d ∈ docs, d.version ≠ none) (hc : ∀ d ∈ docs, d.version ≠ none)
    {db' : PyStr} {clock : Int} {pick : Nat} {m : Mongo} {c : Pc} {t : List OptDoc}
    (hm : m.options = docs ++ t) (ht : TailOk docs db o t) (hp : PlainPc docs c) (hk : LateFor docs clock) :
    PlainPc docs (commitStep db' clock pick m c).2 ∧ ∃ t', (commitStep db' clock pick m c).1.options = docs ++ t' ∧
      TailOk docs db o t' ∧ TailLe t t' ∧
      ((∃ x, (commitStep db' clock pick m c).2 = .release x) → ∀ d ∈ t', d.version ≠ none) ∧
      ((∃ x, (commitStep db' clock pick m c).2 = .done x) → (∃ x, c = .release x) ∨ ∃ x, c = .done x) := by
  obtain ⟨h1, h2, h3, h4⟩ := plain_step docs (db := db') (pick := pick) hp (has_of_docs hd hm) hk
  have key : ∀ t', (commitStep db' clock pick m c).1.options = docs ++ t' →
      (∃ x, (commitStep db' clock pick m c).2 = .release x) → ∀ d ∈ t', d.version ≠ none := by
    intro t' ho hx d hdt hv
    have := h3 hx
    unfold hasUncommittedOptions at this
    rw [ho, List.any_append, Bool.or_eq_false_iff, List.any_eq_false, List.any_eq_false] at this
    exact this.2 d hdt (by rw [hv]; rfl)
  refine ⟨h1, ?_⟩
  rcases h2 with h2 | ⟨v, hv, h2⟩
  · exact ⟨t, h2.trans hm, ht, tailLe_refl _, key t (h2.trans hm), h4⟩
  · have ho := h2
    rw [hm, commitNth_committed hc] at ho
    exact ⟨_, ho, tailOk_commitNth docs db o ht hv, tailLe_commitNth _ _, key _ ho, h4⟩

theorem raise_result {pc : OptPc} {r : Option Int} (h : pc.raise.result = some r) : pc.result = some r := by
  cases pc with
  | commit c =>
    cases c <;> simp_all [OptPc.raise, OptPc.result, Pc.inside, Pc.ended]
  | done => exact h
  | _ => simp [OptPc.raise, OptPc.result] at h

theorem OwnOk.raise {t : List OptDoc} {pc : OptPc} (h : OwnOk docs db o t pc) : OwnOk docs db o t pc.raise := by
  cases pc with
  | commit c =>
    simp only [OptPc.raise]
    split
    · exact ⟨trivial, h.2.1, fun hc => by rcases hc with ⟨_, hc⟩ | ⟨_, hc⟩ <;> cases hc⟩
    · split
      · exact h
      · exact ⟨trivial, h.2.1, fun hc => by rcases hc with ⟨_, hc⟩ | ⟨_, hc⟩ <;> cases hc⟩
  | done => exact h
  | _ => exact trivial

theorem OtherOk.raise {pc : OptPc} (h : OtherOk docs pc) : OtherOk docs pc.raise := by
  cases pc with
  | commit c =>
    simp only [OptPc.raise]
    split
    · exact trivial
    · split
      · exact h
      · exact trivial
  | done => exact h
  | _ => exact trivial

theorem OptSys.set_procs {s : OptSys} {p q : Nat} {x : OptProc} : (s.set p x).procs q = if q = p then some x else s.procs q := rfl
theorem OptSys.set_mongo {s : OptSys} {p : Nat} {x : OptProc} : (s.set p x).mongo = s.mongo := rfl

/-- Another process changes. -/
theorem AloneInv.other {p q : Nat} {s : OptSys} {m : Mongo} {x : OptProc} {t t' : List OptDoc} (h : AloneInv docs db o p s) (hq : q ≠ p)
    (hx : x.alive = true → OtherOk docs x.pc) (hm : s.mongo.options = docs ++ t) (ho : m.options = docs ++ t')
    (ht : TailOk docs db o t') (hl : TailLe t t') : AloneInv docs db o p (OptSys.set { s with mongo := m } q x) := by
  obtain ⟨t0, h1, h2, h3⟩ := h.tail
  have e : t0 = t := List.append_cancel_left (h1.symm.trans hm)
  subst e
  refine ⟨⟨t', ho, ht, fun y hy => ?_⟩, fun r y hr hy ha => ?_, ?_⟩
  · rw [OptSys.set_procs, if_neg (fun e => hq e.symm)] at hy
    obtain ⟨a, b, c⟩ := h3 y hy
    exact ⟨a, b, c.later hl⟩
  · rw [OptSys.set_procs] at hy
    split at hy
    · cases hy; exact hx ha
    · exact h.others r y hr hy ha
  · rw [OptSys.set_procs, if_neg (fun e => hq e.symm)]
    exact h.there

/-- The process of the update changes. -/
theorem AloneInv.own {p : Nat} {s : OptSys} {m : Mongo} {pc : OptPc} {b : Bool} {t' : List OptDoc} (h : AloneInv docs db o p s)
    (ho : m.options = docs ++ t') (ht : TailOk docs db o t') (hx : OwnOk docs db o t' pc) :
    AloneInv docs db o p (OptSys.set { s with mongo := m } p ⟨db, .update o true, pc, b⟩) := by
  refine ⟨⟨t', ho, ht, fun y hy => ?_⟩, fun r y hr hy ha => ?_, ?_⟩
  · rw [OptSys.set_procs, if_pos rfl] at hy
    cases hy
    exact ⟨rfl, rfl, hx⟩
  · rw [OptSys.set_procs, if_neg hr] at hy
    exact h.others r y hr hy ha
  · rw [OptSys.set_procs, if_pos rfl]
    simp

theorem own_step (hd : ∃ d ∈ docs, d.version ≠ none) (hc : ∀ d ∈ docs, d.version ≠ none) {clock : Int} {pick : Nat} {m : Mongo}
    {pc : OptPc} {t : List OptDoc} (hm : m.options = docs ++ t) (ht : TailOk docs db o t) (hp : OwnOk docs db o t pc)
    (hk : LateFor docs clock) :
    ∃ t', ((OptCall.update o true).step db clock pick m pc).1.options = docs ++ t' ∧ TailOk docs db o t' ∧
      OwnOk docs db o t' ((OptCall.update o true).step db clock pick m pc).2 := by
  have hun : t = [] → hasUncommittedOptions m = false := by
    rintro rfl
    rw [List.append_nil] at hm
    unfold hasUncommittedOptions
    rw [hm, List.any_eq_false]
    intro d hd' hv
    exact hc d hd' (by simpa using hv)
  cases pc with
  | getOptions =>
    have ht0 : t = [] := hp
    refine ⟨t, hm, ht, ht0, fun m' hm' => ?_⟩
    subst ht0
    rw [List.append_nil] at hm
    simp only [latestOptions, getOptions, hm, hm']
  | check l =>
    simp only [OptCall.step, updateStep, hun hp.1]
    exact ⟨t, hm, ht, hp⟩
  | rollback l => exact hp.elim
  | insert l =>
    obtain ⟨ht0, hl⟩ := hp
    subst ht0
    rw [List.append_nil] at hm
    simp only [OptCall.step, updateStep]
    cases hs : sameAsLatest l o
    · simp only [Bool.false_eq_true, if_false, if_true]
      refine ⟨[⟨db, none, o.toDoc⟩], by simp [insertOptions, hm], .inr ⟨none, rfl, fun v hv => by cases hv⟩, trivial, by simp,
        fun hx => by rcases hx with ⟨_, hx⟩ | ⟨_, hx⟩ <;> cases hx⟩
    · simp only [if_true]
      exact ⟨[], by simpa using hm, .inl rfl, rfl, fun m' hm' => by rw [← hl m' hm']; exact hs⟩
  | commit c =>
    obtain ⟨h1, t', h2, h3, h4, h5, h6⟩ := plain_tail hd hc (db' := db) (pick := pick) hm ht hp.1 hk
    refine ⟨t', h2, h3, h1, h4.2.1 hp.2.1, fun hx => ?_⟩
    rcases hx with hx | hx
    · exact h5 hx
    · exact h4.2.2 (hp.2.2 (h6 hx))
  | delete => exact hp.elim
  | done => exact ⟨t, hm, ht, hp⟩
  | failed => exact ⟨t, hm, ht, trivial⟩

theorem AloneInv.act {p : Nat} {s : OptSys} (hd : ∃ d ∈ docs, d.version ≠ none) (hc : ∀ d ∈ docs, d.version ≠ none)
    (h : AloneInv docs db o p s) (a : OptAct) (hk : ∀ q t pick, a = .step q t pick → LateFor docs t)
    (hs : ∀ q d call, a = .start q d call → call = .commit) : AloneInv docs db o p (s.act a) := by
  obtain ⟨t, h1, h2, h3⟩ := h.tail
  cases a with
  | start q d call =>
    simp only [OptSys.act]
    split
    · rename_i hq
      have hqp : q ≠ p := fun e => h.there (e ▸ hq)
      have := hs q d call rfl
      subst this
      exact h.other (m := s.mongo) hqp (fun _ => trivial) h1 h1 h2 (tailLe_refl _)
    · exact h
  | step q clock pick =>
    have hk := hk q clock pick rfl
    simp only [OptSys.act]
    split
    · rename_i d call pc hq
      by_cases hqp : q = p
      · subst hqp
        obtain ⟨e1, e2, e3⟩ := h3 _ hq
        simp only at e1 e2 e3
        subst e1 e2
        obtain ⟨t', g1, g2, g3⟩ := own_step hd hc (pick := pick) h1 h2 e3 hk
        exact h.own g1 g2 g3
      · have hx := h.others q _ hqp hq rfl
        simp only at hx
        cases pc with
        | commit c =>
          obtain ⟨g1, t', g2, g3, g4, _⟩ := plain_tail hd hc (db' := d) (pick := pick) h1 h2 hx hk
          exact h.other hqp (fun _ => g1) h1 g2 g3 g4
        | done =>
          have : call.step d clock pick s.mongo .done = (s.mongo, .done) := by cases call <;> rfl
          rw [this]
          exact h.other (m := s.mongo) hqp (fun _ => trivial) h1 h1 h2 (tailLe_refl _)
        | failed =>
          have : call.step d clock pick s.mongo .failed = (s.mongo, .failed) := by cases call <;> rfl
          rw [this]
          exact h.other (m := s.mongo) hqp (fun _ => trivial) h1 h1 h2 (tailLe_refl _)
        | getOptions => exact hx.elim
        | check l => exact hx.elim
        | rollback l => exact hx.elim
        | insert l => exact hx.elim
        | delete => exact hx.elim
    · exact h
  | raise q =>
    simp only [OptSys.act]
    split
    · rename_i d call pc hq
      by_cases hqp : q = p
      · subst hqp
        obtain ⟨e1, e2, e3⟩ := h3 _ hq
        simp only at e1 e2 e3
        subst e1 e2
        exact h.own (m := s.mongo) h1 h2 e3.raise
      · exact h.other (m := s.mongo) hqp (fun _ => (h.others q _ hqp hq rfl).raise) h1 h1 h2 (tailLe_refl _)
    · exact h
  | crash q =>
    simp only [OptSys.act]
    split
    · rename_i d call pc b hq
      by_cases hqp : q = p
      · subst hqp
        obtain ⟨e1, e2, e3⟩ := h3 _ hq
        simp only at e1 e2 e3
        subst e1 e2
        exact h.own (m := s.mongo) h1 h2 e3
      · exact h.other (m := s.mongo) hqp (fun e => by cases e) h1 h1 h2 (tailLe_refl _)
    · exact h
  | others data => exact ⟨⟨t, h1, h2, h3⟩, h.others, h.there⟩
  | adminRelease id => exact ⟨⟨t, h1, h2, h3⟩, h.others, h.there⟩

theorem AloneInv.run {p : Nat} (hd : ∃ d ∈ docs, d.version ≠ none) (hc : ∀ d ∈ docs, d.version ≠ none) : ∀ (acts : List OptAct)
    {s : OptSys}, AloneInv docs db o p s → (∀ q t pick, OptAct.step q t pick ∈ acts → LateFor docs t) → OnlyCommits acts →
    AloneInv docs db o p (s.run acts)
  | [], _, h, _, _ => h
  | a :: acts, s, h, hk, hs =>
    AloneInv.run hd hc acts (s := s.act a)
      (h.act hd hc a (fun q t pick e => hk q t pick (by simp [e])) (fun q d call e => hs q d call (by simp [e])))
      (fun q t pick hm => hk q t pick (by simp [hm])) (fun q d call hm => hs q d call (by simp [hm]))

theorem AloneInv.newest {p : Nat} {s : OptSys} (h : AloneInv docs db o p s) (ho : OptionsOk o) {r : Option Int} (hr : s.Returned p r)
    : NewestOptions db s.mongo o := by
  obtain ⟨t, h1, h2, h3⟩ := h.tail
  obtain ⟨x, hx, hr⟩ := hr
  obtain ⟨_, _, h4⟩ := h3 x hx
  apply newest_of_same
  cases hpc : x.pc with
  | commit c =>
    rw [hpc] at hr h4
    cases c <;> simp only [OptPc.result] at hr <;> try cases hr
    rcases h2 with rfl | ⟨ver, rfl, h2⟩
    · exact absurd rfl h4.2.1
    · have hv := h4.2.2 (.inr ⟨_, rfl⟩) _ (List.mem_singleton.2 rfl)
      simp only at hv
      cases ver with
      | none => exact absurd rfl hv
      | some v =>
        have e : committedOptions db s.mongo.options = committedOptions db docs ++ [⟨db, some v, o.toDoc⟩] := by
          rw [h1]; simp [committedOptions]
        rw [latestOptions_last e rfl]
        · simp only [sameAsLatest, fromDoc_toDoc ho, optionsEq_refl]
        · intro d hd w hw
          have := h2 v rfl d (List.mem_of_mem_filter hd) w hw
          omega
  | done =>
    rw [hpc] at h4
    exact h4.2 _ (by rw [h1, h4.1, List.append_nil])
  | _ => rw [hpc] at hr; cases hr

theorem AloneInv.locked {p : Nat} {s : OptSys} (h : AloneInv docs db o p s) (ho : OptionsOk o) {x : OptProc} (hx : s.procs p = some x)
    {c : Pc} (hpc : x.pc = .commit c) : (none, o) ∈ getOptions db true s.mongo ∨ NewestOptions db s.mongo o := by
  obtain ⟨t, h1, h2, h3⟩ := h.tail
  obtain ⟨_, _, h4⟩ := h3 x hx
  rw [hpc] at h4
  rcases h2 with rfl | ⟨ver, rfl, h2⟩
  · exact absurd rfl h4.2.1
  · cases ver with
    | none =>
      left
      have e : aget none (getOptions db true s.mongo) = some o := by
        unfold getOptions
        rw [foldl_aset_aget, h1, List.filter_append, List.reverse_append]
        simp [fromDoc_toDoc ho]
      exact aget_mem e
    | some v =>
      right
      apply newest_of_same
      have e : committedOptions db s.mongo.options = committedOptions db docs ++ [⟨db, some v, o.toDoc⟩] := by
        rw [h1]; simp [committedOptions]
      rw [latestOptions_last e rfl]
      · simp only [sameAsLatest, fromDoc_toDoc ho, optionsEq_refl]
      · intro d hd w hw
        have := h2 v rfl d (List.mem_of_mem_filter hd) w hw
        omega

end

/-! ## Any calls at the same time -/

/-- What an action does to the documents. -/
inductive OptChange (s : OptSys) (a : OptAct) (os' : List OptDoc) : Prop
  | same (h : os' = s.mongo.options)
  | insert (q : Nat) (x : OptProc) (o : ParsingOptions) (hq : s.procs q = some x) (ho : o = startOptions ∨ ∃ b, x.call = .update o b)
    (h : os' = s.mongo.options ++ [⟨x.db, none, o.toDoc⟩])
  | delete (h : os'.Sublist s.mongo.options) (hc : os'.filter (fun d => d.version.isSome) = s.mongo.options.filter (fun d => d.version.isSome))
  | commit (q : Nat) (x : OptProc) (w : Int) (k : Nat) (hq : s.procs q = some x) (hp : x.pc = .commit (.options w))
    (h : os' = commitNthOptions w k s.mongo.options)

theorem deleteNth_sublist : ∀ (k : Nat) (os : List OptDoc), (deleteNthOptions k os).Sublist os
  | _, [] => List.Sublist.refl _
  | k, d :: os => by
    rw [deleteNthOptions.eq_def]
    dsimp only
    split
    · cases k with
      | zero => exact List.sublist_cons_self _ _
      | succ k => exact (deleteNth_sublist k os).cons_cons d
    · exact (deleteNth_sublist k os).cons_cons d

theorem deleteNth_committed : ∀ (k : Nat) (os : List OptDoc),
    (deleteNthOptions k os).filter (fun d => d.version.isSome) = os.filter (fun d => d.version.isSome)
  | _, [] => rfl
  | k, d :: os => by
    rw [deleteNthOptions.eq_def]
    dsimp only
    split
    · rename_i hn
      have hs : d.version.isSome = false := by cases hv : d.version <;> simp_all
      cases k with
      | zero => simp [List.filter_cons, hs]
      | succ k => simp only [List.filter_cons, hs, deleteNth_committed k os]
    · simp only [List.filter_cons, deleteNth_committed k os]

theorem commitStep_change {db : PyStr} {clock : Int} {pick : Nat} {m : Mongo} (c : Pc) :
    (commitStep db clock pick m c).1.options = m.options ∨
    (commitStep db clock pick m c).1.options = m.options ++ [⟨db, none, startOptions.toDoc⟩] ∨
    (commitStep db clock pick m c).1.options = m.options.filter (fun d => d.version.isSome) ∨
    ∃ w, c = .options w ∧ (commitStep db clock pick m c).1.options = commitNthOptions w pick m.options := by
  cases c with
  | acquire =>
    by_cases hl : db ∈ m.locks
    · rw [commitStep_acquire_locked hl]; exact .inl rfl
    · rw [commitStep_acquire_free hl]; exact .inl rfl
  | upRollback l => exact .inr (.inr (.inl rfl))
  | upInsert l =>
    simp only [commitStep]
    split
    · exact .inl rfl
    · exact .inr (.inl rfl)
  | data v =>
    simp only [commitStep]
    split <;> exact .inl rfl
  | options v =>
    simp only [commitStep]
    split
    · exact .inr (.inr (.inr ⟨v, rfl, rfl⟩))
    · exact .inl rfl
  | _ => exact .inl rfl

theorem OptSys.act_change (s : OptSys) (a : OptAct) : OptChange s a (s.act a).mongo.options := by
  cases a with
  | start q d call => simp only [OptSys.act]; split <;> exact .same rfl
  | raise q => simp only [OptSys.act]; split <;> exact .same rfl
  | crash q => simp only [OptSys.act]; split <;> exact .same rfl
  | others data => exact .same rfl
  | adminRelease id => exact .same rfl
  | step q clock pick =>
    simp only [OptSys.act]
    split
    · rename_i db call pc hq
      rw [OptSys.set_mongo]
      dsimp only
      cases pc with
      | commit c =>
        simp only [OptCall.step]
        rcases commitStep_change (db := db) (clock := clock) (pick := pick) (m := s.mongo) c with h | h | h | ⟨w, rfl, h⟩
        · exact .same h
        · exact .insert q _ startOptions hq (.inl rfl) h
        · refine .delete (by rw [h]; exact List.filter_sublist) (by rw [h]; simp [List.filter_filter])
        · exact .commit q _ w pick hq rfl h
      | delete =>
        simp only [OptCall.step]
        split
        · exact .delete (deleteNth_sublist _ _) (deleteNth_committed _ _)
        · exact .same rfl
      | rollback l =>
        cases call with
        | update o b =>
          simp only [OptCall.step, updateStep]
          split
          · exact .delete (deleteNth_sublist _ _) (deleteNth_committed _ _)
          · exact .same rfl
        | _ => exact .same rfl
      | insert l =>
        cases call with
        | update o b =>
          simp only [OptCall.step, updateStep]
          split
          · exact .same rfl
          · exact .insert q _ o hq (.inr ⟨b, rfl⟩) rfl
        | _ => exact .same rfl
      | _ => cases call <;> exact .same rfl
    · exact .same rfl

/-- What is known from the actions: what processes were asked to do, and where their clock readings are from. -/
structure Sourced (acts : List OptAct) (s : OptSys) : Prop where
  proc : ∀ q x, s.procs q = some x → .start q x.db x.call ∈ acts
  clock : ∀ q x w, s.procs q = some x → (x.pc = .commit (.data w) ∨ x.pc = .commit (.options w) ∨
    x.pc = .commit (.release (some w)) ∨ x.pc = .commit (.done (some w))) → ∃ pick, .step q w pick ∈ acts

/-- Where documents are from. -/
structure SourcedDocs (acts : List OptAct) (s : OptSys) : Prop where
  doc : ∀ d ∈ s.mongo.options, d.options = startOptions.toDoc ∨ ∃ q o b, .start q d.name (.update o b) ∈ acts ∧ d.options = o.toDoc
  version : ∀ d ∈ s.mongo.options, ∀ v, d.version = some v → ∃ q pick, .step q v pick ∈ acts

theorem mem_commitNth {v : Int} : ∀ {k : Nat} {os : List OptDoc} {d : OptDoc}, d ∈ commitNthOptions v k os →
    d ∈ os ∨ ∃ d' ∈ os, d = { d' with version := some v }
  | _, [], _, h => by simp [commitNthOptions] at h
  | k, e :: os, d, h => by
    rw [commitNthOptions.eq_def] at h
    dsimp only at h
    have go : ∀ {k}, d ∈ e :: commitNthOptions v k os → d ∈ e :: os ∨ ∃ d' ∈ e :: os, d = { d' with version := some v } := by
      intro k h
      rcases List.mem_cons.1 h with h | h
      · exact .inl (by simp [h])
      · rcases mem_commitNth h with h | ⟨d', h1, h2⟩
        · exact .inl (by simp [h])
        · exact .inr ⟨d', by simp [h1], h2⟩
    split at h
    · cases k with
      | zero =>
        rcases List.mem_cons.1 h with h | h
        · exact .inr ⟨e, by simp, h⟩
        · exact .inl (by simp [h])
      | succ k => exact go h
    · exact go h

theorem OptSys.act_procs {s : OptSys} {a : OptAct} {q : Nat} {x' : OptProc} (h : (s.act a).procs q = some x') :
    (∃ x, s.procs q = some x ∧ x'.db = x.db ∧ x'.call = x.call ∧
      (x'.pc = x.pc ∨ x'.pc = x.pc.raise ∨ ∃ clock pick, a = .step q clock pick ∧ x'.pc = (x.call.step x.db clock pick s.mongo x.pc).2)) ∨
    (a = .start q x'.db x'.call ∧ x'.pc = x'.call.start) := by
  cases a with
  | start r d call =>
    simp only [OptSys.act] at h
    split at h
    · rw [OptSys.set_procs] at h
      split at h
      · rename_i e; subst e
        cases h
        exact .inr ⟨rfl, rfl⟩
      · exact .inl ⟨_, h, rfl, rfl, .inl rfl⟩
    · exact .inl ⟨_, h, rfl, rfl, .inl rfl⟩
  | raise r =>
    left
    simp only [OptSys.act] at h
    split at h
    · rename_i hr
      rw [OptSys.set_procs] at h
      split at h
      · rename_i e; subst e
        cases h
        exact ⟨_, hr, rfl, rfl, .inr (.inl rfl)⟩
      · exact ⟨_, h, rfl, rfl, .inl rfl⟩
    · exact ⟨_, h, rfl, rfl, .inl rfl⟩
  | crash r =>
    left
    simp only [OptSys.act] at h
    split at h
    · rename_i hr
      rw [OptSys.set_procs] at h
      split at h
      · rename_i e; subst e
        cases h
        exact ⟨_, hr, rfl, rfl, .inl rfl⟩
      · exact ⟨_, h, rfl, rfl, .inl rfl⟩
    · exact ⟨_, h, rfl, rfl, .inl rfl⟩
  | step r clock pick =>
    left
    simp only [OptSys.act] at h
    split at h
    · rename_i hr
      rw [OptSys.set_procs] at h
      split at h
      · rename_i e; subst e
        cases h
        exact ⟨_, hr, rfl, rfl, .inr (.inr ⟨clock, pick, rfl, rfl⟩)⟩
      · exact ⟨_, h, rfl, rfl, .inl rfl⟩
    · exact ⟨_, h, rfl, rfl, .inl rfl⟩
  | others data => exact .inl ⟨_, h, rfl, rfl, .inl rfl⟩
  | adminRelease id => exact .inl ⟨_, h, rfl, rfl, .inl rfl⟩

/-- The process has read the clock, and it showed `w`. -/
def OptPc.Time (w : Int) (pc : OptPc) : Prop :=
  pc = .commit (.data w) ∨ pc = .commit (.options w) ∨ pc = .commit (.release (some w)) ∨ pc = .commit (.done (some w))

theorem OptPc.time_start {w : Int} {call : OptCall} (h : OptPc.Time w call.start) : False := by
  cases call <;> rcases h with h | h | h | h <;> cases h

theorem OptPc.time_raise {w : Int} {pc : OptPc} (h : OptPc.Time w pc.raise) : OptPc.Time w pc := by
  cases pc with
  | commit c => cases c <;> first | exact h | (rcases h with h | h | h | h <;> cases h)
  | _ => rcases h with h | h | h | h <;> cases h

theorem OptPc.time_step {w : Int} {db : PyStr} {clock : Int} {pick : Nat} {m : Mongo} {call : OptCall} {pc : OptPc}
    (h : OptPc.Time w (call.step db clock pick m pc).2) : OptPc.Time w pc ∨ w = clock := by
  cases pc with
  | commit c =>
    simp only [OptCall.step] at h
    cases c with
    | acquire =>
      by_cases hl : db ∈ m.locks
      · rw [commitStep_acquire_locked hl] at h; rcases h with h | h | h | h <;> cases h
      · rw [commitStep_acquire_free hl] at h; rcases h with h | h | h | h <;> cases h
    | clock =>
      right
      rcases h with h | h | h | h <;> cases h
      rfl
    | data v =>
      simp only [commitStep] at h
      left
      split at h <;> rcases h with h | h | h | h <;> cases h <;> exact .inl rfl
    | options v =>
      simp only [commitStep] at h
      left
      split at h <;> rcases h with h | h | h | h <;> cases h <;> exact .inr (.inl rfl)
    | release r =>
      left
      rcases h with h | h | h | h <;> cases h
      exact .inr (.inr (.inl rfl))
    | done r =>
      left
      exact h
    | checkData => simp only [commitStep] at h; split at h <;> rcases h with h | h | h | h <;> cases h
    | checkOptions => simp only [commitStep] at h; split at h <;> rcases h with h | h | h | h <;> cases h
    | hasOptions => simp only [commitStep] at h; split at h <;> rcases h with h | h | h | h <;> cases h
    | pendingOptions => simp only [commitStep] at h; split at h <;> rcases h with h | h | h | h <;> cases h
    | upCheck l => simp only [commitStep] at h; split at h <;> rcases h with h | h | h | h <;> cases h
    | _ => rcases h with h | h | h | h <;> cases h
  | delete =>
    simp only [OptCall.step] at h
    split at h <;> rcases h with h | h | h | h <;> cases h
  | _ =>
    cases call with
    | update o b =>
      simp only [OptCall.step, updateStep] at h
      repeat' split at h
      all_goals (rcases h with h | h | h | h <;> first | cases h | (split at h <;> cases h))
    | _ => exact .inl h

theorem SourcedDocs.act {acts : List OptAct} {s : OptSys} (h' : Sourced acts s) (h : SourcedDocs acts s) (a : OptAct) :
    SourcedDocs acts (s.act a) := by
  suffices (∀ d ∈ (s.act a).mongo.options, d.options = startOptions.toDoc ∨ ∃ q o b, .start q d.name (.update o b) ∈ acts ∧ d.options = o.toDoc) ∧
      ∀ d ∈ (s.act a).mongo.options, ∀ v, d.version = some v → ∃ q pick, .step q v pick ∈ acts from ⟨this.1, this.2⟩
  cases s.act_change a with
  | same e => rw [e]; exact ⟨h.doc, h.version⟩
  | insert q x o hq ho e =>
    rw [e]
    refine ⟨fun d hd => ?_, fun d hd v hv => ?_⟩
    · rcases List.mem_append.1 hd with hd | hd
      · exact h.doc d hd
      · cases List.mem_singleton.1 hd
        rcases ho with rfl | ⟨b, hb⟩
        · exact .inl rfl
        · exact .inr ⟨q, o, b, hb ▸ h'.proc q x hq, rfl⟩
    · rcases List.mem_append.1 hd with hd | hd
      · exact h.version d hd v hv
      · cases List.mem_singleton.1 hd
        cases hv
  | delete e _ => exact ⟨fun d hd => h.doc d (e.subset hd), fun d hd => h.version d (e.subset hd)⟩
  | commit q x w k hq hp e =>
    rw [e]
    refine ⟨fun d hd => ?_, fun d hd v hv => ?_⟩
    · rcases mem_commitNth hd with hd | ⟨d', hd', rfl⟩
      · exact h.doc d hd
      · exact h.doc d' hd'
    · rcases mem_commitNth hd with hd | ⟨d', hd, rfl⟩
      · exact h.version d hd v hv
      · cases hv
        obtain ⟨pick, hpk⟩ := h'.clock q x w hq (.inr (.inl hp))
        exact ⟨q, pick, hpk⟩

theorem Sourced.act {acts : List OptAct} {s : OptSys} (h : Sourced acts s) {a : OptAct} (ha : a ∈ acts) : Sourced acts (s.act a) := by
  refine ⟨?_, ?_⟩
  · intro q x' hq
    rcases OptSys.act_procs hq with ⟨x, hx, h1, h2, _⟩ | ⟨rfl, _⟩
    · rw [h1, h2]; exact h.proc q x hx
    · exact ha
  · intro q x' w hq hw
    have hw : OptPc.Time w x'.pc := hw
    rcases OptSys.act_procs hq with ⟨x, hx, h1, h2, h3⟩ | ⟨rfl, h1⟩
    · rcases h3 with h3 | h3 | ⟨clock, pick, rfl, h3⟩
      · exact h.clock q x w hx (h3 ▸ hw)
      · exact h.clock q x w hx (OptPc.time_raise (h3 ▸ hw))
      · rcases OptPc.time_step (h3 ▸ hw) with hw | rfl
        · exact h.clock q x w hx hw
        · exact ⟨pick, ha⟩
    · rw [h1] at hw
      exact hw.elim (fun e => (OptPc.time_start (.inl e)).elim) (fun e => (OptPc.time_start (.inr e)).elim)

theorem Sourced.run {all : List OptAct} : ∀ (acts : List OptAct) {s : OptSys}, Sourced all s → (∀ a ∈ acts, a ∈ all) →
    Sourced all (s.run acts)
  | [], _, h, _ => h
  | a :: acts, s, h, ha => Sourced.run acts (s := s.act a) (h.act (ha a (by simp))) (fun b hb => ha b (by simp [hb]))

/-- Committed documents stay. -/
theorem OptSys.act_keeps {s : OptSys} (a : OptAct) {d : OptDoc} (hd : d ∈ s.mongo.options) (hv : d.version ≠ none) :
    d ∈ (s.act a).mongo.options := by
  cases s.act_change a with
  | same e => rw [e]; exact hd
  | insert q x o hq ho e => rw [e]; exact List.mem_append.2 (.inl hd)
  | delete _ e =>
    have h1 : d ∈ s.mongo.options.filter (fun d => d.version.isSome) := by
      refine List.mem_filter.2 ⟨hd, ?_⟩
      cases h : d.version with
      | none => exact absurd h hv
      | some _ => rfl
    rw [← e] at h1
    exact List.mem_of_mem_filter h1
  | commit q x w k hq hp e =>
    rw [e]
    clear e hq hp
    revert hd
    generalize s.mongo.options = os
    induction os generalizing k with
    | nil => exact fun h => nomatch h
    | cons e os ih =>
      intro hd
      rw [commitNthOptions.eq_def]
      dsimp only
      rcases List.mem_cons.1 hd with rfl | hd
      · rw [if_neg (by cases h : d.version <;> simp_all)]
        simp
      · split
        · cases k with
          | zero => simp [hd]
          | succ k => simp [ih k hd]
        · simp [ih k hd]

theorem OptSys.run_keeps : ∀ (acts : List OptAct) {s : OptSys} {d : OptDoc}, d ∈ s.mongo.options → d.version ≠ none →
    d ∈ (s.run acts).mongo.options
  | [], _, _, h, _ => h
  | a :: acts, s, _, h, hv => OptSys.run_keeps acts (s := s.act a) (s.act_keeps a h hv) hv

/-- The documents with the version. -/
def optionsAt (v : Int) (os : List OptDoc) : List OptDoc := os.filter (fun d => decide (d.version = some v))

theorem getOptions_at {db : PyStr} {m m' : Mongo} {v : Int} (h : optionsAt v m.options = optionsAt v m'.options) :
    aget (some v) (getOptions db false m) = aget (some v) (getOptions db false m') := by
  have key : ∀ os : List OptDoc, (committedOptions db os).reverse.find? (fun d => decide (d.version = some v)) =
      ((optionsAt v os).filter (fun d => decide (d.name = db))).reverse.head? := by
    intro os
    rw [← List.head?_filter, List.filter_reverse, committedOptions, optionsAt, List.filter_filter, List.filter_filter]
    congr 2
    apply List.filter_congr
    intro d _
    by_cases hv : d.version = some v <;> simp [hv]
  rw [getOptions_eq, getOptions_eq, foldl_aset_aget, foldl_aset_aget, key, key, h]

theorem optionsAt_commitNth {v w : Int} (hw : w ≠ v) : ∀ (k : Nat) (os : List OptDoc),
    optionsAt v (commitNthOptions w k os) = optionsAt v os
  | _, [] => rfl
  | k, d :: os => by
    rw [commitNthOptions.eq_def]
    dsimp only
    split
    · rename_i hn
      have hs : d.version ≠ some v := by rintro e; rw [e] at hn; cases hn
      cases k with
      | zero => simp [optionsAt, hs, hw]
      | succ k =>
        have := optionsAt_commitNth hw k os
        simp only [optionsAt] at this
        simp [optionsAt, hs, this]
    · have := optionsAt_commitNth hw k os
      simp only [optionsAt] at this
      simp only [optionsAt, List.filter_cons, this]

theorem OptSys.act_at {s : OptSys} (a : OptAct) {v : Int} (hn : ∀ q x, s.procs q = some x → x.pc ≠ .commit (.options v)) :
    optionsAt v (s.act a).mongo.options = optionsAt v s.mongo.options := by
  cases s.act_change a with
  | same e => rw [e]
  | insert q x o hq ho e => rw [e]; simp [optionsAt]
  | delete _ e =>
    have hf : ∀ os : List OptDoc, optionsAt v os = optionsAt v (os.filter (fun d => d.version.isSome)) := by
      intro os
      unfold optionsAt
      rw [List.filter_filter]
      apply List.filter_congr
      intro d _
      by_cases hv : d.version = some v <;> simp [hv]
    rw [hf, e, ← hf]
  | commit q x w k hq hp e =>
    rw [e, optionsAt_commitNth]
    rintro rfl
    exact hn q x hq hp

/-- A process that has returned from its commit stays there. -/
theorem OptSys.act_done {s : OptSys} (a : OptAct) {p : Nat} {x : OptProc} {r : Option Int} (hp : s.procs p = some x)
    (hx : x.pc = .commit (.done r)) : ∃ x', (s.act a).procs p = some x' ∧ x'.pc = .commit (.done r) := by
  have hs : ∃ x', (s.act a).procs p = some x' := by
    cases a with
    | start q d call =>
      simp only [OptSys.act]; split
      · rw [OptSys.set_procs]; split
        · exact ⟨_, rfl⟩
        · exact ⟨x, hp⟩
      · exact ⟨x, hp⟩
    | step q clock pick =>
      simp only [OptSys.act]; split
      · rw [OptSys.set_procs]; split
        · exact ⟨_, rfl⟩
        · exact ⟨x, hp⟩
      · exact ⟨x, hp⟩
    | raise q =>
      simp only [OptSys.act]; split
      · rw [OptSys.set_procs]; split
        · exact ⟨_, rfl⟩
        · exact ⟨x, hp⟩
      · exact ⟨x, hp⟩
    | crash q =>
      simp only [OptSys.act]; split
      · rw [OptSys.set_procs]; split
        · exact ⟨_, rfl⟩
        · exact ⟨x, hp⟩
      · exact ⟨x, hp⟩
    | others data => exact ⟨x, hp⟩
    | adminRelease id => exact ⟨x, hp⟩
  obtain ⟨x', hx'⟩ := hs
  refine ⟨x', hx', ?_⟩
  rcases OptSys.act_procs hx' with ⟨y, hy, _, _, h3⟩ | ⟨rfl, _⟩
  · rw [hp] at hy; cases hy
    rw [hx] at h3
    rcases h3 with h3 | h3 | ⟨clock, pick, rfl, h3⟩
    · exact h3
    · rw [h3]; rfl
    · rw [h3]; simp only [OptCall.step, commitStep]
  · simp only [OptSys.act, hp] at hx'
    cases hx'
    exact hx

theorem final_run {all : List OptAct} {v : Int} {p : Nat} (hv : ∀ q pick, OptAct.step q v pick ∈ all → q = p) :
    ∀ (acts : List OptAct) {s : OptSys}, Sourced all s → (∀ a ∈ acts, a ∈ all) →
    (∃ x, s.procs p = some x ∧ x.pc = .commit (.done (some v))) →
    optionsAt v (s.run acts).mongo.options = optionsAt v s.mongo.options
  | [], _, _, _, _ => rfl
  | a :: acts, s, h, ha, ⟨x, h1, h2⟩ => by
    have := final_run hv acts (s := s.act a) (h.act (ha a (by simp))) (fun b hb => ha b (by simp [hb])) (s.act_done a h1 h2)
    refine this.trans (s.act_at a ?_)
    intro q y hq hy
    obtain ⟨pick, hpk⟩ := h.clock q y v hq (.inr (.inl hy))
    have := hv q pick hpk
    subst this
    rw [h1] at hq; cases hq
    rw [h2] at hy; cases hy

theorem SourcedDocs.run {all : List OptAct} : ∀ (acts : List OptAct) {s : OptSys}, Sourced all s → SourcedDocs all s → (∀ a ∈ acts, a ∈ all) →
    SourcedDocs all (s.run acts)
  | [], _, _, h, _ => h
  | a :: acts, s, h, h', ha =>
    SourcedDocs.run acts (s := s.act a) (h.act (ha a (by simp))) (SourcedDocs.act h h' a) (fun b hb => ha b (by simp [hb]))

theorem sourced_start {s : OptSys} {all : List OptAct} (hs : ∀ q, s.procs q = none) : Sourced all s :=
  ⟨fun q x h => (by rw [hs q] at h; cases h), fun q x w h => (by rw [hs q] at h; cases h)⟩

theorem sourcedDocs_start {s : OptSys} {all : List OptAct} (hm : s.mongo.options = []) : SourcedDocs all s :=
  ⟨fun d h => by simp [hm] at h, fun d h => by simp [hm] at h⟩

end Splitgill
