import Verif.Proof.OptProcs
/-!
# C88: options that are given while others work

`update_options` and `rollback_options` take no lock, and `commit()` may itself give a database its first options.
-/

namespace Splitgill.Props

/-- **C88** in full: when `update_options(o)` has returned, whatever other processes have done meanwhile, `o` were at some moment
since it was called the newest committed options of the database. -/
def C88_full : Prop :=
  ∀ (s : OptSys) (p : Nat) (db : PyStr) (o : ParsingOptions) (acts : List OptAct) (r : Option Int), s.Quiet → s.procs p = none →
    OptionsOk o → ClocksLater s acts → ((s.act (.start p db (.update o true))).run acts).Returned p r →
    ∃ n, NewestOptions db ((s.act (.start p db (.update o true))).run (acts.take n)).mongo o

/-- The options `o` are never the newest, in no state of the run. -/
def NeverNewest (s : OptSys) (db : PyStr) (o : ParsingOptions) (acts : List OptAct) : Prop :=
  ∀ n, ¬ NewestOptions db (s.run (acts.take n)).mongo o

theorem neverNewest_of {s : OptSys} {db : PyStr} {o : ParsingOptions} {acts : List OptAct}
    (h : (List.range (acts.length + 1)).all (fun n => !sameAsLatest (latestOptions db (s.run (acts.take n)).mongo) o) = true) :
    NeverNewest s db o acts := by
  intro n hn
  rw [newest_iff] at hn
  have key : ∀ k ≤ acts.length, sameAsLatest (latestOptions db (s.run (acts.take k)).mongo) o = false := by
    intro k hk
    have := List.all_eq_true.1 h k (List.mem_range.2 (by omega))
    simpa using this
  by_cases hl : n ≤ acts.length
  · rw [key n hl] at hn; cases hn
  · rw [List.take_of_length_le (by omega), ← List.take_length (l := acts), key _ (Nat.le_refl _)] at hn
    cases hn

/-- Options of an example. -/
def exGiven (n : Int) : ParsingOptions := { startOptions with keywordLength := n }

/-- A database with options and no processes. -/
def exSettled : OptSys := ⟨{ Mongo.empty with options := [⟨['a'], some 1, startOptions.toDoc⟩] }, fun _ => none⟩

/-- A new database with an uncommitted record and no processes. -/
def exFresh : OptSys :=
  ⟨Mongo.empty.setData ['a'] [⟨['r'], none, [(['x'], .int 1)], []⟩], fun _ => none⟩

/-- Process `p` does `n` commands at time `t`. -/
def exSteps (p : Nat) (t : Int) (n : Nat) : List OptAct := List.replicate n (.step p t 0)

/-- Another process drops the uncommitted options before they are committed. -/
def exDropped : List OptAct := exSteps 0 5 3 ++ [.start 1 ['a'] .rollback] ++ exSteps 1 5 2 ++ exSteps 0 6 4 ++ exSteps 0 6 1

set_option maxRecDepth 100000 in
/-- **C88 does not hold in full**: `rollback_options()` of another process drops the options that were just given, and
`update_options` returns `None` as if nothing had been wrong. -/
theorem C88_refuted : ¬ C88_full := by
  intro h
  obtain ⟨n, hn⟩ := h exSettled 0 ['a'] (exGiven 9) exDropped none (fun q x hx => by cases hx) rfl
    ⟨by decide, by decide, by decide, by decide⟩
    (by
      intro p t pick hm d hd w hw
      simp only [exSettled, List.mem_singleton] at hd
      subst hd
      cases hw
      simp [exDropped, exSteps] at hm
      omega)
    ⟨_, rfl, rfl⟩
  exact neverNewest_of (by decide +kernel) n hn

/-- Two processes give options at the same time: both look before either inserts. -/
def exBoth : List OptAct :=
  [.start 1 ['a'] (.update (exGiven 7) true)] ++ exSteps 0 5 2 ++ exSteps 1 5 2 ++ exSteps 0 5 1 ++ exSteps 1 5 1 ++ exSteps 0 6 6 ++
    [.step 0 6 1, .step 0 6 0] ++ exSteps 0 6 2

set_option maxRecDepth 100000 in
/-- **C88 does not hold** for two processes that give options: both are committed, with the same version, and one is never seen
although `update_options` has returned that version. -/
theorem C88_two_refuted : ∃ acts, (∀ p db call, OptAct.start p db call ∈ acts → ∃ o, call = .update o true) ∧
    ClocksLater exSettled acts ∧ ((exSettled.act (.start 0 ['a'] (.update (exGiven 9) true))).run acts).Returned 0 (some 6) ∧
    NeverNewest (exSettled.act (.start 0 ['a'] (.update (exGiven 9) true))) ['a'] (exGiven 9) acts := by
  refine ⟨exBoth, fun p db call hm => ?_, ?_, ⟨_, rfl, rfl⟩, neverNewest_of (by decide +kernel)⟩
  · simp [exBoth, exSteps] at hm
    exact ⟨_, hm.2.2⟩
  · intro p t pick hm d hd w hw
    simp only [exSettled, List.mem_singleton] at hd
    subst hd
    cases hw
    simp [exBoth, exSteps] at hm
    omega

/-- A commit gives a new database the default options while options are given. -/
def exDefaults : List OptAct :=
  [.start 1 ['a'] .commit] ++ exSteps 1 5 5 ++ exSteps 0 5 3 ++ exSteps 1 5 10 ++ exSteps 0 6 5

set_option maxRecDepth 100000 in
/-- **C88 does not hold** on a new database even if the other processes only commit: a `commit()` (of data) that has found no
options drops the options given meanwhile, and commits the default ones instead. -/
theorem C88_default_refuted : ∃ acts, OnlyCommits acts ∧
    ((exFresh.act (.start 0 ['a'] (.update (exGiven 9) true))).run acts).Returned 0 none ∧
    NeverNewest (exFresh.act (.start 0 ['a'] (.update (exGiven 9) true))) ['a'] (exGiven 9) acts := by
  refine ⟨exDefaults, fun p db call hm => ?_, ⟨_, rfl, rfl⟩, neverNewest_of (by decide +kernel)⟩
  simp [exDefaults, exSteps] at hm
  exact hm.2.2

theorem start_inv {s : OptSys} {p : Nat} {db : PyStr} {o : ParsingOptions} (hq : s.Quiet) (hp : s.procs p = none) :
    AloneInv s.mongo.options db o p (s.act (.start p db (.update o true))) := by
  simp only [OptSys.act, hp]
  refine ⟨⟨[], by simp [OptSys.set_mongo], .inl rfl, fun x hx => ?_⟩, fun q x hne hx ha => ?_, ?_⟩
  · rw [OptSys.set_procs, if_pos rfl] at hx
    cases hx
    exact ⟨rfl, rfl, rfl⟩
  · rw [OptSys.set_procs, if_neg hne] at hx
    rcases hq q x hx with h | h
    · rw [ha] at h; cases h
    · cases hpc : x.pc with
      | commit c => rw [hpc] at h; cases c <;> first | exact trivial | cases h
      | done => exact trivial
      | failed => exact trivial
      | _ => rw [hpc] at h; cases h
  · rw [OptSys.set_procs, if_pos rfl]; simp

/-- **C88 (partial)** if somebody has committed options before, none are uncommitted, and the other processes - any number, on any
databases, living or dying - only commit (data is ingested as they like, and locks are released by hand): when
`update_options(o)` has returned, `o` are the newest committed options. Missing: other processes that give or roll back options
meanwhile, and databases of a client without options. -/
theorem C88_commits_partial (s : OptSys) (p : Nat) (db : PyStr) (o : ParsingOptions) (acts : List OptAct) (r : Option Int)
    (hq : s.Quiet) (hp : s.procs p = none) (ho : OptionsOk o) (hl : ClocksLater s acts)
    (hc : s.Clean) (hh : s.HasOptions) (hs : OnlyCommits acts)
    (hr : ((s.act (.start p db (.update o true))).run acts).Returned p r) :
    NewestOptions db ((s.act (.start p db (.update o true))).run acts).mongo o :=
  (AloneInv.run hh hc acts (start_inv hq hp) (fun q t pick hm d hd w hw => hl q t pick hm d hd w hw) hs).newest ho hr

/-- **C88 (partial)** under the same conditions: when `update_options(o)` has raised `AlreadyLocked`, because another process was
committing, `o` are uncommitted (a later commit gives them a version) or the newest committed options. -/
theorem C88_locked_partial (s : OptSys) (p : Nat) (db : PyStr) (o : ParsingOptions) (acts : List OptAct)
    (hq : s.Quiet) (hp : s.procs p = none) (ho : OptionsOk o) (hl : ClocksLater s acts)
    (hc : s.Clean) (hh : s.HasOptions) (hs : OnlyCommits acts) (x : OptProc)
    (hx : ((s.act (.start p db (.update o true))).run acts).procs p = some x) (hr : x.pc = .commit .locked) :
    (none, o) ∈ getOptions db true ((s.act (.start p db (.update o true))).run acts).mongo ∨
      NewestOptions db ((s.act (.start p db (.update o true))).run acts).mongo o :=
  (AloneInv.run hh hc acts (start_inv hq hp) (fun q t pick hm d hd w hw => hl q t pick hm d hd w hw) hs).locked ho hx hr

/-- **C88 (partial)** whatever processes do at the same time, from whatever state: a version in `get_options()` stays there. -/
theorem C88_kept_partial (s : OptSys) (acts : List OptAct) (db : PyStr) (v : Int) (l : ParsingOptions)
    (h : (some v, l) ∈ getOptions db false s.mongo) : ∃ l', (some v, l') ∈ getOptions db false (s.run acts).mongo := by
  have hk : some v ∈ akeys (getOptions db false s.mongo) := List.mem_map.2 ⟨_, h, rfl⟩
  obtain ⟨h1, d, h2, h3, h4⟩ := (getOptions_keys _).1 hk
  have hk' : some v ∈ akeys (getOptions db false (s.run acts).mongo) :=
    (getOptions_keys _).2 ⟨h1, d, OptSys.run_keeps acts h2 (by simp [h4]), h3, h4⟩
  obtain ⟨⟨k, l'⟩, h5, rfl⟩ := List.mem_map.1 hk'
  exact ⟨l', h5⟩

/-- **C88 (partial)** whatever processes do at the same time: the options with a version are those with which a call that returned
this version left them, if the clock has not shown this time to others. -/
theorem C88_final_partial (s : OptSys) (a b : List OptAct) (p : Nat) (v : Int) (db : PyStr) (hs : ∀ q, s.procs q = none)
    (hr : (s.run a).Returned p (some v)) (hv : ∀ q pick, OptAct.step q v pick ∈ a ++ b → q = p) :
    aget (some v) (getOptions db false (s.run (a ++ b)).mongo) = aget (some v) (getOptions db false (s.run a).mongo) := by
  obtain ⟨x, h1, h2⟩ := hr
  have hx : x.pc = .commit (.done (some v)) := by
    cases hpc : x.pc with
    | commit c =>
      rw [hpc] at h2
      cases c <;> simp only [OptPc.result] at h2 <;> cases h2
      rfl
    | _ => rw [hpc] at h2; cases h2
  have hrun : s.run (a ++ b) = (s.run a).run b := List.foldl_append
  rw [hrun]
  exact getOptions_at (final_run hv b (Sourced.run a (sourced_start hs) (fun x hx => by simp [hx])) (fun x hx => by simp [hx]) ⟨x, h1, hx⟩)

/-- **C88 (partial)** whatever processes do at the same time, from a state without options: `get_options()` returns only options
that `update_options` was given for this database, or the default ones, each with a time that the clock has shown. -/
theorem C88_given_partial (s : OptSys) (acts : List OptAct) (db : PyStr) (v : Int) (l : ParsingOptions) (hs : ∀ q, s.procs q = none)
    (h0 : s.mongo.options = []) (ho : ∀ p d o b, OptAct.start p d (.update o b) ∈ acts → OptionsOk o)
    (h : (some v, l) ∈ getOptions db false (s.run acts).mongo) :
    (l = startOptions ∨ ∃ p b, OptAct.start p db (.update l b) ∈ acts) ∧ ∃ p pick, OptAct.step p v pick ∈ acts := by
  have hsd := SourcedDocs.run acts (sourced_start (all := acts) hs) (sourcedDocs_start h0) (fun x hx => hx)
  have ha := aget_of_mem (getOptions_nodup _ _) h
  rw [getOptions_eq, foldl_aset_aget] at ha
  split at ha
  · rename_i d hd
    have hm : d ∈ committedOptions db (s.run acts).mongo.options := by simpa using List.mem_of_find?_eq_some hd
    have hdv := List.find?_some hd
    simp only [committedOptions, List.mem_filter, Bool.and_eq_true, decide_eq_true_eq] at hm hdv
    injection ha with ha
    obtain ⟨q, pick, hq⟩ := hsd.version d hm.1 v hdv
    refine ⟨?_, q, pick, hq⟩
    rcases hsd.doc d hm.1 with h1 | ⟨p, o, b, h1, h2⟩
    · left
      rw [← ha, h1, fromDoc_toDoc (default_start ▸ defaultOptions_ok)]
    · right
      rw [h2, fromDoc_toDoc (ho _ _ _ _ h1)] at ha
      subst ha
      exact ⟨p, b, hm.2.1 ▸ h1⟩
  · cases ha

/-! ## Examples -/

/-- Options are given and committed by the commit of another process, which finds them before the process itself commits. -/
def exAmong : List OptAct :=
  exSteps 0 5 2 ++ [.start 1 ['a'] .commit] ++ exSteps 1 5 1 ++ exSteps 0 5 1 ++ exSteps 1 6 9 ++ [.crash 1, .adminRelease ['a']] ++
    exSteps 0 7 4

set_option maxRecDepth 100000 in
/-- The hypotheses of `C88_commits_partial` are met: the call returns `None`, and its options are the newest with version 6. -/
example : exSettled.Quiet ∧ exSettled.Clean ∧ exSettled.HasOptions ∧ ClocksLater exSettled exAmong ∧ OnlyCommits exAmong ∧
    ((exSettled.act (.start 0 ['a'] (.update (exGiven 9) true))).run exAmong).Returned 0 none ∧
    (some 6, exGiven 9) ∈ getOptions ['a'] false ((exSettled.act (.start 0 ['a'] (.update (exGiven 9) true))).run exAmong).mongo := by
  refine ⟨fun q x hx => (by cases hx), by simp [OptSys.Clean, exSettled], ?_, ?_, ?_, ⟨_, rfl, rfl⟩, by decide +kernel⟩
  · exact ⟨_, List.mem_singleton.2 rfl, by simp⟩
  · intro p t pick hm d hd w hw
    simp only [exSettled, List.mem_singleton] at hd
    subst hd
    cases hw
    simp [exAmong, exSteps] at hm
    omega
  · intro p db call hm
    simp [exAmong, exSteps] at hm
    exact hm.2.2

/-- A state in which a call has raised, one has returned and one process is dead is quiet as well. -/
example : ((exSettled.act (.start 0 ['a'] (.update (exGiven 9) true))).run
      ([.raise 0, .start 1 ['a'] .commit, .raise 1, .start 2 ['a'] .commit, .crash 2, .start 3 ['a'] .commit] ++ exSteps 3 5 14)).Quiet := by
  intro q x hx
  match q with
  | 0 => cases hx; exact .inr rfl
  | 1 => cases hx; exact .inr rfl
  | 2 => cases hx; exact .inl rfl
  | 3 => cases hx; exact .inr (by decide +kernel)
  | q + 4 =>
    exfalso
    simp [OptSys.run, OptSys.act, OptSys.set, exSteps, exSettled] at hx

/-- The other process commits what it has found before the options are given, and holds the lock. -/
def exLocked : List OptAct := [.start 1 ['a'] .commit] ++ exSteps 1 5 1 ++ exSteps 0 5 4

set_option maxRecDepth 100000 in
/-- The hypotheses of `C88_locked_partial` are met: the options stay uncommitted. -/
example : ∃ x, ((exSettled.act (.start 0 ['a'] (.update (exGiven 9) true))).run exLocked).procs 0 = some x ∧ x.pc = .commit .locked ∧
    (none, exGiven 9) ∈ getOptions ['a'] true ((exSettled.act (.start 0 ['a'] (.update (exGiven 9) true))).run exLocked).mongo :=
  ⟨_, rfl, rfl, by decide +kernel⟩

set_option maxRecDepth 100000 in
/-- While a commit is running the options of its version may change: here those of version 6 are first `exGiven 9`, then
`exGiven 7`; the commit has not returned at the first of these moments, as `C88_final_partial` asks. -/
example :
    let acts : List OptAct := [.start 0 ['a'] (.update (exGiven 9) true), .start 1 ['a'] (.update (exGiven 7) true)] ++ exSteps 0 5 2 ++
      exSteps 1 5 2 ++ exSteps 0 5 1 ++ exSteps 1 5 1 ++ exSteps 0 6 6
    aget (some 6) (getOptions ['a'] false (exSettled.run (acts ++ exSteps 0 6 1)).mongo) = some (exGiven 9) ∧
    aget (some 6) (getOptions ['a'] false (exSettled.run (acts ++ exSteps 0 6 2)).mongo) = some (exGiven 7) ∧
    (exSettled.run (acts ++ exSteps 0 6 4)).Returned 0 (some 6) :=
  ⟨by decide +kernel, by decide +kernel, ⟨_, rfl, rfl⟩⟩

set_option maxRecDepth 100000 in
/-- The hypotheses of `C88_given_partial` are met: both the default options and given ones are committed. -/
example :
    let acts : List OptAct := [.start 1 ['a'] .commit] ++ exSteps 1 5 14 ++ [.start 0 ['a'] (.update (exGiven 9) true)] ++ exSteps 0 6 12
    exFresh.mongo.options = [] ∧ getOptions ['a'] false (exFresh.run acts).mongo = [(some 5, startOptions), (some 6, exGiven 9)] :=
  ⟨rfl, by decide +kernel⟩

set_option maxRecDepth 100000 in
/-- Options that are already the newest: the call returns `None` after it has looked, and nothing is written. -/
example : ((exSettled.act (.start 0 ['a'] (.update startOptions true))).run (exSteps 0 5 3)).Returned 0 none ∧
    ((exSettled.act (.start 0 ['a'] (.update startOptions true))).run (exSteps 0 5 3)).mongo.options = exSettled.mongo.options :=
  ⟨⟨_, rfl, rfl⟩, rfl⟩

end Splitgill.Props
