import Verif.Proof.Writers7
import Verif.Props.Procs
/-!
# C120: the version an ingest returns while others work

`WritersState.run` runs any schedule of processes that each go through one `ingest(records, commit, modified_field)` (with no records:
`commit()`), command by command, with crashes, exceptions, commits that run while others write, and the lock. `startWriters` are the
processes before they begin.
-/

namespace Splitgill.Props
open Splitgill

/-- What is wanted: if `ingest` of process `p` returns the version `v`, then each of its records is shown as ingested by one document whose
version is `v`, or one it had before `p` began: all changes of the ingest become visible at one and the same version. -/
def C120_full : Prop :=
  ∀ (U : Unicode) (db : PyStr) (before : List ApiCall) (calls : Nat → Option PyStr × List Record × Bool) (pre post : List WriterAct) (p : Nat) (v : Int),
    Orderly before → DisjointIds (fun p => (calls p).2.1) → ((calls p).2.1.map Record.id).Nodup → (calls p).2.2 = true → NotBegun p pre →
    let start := startWriters calls (afterCalls U db before)
    CarefulWriters U 200 db start (pre ++ post) → ClockForward (pre ++ post) →
    (∀ t0 ∈ before.filterMap ApiCall.clock?, ∀ t ∈ (pre ++ post).filterMap WriterAct.clock?, t0 ≤ t) →
    ((start.run U 200 db (pre ++ post)).procs p).pc = .done (some v) →
    ∀ r ∈ (calls p).2.1, ∀ d ∈ docsWith r.id ((start.run U 200 db (pre ++ post)).mongo.data db),
      d.version = some v ∨ ∃ x, d.version = some x ∧ ∃ d0 ∈ docsWith r.id ((start.run U 200 db pre).mongo.data db), x ∈ d0.getVersions

theorem mem_getVersions {d : MongoRecord} {x : Int} : x ∈ d.getVersions ↔ d.Has x := by
  have hm : ∀ y, y ∈ sortAsc (akeys d.diffs ++ d.version.toList) ↔ y ∈ akeys d.diffs ++ d.version.toList := fun y => (sortBy_perm _ _).mem_iff
  rw [MongoRecord.getVersions]
  simp only [Bool.false_eq_true, if_false]
  rw [hm, List.mem_append, Option.mem_toList, MongoRecord.Has, or_comm]

/-- **C120** (committed) Whatever the others do, and also if the lock is released by hand: once `ingest` with its commit has returned, no
document of its records is uncommitted. -/
theorem C120_committed (U : Unicode) (db : PyStr) (m : Mongo) (calls : Nat → Option PyStr × List Record × Bool)
    (hd : DisjointIds (fun p => (calls p).2.1)) (acts : List WriterAct) (p : Nat) (hc : (calls p).2.2 = true) (res : Option Int)
    (hp : (((startWriters calls m).run U 200 db acts).procs p).pc = .done res) :
    ∀ r ∈ (calls p).2.1, ∀ d ∈ docsWith r.id (((startWriters calls m).run U 200 db acts).mongo.data db), d.version ≠ none := by
  intro r hr d hm
  have h := (clean_run (U := U) (size := 200) (db := db) acts (start_split (m := m) hd p) start_clean).2
  refine h.clean (by rw [doCommit_run]; exact hc) (by rw [hp]; rfl) d (mem_ownDocs.2 ⟨(List.mem_filter.1 hm).1, ?_⟩)
  rw [docsWith_id d hm]
  simpa using ⟨r, hr, rfl⟩

/-- **C120** (not later) If the lock is released by hand only when nobody holds it and the clock never goes back, then no document of its
records has a version after the one `ingest` has returned. -/
theorem C120_seen (U : Unicode) (db : PyStr) (m : Mongo) (hl : m.locks.Nodup) (calls : Nat → Option PyStr × List Record × Bool)
    (hd : DisjointIds (fun p => (calls p).2.1)) (acts : List WriterAct) (p : Nat) (hc : (calls p).2.2 = true)
    (hk : CarefulWriters U 200 db (startWriters calls m) acts) (hf : ClockForward acts) (t0 : Int)
    (h0 : ∀ d ∈ m.data db, ∀ x ∈ d.getVersions, x ≤ t0) (ht : ∀ t ∈ acts.filterMap WriterAct.clock?, t0 ≤ t) (v : Int)
    (hp : (((startWriters calls m).run U 200 db acts).procs p).pc = .done (some v)) :
    ∀ r ∈ (calls p).2.1, ∀ d ∈ docsWith r.id (((startWriters calls m).run U 200 db acts).mongo.data db), ∃ x, d.version = some x ∧ x ≤ v := by
  intro r hr d hm
  have hv := C120_committed U db m calls hd acts p hc _ hp r hr d hm
  obtain ⟨T, h⟩ := bound_run (U := U) (size := 200) (db := db) (T := t0) acts hk hf ht (start_lock hl) (start_split hd p) start_clean hc
    ⟨start_versions rfl (fun d hd x hx => h0 d (mem_ownDocs.1 hd).1 x (mem_getVersions.2 hx)), fun q v _ h => (nomatch h), fun v h => (nomatch h)⟩
  cases hx : d.version with
  | none => exact absurd hx hv
  | some x =>
    refine ⟨x, rfl, h.res v (by rw [hp]; rfl) (.inr (by rw [hp]; rfl)) d (mem_ownDocs.2 ⟨(List.mem_filter.1 hm).1, ?_⟩) x hx⟩
    rw [docsWith_id d hm]
    simpa using ⟨r, hr, rfl⟩

/-- **C120** (the data) Once `ingest` has returned, with a commit or without, in a database used as the library does: the documents of its
records show what was ingested, whatever commits came in between. -/
theorem C120_data (U : Unicode) (db : PyStr) (before : List ApiCall) (hb : Orderly before) (calls : Nat → Option PyStr × List Record × Bool)
    (hd : DisjointIds (fun p => (calls p).2.1)) (p : Nat) (hn : ((calls p).2.1.map Record.id).Nodup) (acts : List WriterAct) (res : Option Int)
    (hp : (((startWriters calls (afterCalls U db before)).run U 200 db acts).procs p).pc = .done res) :
    ∀ r ∈ (calls p).2.1, ShowsRecord U (calls p).1 r (docsWith r.id (((startWriters calls (afterCalls U db before)).run U 200 db acts).mongo.data db)) := by
  intro r hr
  have hlife := life (K := fun _ => plainClass) (U := U) (db := db) (fun c _ => fits_plain U c.stream) hb
  obtain ⟨h1, h2⟩ := data_run (U := U) (size := 200) (db := db) (own := fun id => decide (id ∈ (calls p).2.1.map Record.id)) (p := p) (r := r)
    (by simpa using ⟨r, hr, rfl⟩) acts (start_split hd p) start_done (start_data hr hn (oneDoc_rcoll hlife.rep r.id))
  exact h2.phase.finished (h1 res hp)

/-- **C120** If `ingest` has returned the version `v`, each of its records has one document, which is committed at a version not after `v`
and has the data that was ingested; or it was a delete and there is no document. So whoever asks for version `v` sees what was ingested,
although others have ingested and committed at the same time. -/
theorem C120_returned (U : Unicode) (db : PyStr) (before : List ApiCall) (hb : Orderly before) (calls : Nat → Option PyStr × List Record × Bool)
    (hd : DisjointIds (fun p => (calls p).2.1)) (p : Nat) (hn : ((calls p).2.1.map Record.id).Nodup) (hc : (calls p).2.2 = true) (acts : List WriterAct)
    (hk : CarefulWriters U 200 db (startWriters calls (afterCalls U db before)) acts) (hf : ClockForward acts)
    (ht : ∀ t0 ∈ before.filterMap ApiCall.clock?, ∀ t ∈ acts.filterMap WriterAct.clock?, t0 ≤ t) (v : Int)
    (hp : (((startWriters calls (afterCalls U db before)).run U 200 db acts).procs p).pc = .done (some v)) :
    ∀ r ∈ (calls p).2.1,
      let docs := docsWith r.id (((startWriters calls (afterCalls U db before)).run U 200 db acts).mongo.data db)
      (docs = [] ∧ r.isDelete = true) ∨
        ∃ d x, docs = [d] ∧ d.version = some x ∧ x ≤ v ∧
          (simEq (.dict (prepareRecordData U r)) (.dict d.data) = true ∨ sameData (calls p).1 (prepareRecordData U r) d.data = true) := by
  intro r hr docs
  have hlife := life (K := fun _ => plainClass) (U := U) (db := db) (fun c _ => fits_plain U c.stream) hb
  have hlocks : (afterCalls U db before).locks.Nodup := by rw [hlife.free]; exact List.nodup_nil
  have hseen : ∀ r ∈ (calls p).2.1, ∀ d ∈ docsWith r.id (((startWriters calls (afterCalls U db before)).run U 200 db acts).mongo.data db),
      ∃ x, d.version = some x ∧ x ≤ v := by
    have hvers : ∀ d ∈ (afterCalls U db before).data db, ∀ x ∈ d.getVersions, ∃ t0 ∈ before.filterMap ApiCall.clock?, Below (some t0) x ∧ lastClock none before = some t0 := by
      intro d hm x hx
      have hrep := hlife.rep.rep d.id
      rw [findRecord_of_mem hlife.rep.nodup hm] at hrep
      rw [hrep.getVersions.2, List.mem_reverse, List.mem_map] at hx
      obtain ⟨vd, h1, rfl⟩ := hx
      obtain ⟨h, e, h2⟩ := hlife.vers d.id vd h1
      have e' := e
      rw [lastClock_eq, Option.or_none] at e'
      exact ⟨h, List.mem_of_getLast? e', ⟨h, rfl, h2⟩, e⟩
    cases hlast : lastClock none before with
    | none =>
      cases hmin : acts.filterMap WriterAct.clock? with
      | nil =>
        exact C120_seen U db _ hlocks calls hd acts p hc hk hf 0 (fun d hm x hx => by
          obtain ⟨_, _, _, e⟩ := hvers d hm x hx
          rw [hlast] at e; cases e) (by rw [hmin]; exact nofun) v hp
      | cons t ts =>
        refine C120_seen U db _ hlocks calls hd acts p hc hk hf t (fun d hm x hx => by
          obtain ⟨_, _, _, e⟩ := hvers d hm x hx
          rw [hlast] at e; cases e) ?_ v hp
        rw [hmin]
        have := hf
        unfold ClockForward at this
        rw [hmin, List.pairwise_cons] at this
        intro t' ht'
        rcases List.mem_cons.1 ht' with rfl | h
        · exact Int.le_refl _
        · exact this.1 t' h
    | some t0 =>
      have hm0 : t0 ∈ before.filterMap ApiCall.clock? := by
        rw [lastClock_eq, Option.or_none] at hlast
        exact List.mem_of_getLast? hlast
      refine C120_seen U db _ hlocks calls hd acts p hc hk hf t0 (fun d hm x hx => ?_) (fun t h => ht t0 hm0 t h) v hp
      obtain ⟨t1, _, ⟨h, e1, h2⟩, e⟩ := hvers d hm x hx
      rw [hlast] at e
      cases e; cases e1
      exact h2
  rcases C120_data U db before hb calls hd p hn acts _ hp r hr with h | ⟨d, h1, h2⟩
  · exact .inl h
  · obtain ⟨x, h3, h4⟩ := hseen r hr d (by rw [h1]; exact List.mem_singleton.2 rfl)
    exact .inr ⟨d, x, h1, h3, h4, h2⟩

/-- **C120** (one version, partial: nobody else gives versions while the ingest runs) Then each document of its records has the version
that is returned, or one that the record had before the ingest began; if nothing is returned, one it had before. -/
theorem C120_same_partial (U : Unicode) (db : PyStr) (m : Mongo) (calls : Nat → Option PyStr × List Record × Bool)
    (hd : DisjointIds (fun p => (calls p).2.1)) (pre post : List WriterAct) (p : Nat) (hc : (calls p).2.2 = true) (hb : NotBegun p pre)
    (hn : NoOtherCommit U 200 db p ((startWriters calls m).run U 200 db pre) post) (res : Option Int)
    (hp : (((startWriters calls m).run U 200 db (pre ++ post)).procs p).pc = .done res) :
    ∀ r ∈ (calls p).2.1, ∀ d ∈ docsWith r.id (((startWriters calls m).run U 200 db (pre ++ post)).mongo.data db),
      ∃ x, d.version = some x ∧ (res = some x ∨ ∃ d0 ∈ docsWith r.id (((startWriters calls m).run U 200 db pre).mongo.data db), x ∈ d0.getVersions) := by
  intro r hr d hm
  have hv := C120_committed U db m calls hd (pre ++ post) p hc _ hp r hr d hm
  have hsplit := (clean_run (U := U) (size := 200) (db := db) pre (start_split (m := m) hd p) start_clean).1
  have hproc := notBegun_run (U := U) (size := 200) (db := db) (p := p) pre (startWriters calls m) hb
  have h := same_run (U := U) (size := 200) (db := db) (p := p)
    (old := fun id x => ∃ d0 ∈ docsWith id (((startWriters calls m).run U 200 db pre).mongo.data db), x ∈ d0.getVersions)
    post hn hsplit (by rw [hproc]; exact hc) (fun _ => start_versions (by rw [hproc]; rfl) (fun d hm x hx =>
      .inl ⟨d, List.mem_filter.2 ⟨(mem_ownDocs.1 hm).1, by simp⟩, mem_getVersions.2 hx⟩))
  rw [← WritersState.run_append] at h
  have h := h (by rw [hp]; rfl)
  cases hx : d.version with
  | none => exact absurd hx hv
  | some x =>
    have hid := docsWith_id d hm
    have := h.docs d (mem_ownDocs.2 ⟨(List.mem_filter.1 hm).1, by rw [hid]; simpa using ⟨r, hr, rfl⟩⟩) x (.inl hx)
    rw [hid, hp] at this
    exact ⟨x, rfl, this.symm⟩

/-! ## Examples -/

/-- Process 1 ingests `a` and `b` and commits, process 2 commits, process 3 ingests `c` without committing. -/
def exWriters : Nat → Option PyStr × List Record × Bool
  | 1 => (none, [exRec ['a'] 1, exRec ['b'] 2], true)
  | 2 => (none, [], true)
  | 3 => (none, [exRec ['c'] 3], false)
  | _ => (none, [], false)

theorem exWriters_disjoint : DisjointIds (fun p => (exWriters p).2.1) := by
  intro p q h r hr r' hr'
  match p, q with
  | 1, 1 => exact absurd rfl h
  | 3, 3 => exact absurd rfl h
  | 1, 3 | 3, 1 =>
    simp only [exWriters, List.mem_cons, List.not_mem_nil, or_false] at hr hr'
    rcases hr with rfl | rfl <;> rcases hr' with rfl | rfl <;> decide
  | 0, _ => cases hr
  | 2, _ => cases hr
  | 1, 0 => cases hr'
  | 3, 0 => cases hr'
  | 1, 2 => cases hr'
  | 3, 2 => cases hr'
  | n + 4, _ => cases hr
  | 1, n + 4 => cases hr'
  | 3, n + 4 => cases hr'

/-- Steps of a process while the clock shows `clock`. -/
def exWriterSteps (p : Nat) (clock : Int) (pick : Option Nat) (n : Nat) : List WriterAct := List.replicate n (.step p clock pick)

/-- A commit from its beginning to its end (before it the default options are made if there are none). -/
def exWriterCommit (p : Nat) (clock : Int) (checks docs : Nat) : List WriterAct :=
  exWriterSteps p clock none checks ++ exWriterSteps p clock (some 0) docs ++ exWriterSteps p clock none 1 ++ exWriterSteps p clock (some 0) 1 ++ exWriterSteps p clock none 2

/-- The record `a` is there already. -/
def exBefore : List ApiCall := [.ingest none [exRec ['a'] 7] true 0]

theorem exBefore_orderly : Orderly exBefore := ⟨by decide, fun c hc => by
  simp only [exBefore, List.mem_singleton] at hc
  subst hc
  unfold NoSpan
  decide⟩

/-- Process 3 begins, process 1 writes `a`, then process 2 commits, then process 1 goes on. -/
def exBetween : List WriterAct :=
  exWriterSteps 3 1 none 4 ++ exWriterSteps 1 1 none 5 ++ exWriterCommit 2 5 5 2 ++ exWriterSteps 1 6 none 1 ++ exWriterCommit 1 9 5 1

/-- The same, but process 2 commits before process 1 begins. -/
def exFirst : List WriterAct := exWriterSteps 3 1 none 4 ++ exWriterCommit 2 5 5 1
def exThen : List WriterAct := exWriterSteps 1 6 none 6 ++ exWriterCommit 1 9 5 2

theorem careful_of_no_release {U : Unicode} {size : Nat} {db : PyStr} : ∀ {acts : List WriterAct} {s : WritersState},
    (∀ a ∈ acts, a ≠ .adminRelease) → CarefulWriters U size db s acts
  | [], _, _ => trivial
  | a :: acts, s, h => by
    refine ⟨?_, careful_of_no_release fun x hx => h x (List.mem_cons_of_mem _ hx)⟩
    cases a with
    | adminRelease => exact absurd rfl (h _ List.mem_cons_self)
    | _ => trivial

theorem exBetween_careful {s : WritersState} : CarefulWriters asciiU 200 [] s exBetween := by
  refine careful_of_no_release fun a ha => ?_
  simp only [exBetween, exWriterCommit, exWriterSteps, List.mem_append, List.mem_replicate] at ha
  rintro rfl
  simp at ha

theorem exBetween_forward : ClockForward exBetween := by unfold ClockForward; decide +kernel

/-- Nobody else gives versions, to be computed. -/
def noOtherB (U : Unicode) (size : Nat) (db : PyStr) (p : Nat) : WritersState → List WriterAct → Bool
  | _, [] => true
  | s, a :: acts =>
    (match a with
      | .step q _ _ => decide (q = p) || (match (s.procs q).pc with | .data _ => false | _ => true)
      | _ => true) && noOtherB U size db p (s.act U size db a) acts

theorem noOtherB_spec {U : Unicode} {size : Nat} {db : PyStr} {p : Nat} : ∀ {acts : List WriterAct} {s : WritersState},
    noOtherB U size db p s acts = true → NoOtherCommit U size db p s acts
  | [], _, _ => trivial
  | a :: acts, s, h => by
    rw [noOtherB.eq_def] at h
    dsimp only at h
    rw [Bool.and_eq_true] at h
    refine ⟨?_, noOtherB_spec h.2⟩
    cases a with
    | step q clock pick =>
      intro hq v hv
      have := h.1
      simp [hq, hv] at this
    | _ => trivial

/-- The versions of the documents, and what the processes have returned. -/
def exSeen (s : WritersState) (p : Nat) : List (PyStr × Option Int) × Option (Option Int) :=
  ((s.mongo.data []).map (fun d => (d.id, d.version)), match (s.procs p).pc with | .done r => some r | _ => none)

set_option maxRecDepth 100000 in
/-- The hypotheses of C120_returned (and of C120_committed, C120_seen, C120_data) are met: process 1 returns 9. -/
example : Orderly exBefore ∧ DisjointIds (fun p => (exWriters p).2.1) ∧ ((exWriters 1).2.1.map Record.id).Nodup ∧
    CarefulWriters asciiU 200 [] (startWriters exWriters (afterCalls asciiU [] exBefore)) exBetween ∧ ClockForward exBetween ∧
    (∀ t0 ∈ exBefore.filterMap ApiCall.clock?, ∀ t ∈ exBetween.filterMap WriterAct.clock?, t0 ≤ t) ∧
    exSeen ((startWriters exWriters (afterCalls asciiU [] exBefore)).run asciiU 200 [] exBetween) 1 =
      ([(['a'], some 5), (['c'], some 5), (['b'], some 9)], some (some 9)) :=
  ⟨exBefore_orderly, exWriters_disjoint, by decide, exBetween_careful, exBetween_forward, by decide +kernel, by decide +kernel⟩

set_option maxRecDepth 100000 in
/-- The hypotheses of C120_same_partial are met: both records get the version 9. -/
example : NotBegun 1 exFirst ∧
    NoOtherCommit asciiU 200 [] 1 ((startWriters exWriters (afterCalls asciiU [] exBefore)).run asciiU 200 [] exFirst) exThen ∧
    exSeen ((startWriters exWriters (afterCalls asciiU [] exBefore)).run asciiU 200 [] (exFirst ++ exThen)) 1 =
      ([(['a'], some 9), (['c'], some 5), (['b'], some 9)], some (some 9)) := by
  refine ⟨?_, noOtherB_spec (by decide +kernel), by decide +kernel⟩
  intro a ha clock pick
  simp only [exFirst, exWriterCommit, exWriterSteps, List.mem_append, List.mem_replicate] at ha
  refine ⟨?_, ?_, ?_⟩ <;> rintro rfl <;> simp at ha

set_option maxRecDepth 100000 in
/-- **C120** (the full statement is wrong) Process 2 commits between the writes of process 1: `a` is shown as ingested from version 5 on, `b` from
version 9, the one `ingest` returns. -/
theorem C120_refuted : ¬ C120_full := by
  intro h
  have := h asciiU [] exBefore exWriters [] exBetween 1 9 exBefore_orderly exWriters_disjoint (by decide) rfl (fun _ h => nomatch h)
    exBetween_careful exBetween_forward (by decide +kernel)
  have e : (((startWriters exWriters (afterCalls asciiU [] exBefore)).run asciiU 200 [] exBetween).procs 1).pc = .done (some 9) := by decide +kernel
  have key := this e (exRec ['a'] 1) List.mem_cons_self
  have e2 : (docsWith ['a'] (((startWriters exWriters (afterCalls asciiU [] exBefore)).run asciiU 200 [] exBetween).mongo.data [])).map MongoRecord.version = [some 5] := by
    decide +kernel
  have e3 : (docsWith ['a'] (((startWriters exWriters (afterCalls asciiU [] exBefore)).run asciiU 200 [] []).mongo.data [])).map (fun d => d.getVersions) = [[0]] := by
    decide +kernel
  rw [List.nil_append] at key
  generalize ((startWriters exWriters (afterCalls asciiU [] exBefore)).run asciiU 200 [] exBetween).mongo.data [] = c1 at *
  cases hD : docsWith ['a'] c1 with
  | nil => rw [hD] at e2; cases e2
  | cons d ds =>
    rw [hD] at e2
    injection e2 with e2 _
    rcases key d (by show d ∈ docsWith ['a'] _; rw [hD]; exact List.mem_cons_self) with h | ⟨x, hx, d0, h0, h1⟩
    · rw [e2] at h; cases h
    · rw [e2] at hx
      injection hx with hx
      subst hx
      have : d0.getVersions ∈ [[(0 : Int)]] := by rw [← e3]; exact List.mem_map_of_mem h0
      rw [List.mem_singleton] at this
      rw [this] at h1
      revert h1
      decide

set_option maxRecDepth 100000 in
/-- The lock is needed for C120_seen: if it is released by hand while process 1 commits at 9, process 2 can give `b` the version 10 before process 1
comes to it, and process 1 returns 9. -/
example : exSeen ((startWriters exWriters (afterCalls asciiU [] exBefore)).run asciiU 200 []
    (exWriterSteps 1 6 none 6 ++ exWriterSteps 1 9 none 5 ++ exWriterSteps 1 9 (some 0) 1 ++ [.adminRelease] ++ exWriterCommit 2 10 5 1 ++ exWriterSteps 1 11 none 1 ++
      exWriterSteps 1 11 (some 0) 1 ++ exWriterSteps 1 11 none 2)) 1 = ([(['a'], some 9), (['b'], some 10)], some (some 9)) := by decide +kernel

end Splitgill.Props
