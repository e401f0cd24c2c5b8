import Verif.Proof.Procs2
import Verif.Props.Concurrent
/-!
# C84: processes that ingest different records

`ConcState.run` runs any schedule of lookups, writes, crashes and commits; `ProcsState.run` runs processes that do what `ingest` does,
step by step, in any order.
-/

namespace Splitgill.Props
open Splitgill

/-- **C84** (any lookups and writes) In a schedule without rollbacks in which no two processes look up the same record, the documents
of each record are, at every moment, what they would be if there were only the process that looks it up, and the commits: the others
might as well not exist, whether they finish, raise or die. -/
theorem C84_schedule (U : Unicode) (c : Coll) (acts : List ConcAct) (hr : NoRollback acts)
    (hd : ∀ p q, p ≠ q → ∀ id ∈ lookedUp p acts, id ∉ lookedUp q acts) (p : Nat) (id : PyStr)
    (hid : ∀ q, q ≠ p → id ∉ lookedUp q acts) :
    docsWith id (ConcState.run U { coll := c } acts).coll =
      docsWith id (ConcState.run U { coll := c } (acts.filter (ConcAct.ofOrCommit p))).coll := by
  refine docsWith_own (own := fun x => decide (x ∈ lookedUp p acts ∨ x = id)) (by simp)
    (SameOps.run (p := p) U acts (by intro x hx; cases hx) ?_ ⟨rfl, rfl⟩).coll
  intro a ha
  cases a with
  | lookupRollback q => exact hr q ha
  | lookup q mf chunk =>
    intro r hr
    have hm : r.id ∈ lookedUp q acts := by
      unfold lookedUp
      rw [List.mem_flatMap]
      exact ⟨_, ha, by simpa using ⟨r, hr, rfl⟩⟩
    by_cases e : q = p
    · subst e; simp [hm]
    · have h1 := hd q p e _ hm
      have h2 : r.id ≠ id := fun e' => hid q e (e' ▸ hm)
      simp [h1, h2, e]
  | _ => trivial

/-- **C84** (processes in `ingest`) Each process is given records that no other process is given. At every moment of any schedule, also
with commits in between, a process is in the state it would be in if it were alone with the commits (so it has raised the same or
counted the same), and the same holds for the documents of its records. -/
theorem C84_alone (U : Unicode) (c : Coll) (calls : Nat → Option PyStr × List Record) (hd : DisjointIds (fun p => (calls p).2))
    (acts : List ProcsAct) (p : Nat) :
    let start : ProcsState := ⟨c, fun p => .start 200 (calls p).1 (calls p).2⟩
    let together := start.run U 200 acts
    let alone := start.run U 200 (acts.filter (ProcsAct.ofOrCommit p))
    together.procs p = alone.procs p ∧ ∀ r ∈ (calls p).2, docsWith r.id together.coll = docsWith r.id alone.coll := by
  intro start together alone
  have h := SameView.run (own := fun id => decide (id ∈ (calls p).2.map Record.id)) (p := p) U 200 acts (st := start) (st' := start)
    ⟨start_within (by omega) (fun r hr => by simpa using ⟨r, hr, rfl⟩), fun q hq => start_within (by omega) (fun r hr => by
      simp only [decide_eq_false_iff_not, List.mem_map, not_exists, not_and]
      intro r' hr' e
      exact hd p q (Ne.symm hq) r' hr' r hr e)⟩ ⟨rfl, rfl⟩
  refine ⟨h.proc, fun r hr => docsWith_own ?_ h.coll⟩
  simpa using ⟨r, hr, rfl⟩

/-- **C84** (and a record none of them is given) The documents of the other records are only changed by the commits. -/
theorem C84_others (U : Unicode) (c : Coll) (calls : Nat → Option PyStr × List Record) (acts : List ProcsAct) (id : PyStr)
    (hid : ∀ p, ∀ r ∈ (calls p).2, r.id ≠ id) :
    let start : ProcsState := ⟨c, fun p => .start 200 (calls p).1 (calls p).2⟩
    docsWith id (start.run U 200 acts).coll = docsWith id (start.run U 200 (acts.filter ProcsAct.isCommit)).coll := by
  intro start
  refine docsWith_own (own := fun x => decide (x = id)) (by simp) (untouched_run U 200 acts (fun q => ?_) rfl)
  exact start_within (by omega) (fun r hr => by simpa using hid q r hr)

/-- **C84** (to the end) When all have finished, in whatever order their steps came, the documents of every record are those that the
ingests would have left one after another, in any order, and each has returned the counts it would have returned alone. -/
theorem C84_ingests (U : Unicode) (c : Coll) (calls : Nat → Option PyStr × List Record) (hd : DisjointIds (fun p => (calls p).2))
    (order : List Nat) (hn : order.Nodup) (hall : ∀ p, (calls p).2 ≠ [] → p ∈ order)
    (acts : List ProcsAct) (hc : ∀ a ∈ acts, a.isCommit = false) :
    let together := ProcsState.run U 200 ⟨c, fun p => .start 200 (calls p).1 (calls p).2⟩ acts
    (∀ p ∈ order, (together.procs p).finished = true) →
    (∃ c', ingestAll U c (order.map calls) = .ok c' ∧ ∀ id, docsWith id together.coll = docsWith id c') ∧
    ∀ p ∈ order, ingestCounts U (calls p).1 c (calls p).2 = .ok (together.procs p).counts := by
  intro together hf
  have solo : ∀ p ∈ order, ∃ s, ingestSized U (calls p).1 200 c (calls p).2 = .ok s ∧
      (together.procs p).counts = batchCounts c s.written ∧
      ∀ r ∈ (calls p).2, docsWith r.id together.coll = docsWith r.id s.coll := by
    intro p hp
    have ha := C84_alone U c calls hd acts p
    dsimp only at ha
    obtain ⟨n, e⟩ := filter_steps (p := p) hc
    rw [e] at ha
    obtain ⟨h1, h2⟩ := run_steps U 200 p n ⟨c, fun p => .start 200 (calls p).1 (calls p).2⟩
    dsimp only at h1 h2
    rw [h1, h2] at ha
    have hf' := hf p hp
    have e1 : together.procs p = _ := ha.1
    rw [e1] at hf'
    obtain ⟨s, k1, k2, k3⟩ := solo_finished hf'
    refine ⟨s, k1, by rw [e1, k3], fun r hr => ?_⟩
    rw [← k2]
    exact ha.2 r hr
  refine ⟨?_, ?_⟩
  · obtain ⟨c', h1, h2, h3⟩ := ingestAll_view hd order hn (c := c) (c1 := c) (fun _ _ => rfl) (fun p hp => by
      obtain ⟨s, k, _⟩ := solo p hp
      exact ⟨s.coll, ingest_eq.2 ⟨s, k, rfl⟩⟩)
    refine ⟨c', h1, fun id => ?_⟩
    by_cases hid : ∃ p ∈ order, ∃ r ∈ (calls p).2, r.id = id
    · obtain ⟨p, hp, r, hr, rfl⟩ := hid
      obtain ⟨s, k1, _, k2⟩ := solo p hp
      rw [k2 r hr]
      refine docsWith_own (own := fun id => decide (id ∈ (calls p).2.map Record.id)) ?_ (h2 p hp s.coll (ingest_eq.2 ⟨s, k1, rfl⟩)).symm
      simpa using ⟨r, hr, rfl⟩
    · have hid' : ∀ p, ∀ r ∈ (calls p).2, r.id ≠ id := fun p r hr e =>
        hid ⟨p, hall p (List.ne_nil_of_mem hr), r, hr, e⟩
      have e1 := C84_others U c calls acts id hid'
      dsimp only at e1
      rw [List.filter_eq_nil_iff.2 (fun a ha => by rw [hc a ha]; exact Bool.false_ne_true)] at e1
      refine e1.trans ?_
      refine docsWith_own (own := fun x => decide (x = id)) (by simp) (h3 _ (fun p _ r hr => ?_)).symm
      simpa using hid' p r hr
  · intro p hp
    obtain ⟨s, k1, k2, _⟩ := solo p hp
    unfold ingestCounts
    rw [k1, k2]
    rfl

/-- Two processes and what they are given. -/
def exProcs : Nat → Option PyStr × List Record
  | 1 => (none, [exRec ['a'] 1, exRec ['b'] 2])
  | 2 => (none, [exRec ['c'] 3, exRec ['d'] 4])
  | _ => (none, [])

/-- Their steps in turns. -/
def exTurns : List ProcsAct := (List.replicate 9 [.step 1, .step 2]).flatten

theorem exProcs_disjoint : DisjointIds (fun p => (exProcs p).2) := by
  intro p q h r hr r' hr'
  match p, q with
  | 1, 1 => exact absurd rfl h
  | 2, 2 => exact absurd rfl h
  | 1, 2 | 2, 1 =>
    simp only [exProcs, List.mem_cons, List.not_mem_nil, or_false] at hr hr'
    rcases hr with rfl | rfl <;> rcases hr' with rfl | rfl <;> decide
  | 0, _ => cases hr
  | 1, 0 => cases hr'
  | 2, 0 => cases hr'
  | n + 3, _ => cases hr
  | 1, n + 3 => cases hr'
  | 2, n + 3 => cases hr'

set_option maxRecDepth 100000 in
/-- They finish, and their writes alternate. -/
example : (∀ a ∈ exTurns, a.isCommit = false) ∧
    (let together := ProcsState.run asciiU 200 ⟨[], fun p => .start 200 (exProcs p).1 (exProcs p).2⟩ exTurns
     (∀ p ∈ [1, 2], (together.procs p).finished = true) ∧
       together.coll.map (·.id) = [['a'], ['c'], ['b'], ['d']] ∧ (together.procs 1).counts = ⟨2, 0, 0⟩) := by
  decide +kernel

set_option maxRecDepth 100000 in
/-- A commit that stops half way and then one that gets through: each commits what is written and uncommitted at the moment. -/
example : ((ProcsState.run asciiU 200 ⟨[], fun p => .start 200 (exProcs p).1 (exProcs p).2⟩
    (exTurns ++ [.commit 5 (fun id => decide (id = ['c'])), .commit 6 (fun _ => true)])).coll.map (fun r => (r.id, r.version))) =
      [(['a'], some 6), (['c'], some 5), (['b'], some 6), (['d'], some 6)] := by
  decide +kernel

/-- Two processes with different records, of which one dies between its writes. -/
def exApart : List ConcAct :=
  [.lookup 1 none [exRec ['a'] 1, exRec ['b'] 2], .lookup 2 none [exRec ['c'] 3], .write 1, .stop 1, .commit 5 (fun _ => true),
   .write 2, .write 1]

example : NoRollback exApart ∧ (∀ id ∈ lookedUp 1 exApart, id ∉ lookedUp 2 exApart) ∧
    (ConcState.run asciiU { coll := [] } exApart).coll.map (fun d => (d.id, d.version)) = [(['a'], some 5), (['c'], none)] := by
  refine ⟨fun p => by simp [exApart], by decide, by decide⟩

/-- With a common record this does not hold: process 1 alone would leave another document of record `a`. -/
example : docsWith ['a'] (ConcState.run asciiU {} (exRace ++ [ConcAct.write 2])).coll ≠
    docsWith ['a'] (ConcState.run asciiU {} ((exRace ++ [ConcAct.write 2]).filter (ConcAct.ofOrCommit 1))).coll := by decide

end Splitgill.Props
