import Verif.Proof.IngestSteps
import Verif.Props.WriterHist
/-!
# C124: an ingest works piece by piece and waits for nobody

`startWriters calls m` are processes that each begin `ingest(records, commit, modified_field)`, in any state `m` of MongoDB, and `run` runs any
schedule of their commands.
-/

namespace Splitgill.Props
open Splitgill

/-- **C124** (ends) An ingest of `n` records has looked up and written all of them after `3 * n + 1` steps of its own, or has raised, whatever is in
the database and whatever others do in between. -/
theorem C124_ends (U : Unicode) (db : PyStr) (calls : Nat → Option PyStr × List Record × Bool) (m : Mongo) (acts : List WriterAct) (p : Nat)
    (h : Undisturbed p acts) (hn : 3 * (calls p).2.1.length + 1 ≤ acts.countP (WriterAct.isStep p)) :
    (((startWriters calls m).run U 200 db acts).procs p).ingest.finished = true ∨
      (((startWriters calls m).run U 200 db acts).procs p).ingest.raised.isSome = true := by
  rcases work_run (U := U) (size := 200) (db := db) acts (s := startWriters calls m) h rfl (by rintro (h | h) <;> cases h) with h1 | h1 | h1
  · exact .inl h1
  · exact .inr h1
  · have h2 : ((startWriters calls m).procs p).ingest.work ≤ 3 * (calls p).2.1.length + 1 := start_work _ _
    have h3 : (((startWriters calls m).run U 200 db acts).procs p).ingest.work = 0 := by omega
    generalize ((startWriters calls m).run U 200 db acts).procs p = w at h3 ⊢
    cases hr : w.ingest.raised with
    | some e => exact .inr rfl
    | none =>
      left
      unfold IngestProc.work at h3
      have h4 : w.ingest.writing.length = 0 := by omega
      have h5 : (w.ingest.buf.isEmpty && w.ingest.ops.isEmpty && w.ingest.chunks.isEmpty) = true := by
        by_contra hc
        rw [if_neg hc] at h3
        omega
      rw [Bool.and_eq_true, Bool.and_eq_true] at h5
      rw [IngestProc.finished, h5.1.1, h5.1.2, h5.2, hr, List.isEmpty_iff.2 (List.length_eq_zero_iff.1 h4)]
      rfl

/-- **C124** (does not raise) In a database that is used as the library does, no ingest raises by itself, at no moment of no schedule. So it has
written all its records after `3 * n + 1` steps. -/
theorem C124_returns (U : Unicode) (db : PyStr) (before : List ApiCall) (calls : Nat → Option PyStr × List Record × Bool) (acts : List WriterAct)
    (h : WritersOk U db before calls acts) (p : Nat) :
    ((afterWriters U db before calls acts).procs p).ingest.raised = none ∧
    (Undisturbed p acts → 3 * (calls p).2.1.length + 1 ≤ acts.countP (WriterAct.isStep p) →
      ((afterWriters U db before calls acts).procs p).ingest.finished = true) := by
  refine ⟨no_raise h p, fun h1 h2 => ?_⟩
  rcases C124_ends U db calls (afterCalls U db before) acts p h1 h2 with h3 | h3
  · exact h3
  · have := no_raise h p
    unfold afterWriters at this
    rw [this] at h3
    cases h3

/-- **C124** (held) At every moment the records not looked up yet are the last ones of those given, and the next `find` will ask for at most 200 of
them; at most 200 operations are with `generate_ops`, fewer than 200 wait to be sent, and at most 200 are sent at once. -/
theorem C124_held (U : Unicode) (db : PyStr) (calls : Nat → Option PyStr × List Record × Bool) (m : Mongo) (acts : List WriterAct) (p : Nat)
    (i : IngestProc) (hi : i = (((startWriters calls m).run U 200 db acts).procs p).ingest) :
    i.chunks.flatten <:+ (calls p).2.1 ∧ (∀ chunk ∈ i.chunks, chunk ≠ [] ∧ chunk.length ≤ 200) ∧
    i.ops.length ≤ 200 ∧ i.buf.length < 200 ∧ i.writing.length ≤ 200 := by
  have h := held_run (U := U) (size := 200) (db := db) (p := p) (by omega) acts (s := startWriters calls m) (start_held (calls p).2.1 (calls p).1)
  rw [hi]
  exact ⟨h.suffix, h.chunks, h.ops, h.buf, h.writing⟩

/-! ## Examples -/

set_option maxRecDepth 100000 in
/-- Process 1 has two records: after six of its steps (of the seven allowed) it has written both, while process 2 commits in between. -/
example : Undisturbed 1 (exWriterSteps 1 5 none 3 ++ exWriterCommit 2 5 5 2 ++ exWriterSteps 1 9 none 4) ∧
    (exWriterSteps 1 5 none 3 ++ exWriterCommit 2 5 5 2 ++ exWriterSteps 1 9 none 4).countP (WriterAct.isStep 1) = 7 ∧ (exWriters 1).2.1.length = 2 ∧
    ((afterWriters asciiU [] exBefore exWriters (exWriterSteps 1 5 none 3 ++ exWriterCommit 2 5 5 2)).procs 1).ingest.buf.length = 2 ∧
    ((afterWriters asciiU [] exBefore exWriters (exWriterSteps 1 5 none 3 ++ exWriterCommit 2 5 5 2 ++ exWriterSteps 1 9 none 4)).procs 1).ingest.finished = true := by
  refine ⟨fun a ha => ?_, by decide +kernel, by decide +kernel, by decide +kernel, by decide +kernel⟩
  simp only [exWriterCommit, exWriterSteps, List.mem_append, List.mem_replicate] at ha
  constructor <;> rintro rfl <;> simp at ha

set_option maxRecDepth 100000 in
/-- A record in the database whose diffs do not fit its data (which the library does not write) makes an ingest raise. -/
example : ((((startWriters (fun _ => (none, [exRec ['a'] 5], true))
      (Mongo.empty.setData [] [{ id := ['a'], version := none, data := [], diffs := [(1, [⟨[.key ['x']], { dd := some [['y']] }⟩])] }])).run asciiU 200 []
        (List.replicate 4 (.step 1 5 none))).procs 1).ingest.raised).isSome = true := by decide +kernel

end Splitgill.Props
