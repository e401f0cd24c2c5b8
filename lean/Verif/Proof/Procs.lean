import Verif.Spec.Procs
import Verif.Proof.Concurrent
/-!
# Processes that ingest different records do not see each other
-/

namespace Splitgill

/-- The documents of the records in `own`. -/
abbrev ownDocs (own : PyStr → Bool) (c : Coll) : Coll := c.filter (fun d => own d.id)

variable {own : PyStr → Bool}

/-! ## One operation -/

theorem updateFirst_own {id : PyStr} {f : MongoRecord → MongoRecord} (hf : ∀ d, (f d).id = d.id) (h : own id = true) :
    ∀ c : Coll, ownDocs own (updateFirst id f c) = updateFirst id f (ownDocs own c)
  | [] => rfl
  | d :: c => by
    rw [updateFirst]
    by_cases e : d.id = id
    · have h1 : own d.id = true := by rw [e]; exact h
      simp only [ownDocs, if_pos e]
      rw [List.filter_cons_of_pos (by simpa [hf] using h1), List.filter_cons_of_pos (by simpa using h1), updateFirst, if_pos e]
    · simp only [ownDocs, if_neg e]
      by_cases h1 : own d.id = true
      · rw [List.filter_cons_of_pos (by simpa using h1), List.filter_cons_of_pos (by simpa using h1), updateFirst, if_neg e]
        exact congrArg _ (updateFirst_own hf h c)
      · rw [List.filter_cons_of_neg (by simpa using h1), List.filter_cons_of_neg (by simpa using h1)]
        exact updateFirst_own hf h c

theorem updateFirst_other {id : PyStr} {f : MongoRecord → MongoRecord} (hf : ∀ d, (f d).id = d.id) (h : own id = false) :
    ∀ c : Coll, ownDocs own (updateFirst id f c) = ownDocs own c
  | [] => rfl
  | d :: c => by
    rw [updateFirst]
    by_cases e : d.id = id
    · have h1 : ¬ own d.id = true := by rw [e, h]; exact Bool.false_ne_true
      simp only [ownDocs, if_pos e]
      rw [List.filter_cons_of_neg (by simpa [hf] using h1), List.filter_cons_of_neg (by simpa using h1)]
    · simp only [ownDocs, if_neg e]
      rw [List.filter_cons, List.filter_cons]
      have := updateFirst_other hf h c
      simp only [ownDocs] at this
      rw [this]

theorem deleteFirst_own {id : PyStr} (h : own id = true) :
    ∀ c : Coll, ownDocs own (deleteFirst id c) = deleteFirst id (ownDocs own c)
  | [] => rfl
  | d :: c => by
    rw [deleteFirst]
    by_cases e : d.id = id
    · have h1 : own d.id = true := by rw [e]; exact h
      simp only [ownDocs, if_pos e]
      rw [List.filter_cons_of_pos (by simpa using h1), deleteFirst, if_pos e]
    · simp only [ownDocs, if_neg e]
      by_cases h1 : own d.id = true
      · rw [List.filter_cons_of_pos (by simpa using h1), List.filter_cons_of_pos (by simpa using h1), deleteFirst, if_neg e]
        exact congrArg _ (deleteFirst_own h c)
      · rw [List.filter_cons_of_neg (by simpa using h1), List.filter_cons_of_neg (by simpa using h1)]
        exact deleteFirst_own h c

theorem deleteFirst_other {id : PyStr} (h : own id = false) :
    ∀ c : Coll, ownDocs own (deleteFirst id c) = ownDocs own c
  | [] => rfl
  | d :: c => by
    rw [deleteFirst]
    by_cases e : d.id = id
    · have h1 : ¬ own d.id = true := by rw [e, h]; exact Bool.false_ne_true
      simp only [ownDocs, if_pos e]
      rw [List.filter_cons_of_neg (by simpa using h1)]
    · simp only [ownDocs, if_neg e]
      rw [List.filter_cons, List.filter_cons]
      have := deleteFirst_other h c
      simp only [ownDocs] at this
      rw [this]

theorem applyOp_own (c : Coll) {o : MongoOp} (h : own o.id = true) : ownDocs own (applyOp c o) = applyOp (ownDocs own c) o := by
  cases o with
  | insert id data =>
    have h : own id = true := h
    simp [applyOp, ownDocs, h]
  | setData id data => exact updateFirst_own (f := _) (by exact fun _ => rfl) h c
  | setDiff id data v ch => exact updateFirst_own (f := _) (by exact fun _ => rfl) h c
  | revert id data v all => exact updateFirst_own (f := _) (by exact fun _ => rfl) h c
  | delete id => exact deleteFirst_own h c

theorem applyOp_other (c : Coll) {o : MongoOp} (h : own o.id = false) : ownDocs own (applyOp c o) = ownDocs own c := by
  cases o with
  | insert id data =>
    have h : own id = false := h
    simp [applyOp, ownDocs, h]
  | setData id data => exact updateFirst_other (f := _) (by exact fun _ => rfl) h c
  | setDiff id data v ch => exact updateFirst_other (f := _) (by exact fun _ => rfl) h c
  | revert id data v all => exact updateFirst_other (f := _) (by exact fun _ => rfl) h c
  | delete id => exact deleteFirst_other h c

theorem commitCrash_own (v : Int) (done : PyStr → Bool) (c : Coll) :
    ownDocs own (commitCollCrash v done c) = commitCollCrash v done (ownDocs own c) := by
  unfold commitCollCrash ownDocs
  rw [List.filter_map]
  congr 1
  apply List.filter_congr
  intro d _
  simp only [Function.comp]
  split <;> rfl

/-! ## A lookup -/

theorem lookupExisting_own {id : PyStr} (h : own id = true) (c : Coll) :
    lookupExisting (ownDocs own c) id = lookupExisting c id := by
  unfold lookupExisting
  generalize (none : Option MongoRecord) = acc
  induction c generalizing acc with
  | nil => rfl
  | cons d c ih =>
    by_cases h1 : own d.id = true
    · simp only [ownDocs] at ih ⊢
      rw [List.filter_cons_of_pos (by simpa using h1), List.foldl_cons, List.foldl_cons]
      exact ih _
    · simp only [ownDocs] at ih ⊢
      rw [List.filter_cons_of_neg (by simpa using h1), List.foldl_cons, if_neg (fun e => h1 (by rw [e]; exact h))]
      exact ih _

theorem lookupExisting_id {c : Coll} {id : PyStr} {d : MongoRecord} (h : lookupExisting c id = some d) : d.id = id := by
  unfold lookupExisting at h
  have : ∀ acc : Option MongoRecord, (∀ x, acc = some x → x.id = id) →
      c.foldl (fun acc d => if d.id = id then some d else acc) acc = some d → d.id = id := by
    clear h
    induction c with
    | nil => intro acc ha h; exact ha _ h
    | cons x c ih =>
      intro acc ha h
      rw [List.foldl_cons] at h
      refine ih _ ?_ h
      intro y hy
      split at hy
      · next e => cases hy; exact e
      · exact ha y hy
  exact this none (nofun) h

theorem find_own {id : PyStr} (h : own id = true) (c : Coll) :
    (ownDocs own c).find? (fun d => decide (d.id = id)) = c.find? (fun d => decide (d.id = id)) := by
  unfold ownDocs
  rw [List.find?_filter]
  congr 1
  funext d
  by_cases e : d.id = id
  · simp [e, h]
  · simp [e]

theorem collectOps_congr {f g : Record → Except PyErr (Option MongoOp)} :
    ∀ {rs : List Record}, (∀ r ∈ rs, f r = g r) → collectOps f rs = collectOps g rs
  | [], _ => rfl
  | r :: rs, h => by
    rw [collectOps, collectOps, h r (by simp), collectOps_congr (fun x hx => h x (by simp [hx]))]

theorem collectOps_mem {f : Record → Except PyErr (Option MongoOp)} :
    ∀ {rs : List Record} {ops : List MongoOp}, collectOps f rs = .ok ops → ∀ o ∈ ops, ∃ r ∈ rs, f r = .ok (some o)
  | [], ops, h => by cases h; simp
  | r :: rs, ops, h => by
    rw [collectOps] at h
    cases h1 : f r with
    | error e => rw [h1] at h; cases h
    | ok op =>
      cases h2 : collectOps f rs with
      | error e => rw [h1, h2] at h; cases h
      | ok os =>
        rw [h1, h2] at h
        cases h
        intro o ho
        rw [List.mem_append] at ho
        rcases ho with ho | ho
        · rw [Option.mem_toList] at ho
          exact ⟨r, by simp, by rw [h1, ho]⟩
        · obtain ⟨x, hx, e⟩ := collectOps_mem h2 o ho
          exact ⟨x, by simp [hx], e⟩

theorem recordsById_mem {chunk : List Record} {r : Record} (h : r ∈ recordsById chunk) : r ∈ chunk := recordsById_sub h

theorem opFor_id {U : Unicode} {mf : Option PyStr} {ex : Option MongoRecord} {r : Record} {o : MongoOp}
    (hex : ∀ d, ex = some d → d.id = r.id) (h : opFor U mf ex r = .ok (some o)) : o.id = r.id := by
  cases ex with
  | none =>
    simp only [opFor] at h
    split at h
    · cases h
    · cases h; rfl
  | some d =>
    have hd := hex d rfl
    simp only [opFor, opForExisting] at h
    split at h
    · split at h
      · cases h; rfl
      · split at h
        · cases h
        · split at h
          · cases h
          · cases h; rfl
    · split at h
      · cases h
      · next e1 rop hr =>
        unfold opForCommitted at h
        split at h
        · cases h
        · split at h
          · obtain ⟨op, h1, rfl⟩ := Option.map_eq_some_iff.1 (Except.ok.inj h)
            unfold revertIfPending at hr
            split at hr
            · cases hr
            · next r1 op1 hrr =>
              cases hr
              cases h1
              unfold revertRecord at hrr
              split at hrr
              · cases hrr
              · split at hrr
                · cases hrr
                · split at hrr
                  · cases hrr
                  · split at hrr
                    · cases hrr
                    · cases hrr; exact hd
            · cases hr; cases h1
          · split at h
            · cases h; rfl
            · cases h

theorem chunkOps_own {U : Unicode} {mf : Option PyStr} {chunk : List Record} (h : ∀ r ∈ chunk, own r.id = true) (c : Coll) :
    chunkOps U mf (ownDocs own c) chunk = chunkOps U mf c chunk := by
  unfold chunkOps
  apply collectOps_congr
  intro r hr
  rw [lookupExisting_own (h r (recordsById_mem hr))]

theorem chunkOps_ids {U : Unicode} {mf : Option PyStr} {chunk : List Record} {c : Coll} {ops : List MongoOp}
    (h : chunkOps U mf c chunk = .ok ops) : ∀ o ∈ ops, ∃ r ∈ chunk, r.id = o.id := by
  intro o ho
  obtain ⟨r, hr, e⟩ := collectOps_mem h o ho
  exact ⟨r, recordsById_mem hr, (opFor_id (fun d hd => lookupExisting_id hd) e).symm⟩

/-! ## One process -/

/-- Everything the process has to do with has an id in `S`. -/
structure IngestProc.Within (S : PyStr → Prop) (p : IngestProc) : Prop where
  chunks : ∀ ch ∈ p.chunks, ∀ r ∈ ch, S r.id
  ops : ∀ o ∈ p.ops, S o.id
  buf : ∀ o ∈ p.buf, S o.id
  writing : ∀ o ∈ p.writing, S o.id

theorem IngestProc.Within.step {S : PyStr → Prop} {p : IngestProc} (h : p.Within S) (U : Unicode) (size : Nat) (c : Coll) :
    (p.step U size c).2.Within S := by
  obtain ⟨mf, chunks, ops, buf, writing, counts, raised⟩ := p
  obtain ⟨h1, h2, h3, h4⟩ := h
  dsimp only at h1 h2 h3 h4
  unfold IngestProc.step
  cases raised with
  | some e => exact ⟨h1, h2, h3, h4⟩
  | none =>
    cases writing with
    | cons o rest => exact ⟨h1, h2, h3, fun x hx => h4 x (List.mem_cons_of_mem _ hx)⟩
    | nil =>
      cases ops with
      | cons o rest =>
        have hb : ∀ x ∈ buf ++ [o], S x.id := by
          intro x hx
          rw [List.mem_append, List.mem_singleton] at hx
          rcases hx with hx | rfl
          · exact h3 x hx
          · exact h2 x (by simp)
        dsimp only
        split
        · exact ⟨h1, fun x hx => h2 x (List.mem_cons_of_mem _ hx), hb, h4⟩
        · exact ⟨h1, fun x hx => h2 x (List.mem_cons_of_mem _ hx), nofun, hb⟩
      | nil =>
        cases chunks with
        | nil => exact ⟨h1, h2, nofun, h3⟩
        | cons chunk rest =>
          dsimp only
          split
          · exact ⟨h1, h2, h3, h4⟩
          · next os e =>
            refine ⟨fun ch hch => h1 ch (List.mem_cons_of_mem _ hch), ?_, h3, h4⟩
            intro o ho
            obtain ⟨r, hr, e⟩ := chunkOps_ids e o ho
            rw [← e]
            exact h1 chunk (by simp) r hr

theorem IngestProc.step_own {p : IngestProc} (h : p.Within (fun id => own id = true)) (U : Unicode) (size : Nat) (c : Coll) :
    p.step U size (ownDocs own c) = (ownDocs own (p.step U size c).1, (p.step U size c).2) := by
  obtain ⟨mf, chunks, ops, buf, writing, counts, raised⟩ := p
  obtain ⟨h1, h2, h3, h4⟩ := h
  dsimp only at h1 h2 h3 h4
  unfold IngestProc.step
  cases raised with
  | some e => rfl
  | none =>
    cases writing with
    | cons o rest =>
      have := h4 o (by simp)
      dsimp only
      rw [applyOp_own _ this, find_own this]
    | nil =>
      cases ops with
      | cons o rest =>
        dsimp only
        split <;> rfl
      | nil =>
        cases chunks with
        | nil => rfl
        | cons chunk rest =>
          dsimp only
          rw [chunkOps_own (h1 chunk (by simp))]
          split <;> rfl

theorem IngestProc.step_other {p : IngestProc} (h : p.Within (fun id => own id = false)) (U : Unicode) (size : Nat) (c : Coll) :
    ownDocs own (p.step U size c).1 = ownDocs own c := by
  obtain ⟨mf, chunks, ops, buf, writing, counts, raised⟩ := p
  obtain ⟨h1, h2, h3, h4⟩ := h
  dsimp only at h1 h2 h3 h4
  unfold IngestProc.step
  cases raised with
  | some e => rfl
  | none =>
    cases writing with
    | cons o rest => exact applyOp_other c (h4 o (by simp))
    | nil =>
      cases ops with
      | cons o rest =>
        dsimp only
        split <;> rfl
      | nil =>
        cases chunks with
        | nil => rfl
        | cons chunk rest =>
          dsimp only
          split <;> rfl

/-! ## Schedules -/

/-- What process `p` has to do with is in `own`, what the others have to do with is not. -/
def ProcsState.Split (own : PyStr → Bool) (p : Nat) (st : ProcsState) : Prop :=
  (st.procs p).Within (fun id => own id = true) ∧ ∀ q, q ≠ p → (st.procs q).Within (fun id => own id = false)

theorem ProcsState.Split.act {p : Nat} {st : ProcsState} (h : st.Split own p) (U : Unicode) (size : Nat) (a : ProcsAct) :
    (st.act U size a).Split own p := by
  cases a with
  | commit v done => exact h
  | step q =>
    constructor
    · simp only [ProcsState.act]
      split
      · next e => subst e; exact h.1.step U size _
      · exact h.1
    · intro r hr
      simp only [ProcsState.act]
      split
      · next e => subst e; exact (h.2 r hr).step U size _
      · exact h.2 r hr

/-- Process `p` is in the same state and sees the same documents of its records as in another schedule. -/
structure SameView (own : PyStr → Bool) (p : Nat) (st st' : ProcsState) : Prop where
  coll : ownDocs own st.coll = ownDocs own st'.coll
  proc : st.procs p = st'.procs p

theorem SameView.run {p : Nat} (U : Unicode) (size : Nat) :
    ∀ (acts : List ProcsAct) {st st' : ProcsState}, st.Split own p → SameView own p st st' →
      SameView own p (st.run U size acts) (st'.run U size (acts.filter (ProcsAct.ofOrCommit p)))
  | [], _, _, _, h => h
  | a :: acts, st, st', hs, h => by
    have hs' := hs.act U size a
    cases a with
    | commit v done =>
      rw [List.filter_cons_of_pos rfl]
      refine SameView.run U size acts hs' ⟨?_, h.proc⟩
      simp only [ProcsState.act]
      rw [commitCrash_own, h.coll, commitCrash_own]
    | step q =>
      by_cases e : q = p
      · subst e
        rw [List.filter_cons_of_pos (by simp [ProcsAct.ofOrCommit])]
        have h1 := IngestProc.step_own hs.1 U size st.coll
        have h2 := IngestProc.step_own (h.proc ▸ hs.1) U size st'.coll
        rw [h.coll, h.proc, h2] at h1
        refine SameView.run U size acts hs' ⟨?_, ?_⟩
        · simp only [ProcsState.act]
          rw [h.proc]
          exact (Prod.ext_iff.1 h1).1.symm
        · simp only [ProcsState.act, if_true]
          rw [h.proc]
          exact (Prod.ext_iff.1 h1).2.symm
      · rw [List.filter_cons_of_neg (by simp [ProcsAct.ofOrCommit, e])]
        refine SameView.run U size acts hs' ⟨?_, ?_⟩
        · simp only [ProcsState.act]
          rw [IngestProc.step_other (hs.2 q e), h.coll]
        · simp only [ProcsState.act]
          rw [if_neg (fun h => e h.symm), h.proc]

/-- The documents of records nobody has to do with. -/
theorem untouched_run (U : Unicode) (size : Nat) :
    ∀ (acts : List ProcsAct) {st st' : ProcsState}, (∀ q, (st.procs q).Within (fun id => own id = false)) →
      ownDocs own st.coll = ownDocs own st'.coll →
      ownDocs own (st.run U size acts).coll = ownDocs own (st'.run U size (acts.filter ProcsAct.isCommit)).coll
  | [], _, _, _, h => h
  | a :: acts, st, st', hs, h => by
    have hs' : ∀ q, ((st.act U size a).procs q).Within (fun id => own id = false) := by
      intro q
      cases a with
      | commit v done => exact hs q
      | step r =>
        simp only [ProcsState.act]
        split
        · next e => subst e; exact (hs q).step U size _
        · exact hs q
    cases a with
    | commit v done =>
      rw [List.filter_cons_of_pos rfl]
      refine untouched_run U size acts hs' ?_
      simp only [ProcsState.act]
      rw [commitCrash_own, h, commitCrash_own]
    | step q =>
      rw [List.filter_cons_of_neg (by simp [ProcsAct.isCommit])]
      refine untouched_run U size acts hs' ?_
      simp only [ProcsState.act]
      rw [IngestProc.step_other (hs q), h]

/-! ## A process alone -/

/-- `n` steps of a process that is alone. -/
def soloSteps (U : Unicode) (size : Nat) : Nat → Coll × IngestProc → Coll × IngestProc
  | 0, x => x
  | n + 1, x => soloSteps U size n (x.2.step U size x.1)

theorem soloSteps_add (U : Unicode) (size : Nat) : ∀ (m n : Nat) (x : Coll × IngestProc),
    soloSteps U size (m + n) x = soloSteps U size n (soloSteps U size m x)
  | 0, n, x => by rw [Nat.zero_add]; rfl
  | m + 1, n, x => by
    rw [Nat.succ_add_eq_add_succ m n, show m + (n + 1) = (m + n) + 1 by omega]
    exact soloSteps_add U size m n _

/-- Nothing happens any more. -/
def IngestProc.ended (p : IngestProc) : Bool := p.finished || p.raised.isSome

theorem IngestProc.finished_iff {p : IngestProc} : p.finished = true ↔
    p.chunks = [] ∧ p.ops = [] ∧ p.buf = [] ∧ p.writing = [] ∧ p.raised = none := by
  simp [IngestProc.finished, and_assoc]

theorem IngestProc.ended_step {p : IngestProc} (h : p.ended = true) (U : Unicode) (size : Nat) (c : Coll) :
    p.step U size c = (c, p) := by
  obtain ⟨mf, chunks, ops, buf, writing, counts, raised⟩ := p
  unfold IngestProc.ended at h
  rw [Bool.or_eq_true, IngestProc.finished_iff] at h
  dsimp only at h
  rcases h with ⟨rfl, rfl, rfl, rfl, rfl⟩ | h
  · rfl
  · cases raised with
    | none => cases h
    | some e => rfl

theorem soloSteps_ended {x : Coll × IngestProc} (h : x.2.ended = true) (U : Unicode) (size : Nat) :
    ∀ n, soloSteps U size n x = x
  | 0 => rfl
  | n + 1 => by
    rw [soloSteps, IngestProc.ended_step h]
    exact soloSteps_ended h U size n

/-- Two ends are the same. -/
theorem soloSteps_det {U : Unicode} {size : Nat} {x : Coll × IngestProc} {m n : Nat} (hm : (soloSteps U size m x).2.ended = true)
    (hn : (soloSteps U size n x).2.ended = true) : soloSteps U size m x = soloSteps U size n x := by
  have h1 : soloSteps U size (m + n) x = soloSteps U size m x := by rw [soloSteps_add, soloSteps_ended hm]
  have h2 : soloSteps U size (n + m) x = soloSteps U size n x := by rw [soloSteps_add, soloSteps_ended hn]
  rw [← h1, ← h2, Nat.add_comm]

theorem Counts.add_zero' (a : Counts) : a.add {} = a := by simp [Counts.add]

theorem batchCounts_append : ∀ (w : List (List MongoOp)) (c : Coll) (b : List MongoOp),
    batchCounts c (w ++ [b]) = (batchCounts c w).add (bulkCounts (bulkWrite c w.flatten) b)
  | [], c, b => by simp [batchCounts, Counts.add_zero', Counts.zero_add, bulkWrite]
  | x :: w, c, b => by
    rw [List.cons_append, batchCounts, batchCounts_append w, batchCounts, Counts.add_assoc, List.flatten_cons, bulkWrite, bulkWrite,
      bulkWrite, List.foldl_append]

/-- Writing a list. -/
theorem solo_write (U : Unicode) (size : Nat) : ∀ (ws : List MongoOp) (c : Coll) (p : IngestProc), p.raised = none → p.writing = ws →
    soloSteps U size ws.length (c, p) =
      (bulkWrite c ws, { p with writing := [], counts := p.counts.add (bulkCounts c ws) })
  | [], c, p, _, hw => by
    obtain ⟨mf, chunks, ops, buf, writing, counts, raised⟩ := p
    cases hw
    simp [soloSteps, bulkWrite, bulkCounts, Counts.add_zero']
  | o :: ws, c, p, hr, hw => by
    obtain ⟨mf, chunks, ops, buf, writing, counts, raised⟩ := p
    cases hw
    cases hr
    rw [List.length_cons, soloSteps]
    simp only [IngestProc.step]
    rw [solo_write U size ws _ _ rfl rfl]
    simp [bulkWrite, bulkCounts, Counts.add_assoc]

/-- The state of a process between two operations of the loop. -/
structure ProcAt (c0 : Coll) (s : IngestState) (x : Coll × IngestProc) : Prop where
  coll : x.1 = s.coll
  buf : x.2.buf = s.buf
  writing : x.2.writing = []
  raised : x.2.raised = none
  counts : x.2.counts = batchCounts c0 s.written
  written : s.coll = bulkWrite c0 s.written.flatten

theorem ProcAt.flush {c0 : Coll} {s : IngestState} {c : Coll} {p : IngestProc} (h : c = s.coll)
    (hw : p.writing = s.buf) (hr : p.raised = none) (hb : p.buf = []) (hc : p.counts = batchCounts c0 s.written)
    (hs : s.coll = bulkWrite c0 s.written.flatten) (U : Unicode) (size : Nat) :
    ∃ n x, soloSteps U size n (c, p) = x ∧ ProcAt c0 s.flush x ∧ x.2.ops = p.ops ∧ x.2.chunks = p.chunks ∧
      x.2.modifiedField = p.modifiedField := by
  refine ⟨_, _, solo_write U size s.buf c p hr hw, ⟨?_, ?_, rfl, hr, ?_, ?_⟩, rfl, rfl, rfl⟩
  · rw [h]; rfl
  · exact hb
  · simp only [IngestState.flush]
    rw [batchCounts_append, hc, h, hs]
  · simp only [IngestState.flush]
    rw [hs, List.flatten_append, bulkWrite, bulkWrite, bulkWrite, List.foldl_append]
    simp

/-- Taking the operations of a chunk. -/
theorem ProcAt.feed {c0 : Coll} (U : Unicode) (size : Nat) : ∀ (l : List MongoOp) {s : IngestState} {x : Coll × IngestProc},
    ProcAt c0 s x → x.2.ops = l →
    ∃ n x', soloSteps U size n x = x' ∧ ProcAt c0 (l.foldl (feedOp size) s) x' ∧ x'.2.ops = [] ∧ x'.2.chunks = x.2.chunks ∧
      x'.2.modifiedField = x.2.modifiedField
  | [], s, x, h, hl => ⟨0, x, rfl, h, hl, rfl, rfl⟩
  | o :: l, s, x, h, hl => by
    obtain ⟨c, mf, chunks, ops, buf, writing, counts, raised⟩ := x
    obtain ⟨h1, h2, h3, h4, h5, h6⟩ := h
    dsimp only at h1 h2 h3 h4 h5 h6 hl
    subst h1 h2 h3 h4 hl
    rw [List.foldl_cons]
    have e1 : soloSteps U size 1 (s.coll, ⟨mf, chunks, o :: l, s.buf, [], counts, none⟩) =
      if s.buf.length + 1 < size then (s.coll, ⟨mf, chunks, l, s.buf ++ [o], [], counts, none⟩)
        else (s.coll, ⟨mf, chunks, l, [], s.buf ++ [o], counts, none⟩) := rfl
    by_cases hlt : s.buf.length + 1 < size
    · rw [if_pos hlt] at e1
      have ef : feedOp size s o = { s with buf := s.buf ++ [o] } := by
        unfold feedOp
        simp only [List.length_append, List.length_singleton]
        rw [if_pos hlt]
      obtain ⟨n, x', k1, k2, k3, k4, k5⟩ := ProcAt.feed (c0 := c0) U size l (s := { s with buf := s.buf ++ [o] })
        (x := (s.coll, ⟨mf, chunks, l, s.buf ++ [o], [], counts, none⟩)) ⟨rfl, rfl, rfl, rfl, h5, h6⟩ rfl
      refine ⟨1 + n, x', ?_, ?_, k3, k4, k5⟩
      · rw [soloSteps_add, e1, k1]
      · rw [ef]; exact k2
    · rw [if_neg hlt] at e1
      have ef : feedOp size s o = IngestState.flush { s with buf := s.buf ++ [o] } := by
        unfold feedOp
        simp only [List.length_append, List.length_singleton]
        rw [if_neg hlt]
      obtain ⟨m, y, j1, j2, j3, j4, j5⟩ := ProcAt.flush (c0 := c0) (s := { s with buf := s.buf ++ [o] }) (c := s.coll)
        (p := ⟨mf, chunks, l, [], s.buf ++ [o], counts, none⟩) rfl rfl rfl rfl h5 h6 U size
      obtain ⟨n, x', k1, k2, k3, k4, k5⟩ := ProcAt.feed (c0 := c0) U size l j2 j3
      refine ⟨1 + m + n, x', ?_, ?_, k3, k4.trans j4, k5.trans j5⟩
      · rw [soloSteps_add, soloSteps_add, e1, j1, k1]
      · rw [ef]; exact k2

/-- How a process that is alone ends. -/
def EndsAs (c0 : Coll) (x : Coll × IngestProc) : Except PyErr IngestState → Prop
  | .ok s => x.2.finished = true ∧ x.1 = s.coll ∧ x.2.counts = batchCounts c0 s.written
  | .error e => x.2.raised = some e

theorem solo_loop {c0 : Coll} (U : Unicode) (mf : Option PyStr) (size : Nat) : ∀ (chunks : List (List Record)) {s : IngestState}
    {x : Coll × IngestProc}, ProcAt c0 s x → x.2.ops = [] → x.2.chunks = chunks → x.2.modifiedField = mf →
    ∃ n, EndsAs c0 (soloSteps U size n x) (ingestLoop U mf size s chunks)
  | [], s, x, h, ho, hch, hmf => by
    obtain ⟨c, mf', chunks, ops, buf, writing, counts, raised⟩ := x
    obtain ⟨h1, h2, h3, h4, h5, h6⟩ := h
    dsimp only at h1 h2 h3 h4 h5 h6 ho hch hmf
    subst h1 h2 h3 h4 ho hch hmf
    rw [ingestLoop]
    by_cases hb : s.buf.isEmpty = true
    · rw [if_pos hb]
      refine ⟨0, ?_, rfl, h5⟩
      rw [IngestProc.finished_iff]
      exact ⟨rfl, rfl, by simpa [soloSteps] using hb, rfl, rfl⟩
    · rw [if_neg hb]
      obtain ⟨m, y, j1, j2, j3, j4, j5⟩ := ProcAt.flush (c0 := c0) (s := s) (c := s.coll)
        (p := ⟨mf', [], [], [], s.buf, counts, none⟩) rfl rfl rfl rfl h5 h6 U size
      refine ⟨1 + m, ?_⟩
      rw [soloSteps_add, show soloSteps U size 1 (s.coll, ⟨mf', [], [], s.buf, [], counts, none⟩) =
        (s.coll, ⟨mf', [], [], [], s.buf, counts, none⟩) from rfl, j1]
      refine ⟨?_, j2.coll, j2.counts⟩
      rw [IngestProc.finished_iff]
      exact ⟨j4, j3, j2.buf, j2.writing, j2.raised⟩
  | chunk :: chunks, s, x, h, ho, hch, hmf => by
    obtain ⟨c, mf', chs, ops, buf, writing, counts, raised⟩ := x
    obtain ⟨h1, h2, h3, h4, h5, h6⟩ := h
    dsimp only at h1 h2 h3 h4 h5 h6 ho hch hmf
    subst h1 h2 h3 h4 ho hch hmf
    rw [ingestLoop]
    cases hk : chunkOps U mf' s.coll chunk with
    | error e =>
      refine ⟨1, ?_⟩
      show (soloSteps U size 1 (s.coll, ⟨mf', chunk :: chunks, [], s.buf, [], counts, none⟩)).2.raised = some e
      simp only [soloSteps, IngestProc.step, hk]
    | ok os =>
      have e1 : soloSteps U size 1 (s.coll, ⟨mf', chunk :: chunks, [], s.buf, [], counts, none⟩) =
          (s.coll, ⟨mf', chunks, os, s.buf, [], counts, none⟩) := by
        simp only [soloSteps, IngestProc.step, hk]
      obtain ⟨m, y, j1, j2, j3, j4, j5⟩ := ProcAt.feed (c0 := c0) U size os (s := s)
        (x := (s.coll, ⟨mf', chunks, os, s.buf, [], counts, none⟩)) ⟨rfl, rfl, rfl, rfl, h5, h6⟩ rfl
      obtain ⟨n, hn⟩ := solo_loop U mf' size chunks j2 j3 j4 j5
      refine ⟨1 + m + n, ?_⟩
      rw [soloSteps_add, soloSteps_add, e1, j1]
      exact hn

theorem solo_ends (U : Unicode) (mf : Option PyStr) (size : Nat) (c : Coll) (records : List Record) :
    ∃ n, EndsAs c (soloSteps U size n (c, .start size mf records)) (ingestSized U mf size c records) :=
  solo_loop U mf size (partition records size) (s := { coll := c }) ⟨rfl, rfl, rfl, rfl, rfl, rfl⟩ rfl rfl rfl

/-- A process that is alone and finishes has done what `ingest` does. -/
theorem solo_finished {U : Unicode} {mf : Option PyStr} {size : Nat} {c : Coll} {records : List Record} {n : Nat}
    (h : (soloSteps U size n (c, .start size mf records)).2.finished = true) :
    ∃ s, ingestSized U mf size c records = .ok s ∧ (soloSteps U size n (c, .start size mf records)).1 = s.coll ∧
      (soloSteps U size n (c, .start size mf records)).2.counts = batchCounts c s.written := by
  obtain ⟨m, hm⟩ := solo_ends U mf size c records
  have hn : (soloSteps U size n (c, .start size mf records)).2.ended = true := by simp [IngestProc.ended, h]
  cases hs : ingestSized U mf size c records with
  | error e =>
    rw [hs] at hm
    have hm : _ = some e := hm
    have := soloSteps_det (m := n) (n := m) hn (by simp [IngestProc.ended, hm])
    rw [this, IngestProc.finished_iff, hm] at h
    exact (nomatch h.2.2.2.2)
  | ok s =>
    rw [hs] at hm
    obtain ⟨h1, h2, h3⟩ := hm
    have := soloSteps_det (m := n) (n := m) hn (by simp [IngestProc.ended, h1])
    rw [this]
    exact ⟨s, rfl, h2, h3⟩

/-- A process that is alone and raises. -/
theorem solo_raised {U : Unicode} {mf : Option PyStr} {size : Nat} {c : Coll} {records : List Record} {n : Nat} {e : PyErr}
    (h : (soloSteps U size n (c, .start size mf records)).2.raised = some e) : ingestSized U mf size c records = .error e := by
  obtain ⟨m, hm⟩ := solo_ends U mf size c records
  have hn : (soloSteps U size n (c, .start size mf records)).2.ended = true := by simp [IngestProc.ended, h]
  cases hs : ingestSized U mf size c records with
  | error e' =>
    rw [hs] at hm
    have hm : _ = some e' := hm
    have := soloSteps_det (m := n) (n := m) hn (by simp [IngestProc.ended, hm])
    rw [this, hm] at h
    cases h; rfl
  | ok s =>
    rw [hs] at hm
    obtain ⟨h1, h2, h3⟩ := hm
    have := soloSteps_det (m := n) (n := m) hn (by simp [IngestProc.ended, h1])
    rw [this, (IngestProc.finished_iff.1 h1).2.2.2.2] at h
    cases h

/-- Only steps of `p`. -/
theorem run_steps (U : Unicode) (size : Nat) (p : Nat) : ∀ (n : Nat) (st : ProcsState),
    (st.run U size (List.replicate n (.step p))).coll = (soloSteps U size n (st.coll, st.procs p)).1 ∧
    (st.run U size (List.replicate n (.step p))).procs p = (soloSteps U size n (st.coll, st.procs p)).2
  | 0, st => ⟨rfl, rfl⟩
  | n + 1, st => by
    rw [List.replicate_succ, soloSteps]
    have := run_steps U size p n (st.act U size (.step p))
    simpa [ProcsState.run, ProcsState.act] using this

theorem filter_steps {p : Nat} : ∀ {acts : List ProcsAct}, (∀ a ∈ acts, a.isCommit = false) →
    ∃ n, acts.filter (ProcsAct.ofOrCommit p) = List.replicate n (.step p)
  | [], _ => ⟨0, rfl⟩
  | a :: acts, h => by
    obtain ⟨n, hn⟩ := filter_steps (p := p) (acts := acts) (fun a ha => h a (by simp [ha]))
    cases a with
    | commit v done => exact absurd (h (.commit v done) (by simp)) (by simp [ProcsAct.isCommit])
    | step q =>
      by_cases e : q = p
      · subst e
        exact ⟨n + 1, by rw [List.filter_cons_of_pos (by simp [ProcsAct.ofOrCommit]), hn]; rfl⟩
      · exact ⟨n, by rw [List.filter_cons_of_neg (by simp [ProcsAct.ofOrCommit, e]), hn]⟩

/-! ## `ingest` -/

theorem soloSteps_own (U : Unicode) (size : Nat) : ∀ (n : Nat) {p : IngestProc} (_ : p.Within (fun id => own id = true)) (c : Coll),
    soloSteps U size n (ownDocs own c, p) = (ownDocs own (soloSteps U size n (c, p)).1, (soloSteps U size n (c, p)).2)
  | 0, _, _, _ => rfl
  | n + 1, p, h, c => by
    rw [soloSteps, soloSteps]
    dsimp only
    rw [IngestProc.step_own h]
    exact soloSteps_own U size n (h.step U size c) _

theorem soloSteps_other (U : Unicode) (size : Nat) : ∀ (n : Nat) {p : IngestProc} (_ : p.Within (fun id => own id = false)) (c : Coll),
    ownDocs own (soloSteps U size n (c, p)).1 = ownDocs own c
  | 0, _, _, _ => rfl
  | n + 1, p, h, c => by
    rw [soloSteps]
    refine (soloSteps_other U size n (h.step U size c) _).trans ?_
    exact IngestProc.step_other h U size c

theorem start_within {S : PyStr → Prop} {size : Nat} {mf : Option PyStr} {records : List Record} (hs : 0 < size)
    (h : ∀ r ∈ records, S r.id) : (IngestProc.start size mf records).Within S := by
  refine ⟨?_, nofun, nofun, nofun⟩
  intro ch hch r hr
  apply h
  rw [← partition_flatten hs records]
  exact List.mem_flatten.2 ⟨ch, hch, hr⟩

theorem ingest_eq {U : Unicode} {mf : Option PyStr} {c r : Coll} {records : List Record} :
    ingest U mf c records = .ok r ↔ ∃ s, ingestSized U mf 200 c records = .ok s ∧ s.coll = r := by
  unfold ingest
  cases ingestSized U mf 200 c records with
  | error e => exact ⟨nofun, fun ⟨s, h, _⟩ => (nomatch h)⟩
  | ok s => exact ⟨fun h => ⟨s, rfl, by cases h; rfl⟩, fun ⟨s', h, e⟩ => by cases h; rw [← e]; rfl⟩

theorem ingest_view {U : Unicode} {mf : Option PyStr} {c c1 r : Coll} {records : List Record}
    (h : ownDocs own c = ownDocs own c1) (hr : ∀ r ∈ records, own r.id = true) (hi : ingest U mf c records = .ok r) :
    ∃ r1, ingest U mf c1 records = .ok r1 ∧ ownDocs own r = ownDocs own r1 := by
  obtain ⟨s, h1, rfl⟩ := ingest_eq.1 hi
  obtain ⟨n, hn⟩ := solo_ends U mf 200 c records
  rw [h1] at hn
  have hw := start_within (S := fun id => own id = true) (size := 200) (mf := mf) (by omega) hr
  have e1 := soloSteps_own U 200 n hw c
  have e2 := soloSteps_own U 200 n hw c1
  rw [h, e2] at e1
  obtain ⟨a1, a2⟩ := Prod.ext_iff.1 e1
  dsimp only at a1 a2
  have hf : (soloSteps U 200 n (c1, .start 200 mf records)).2.finished = true := by rw [a2]; exact hn.1
  obtain ⟨s1, b1, b2, _⟩ := solo_finished hf
  refine ⟨s1.coll, ingest_eq.2 ⟨s1, b1, rfl⟩, ?_⟩
  rw [← b2, a1, hn.2.1]

theorem ingest_outside {U : Unicode} {mf : Option PyStr} {c r : Coll} {records : List Record}
    (hr : ∀ r ∈ records, own r.id = false) (hi : ingest U mf c records = .ok r) : ownDocs own r = ownDocs own c := by
  obtain ⟨s, h1, rfl⟩ := ingest_eq.1 hi
  obtain ⟨n, hn⟩ := solo_ends U mf 200 c records
  rw [h1] at hn
  rw [← hn.2.1]
  exact soloSteps_other U 200 n (start_within (by omega) hr) c

/-- One after another: for the records of each call, as if there were only this call. -/
theorem ingestAll_view {U : Unicode} {calls : Nat → Option PyStr × List Record} (hd : DisjointIds (fun p => (calls p).2)) {c : Coll} :
    ∀ (order : List Nat), order.Nodup → ∀ {c1 : Coll},
      (∀ p ∈ order, ownDocs (fun id => decide (id ∈ (calls p).2.map Record.id)) c1 =
        ownDocs (fun id => decide (id ∈ (calls p).2.map Record.id)) c) →
      (∀ p ∈ order, ∃ r, ingest U (calls p).1 c (calls p).2 = .ok r) →
      ∃ c', ingestAll U c1 (order.map calls) = .ok c' ∧
        (∀ p ∈ order, ∀ r, ingest U (calls p).1 c (calls p).2 = .ok r →
          ownDocs (fun id => decide (id ∈ (calls p).2.map Record.id)) c' =
            ownDocs (fun id => decide (id ∈ (calls p).2.map Record.id)) r) ∧
        ∀ own : PyStr → Bool, (∀ p ∈ order, ∀ r ∈ (calls p).2, own r.id = false) → ownDocs own c' = ownDocs own c1
  | [], _, c1, _, _ => ⟨c1, rfl, nofun, fun _ _ => rfl⟩
  | p :: order, hn, c1, hc, hr => by
    rw [List.nodup_cons] at hn
    obtain ⟨r, h1⟩ := hr p (by simp)
    have hown : ∀ r ∈ (calls p).2, (fun id => decide (id ∈ (calls p).2.map Record.id)) r.id = true := by
      intro r hr
      simpa using ⟨r, hr, rfl⟩
    have hoth : ∀ q, q ≠ p → ∀ r ∈ (calls q).2, (fun id => decide (id ∈ (calls p).2.map Record.id)) r.id = false := by
      intro q hq r hr
      simp only [decide_eq_false_iff_not, List.mem_map, not_exists, not_and]
      intro r' hr' e
      exact hd p q (Ne.symm hq) r' hr' r hr e
    have hoth' : ∀ q, q ≠ p → ∀ r ∈ (calls p).2, (fun id => decide (id ∈ (calls q).2.map Record.id)) r.id = false := by
      intro q hq r hr
      simp only [decide_eq_false_iff_not, List.mem_map, not_exists, not_and]
      intro r' hr' e
      exact hd q p hq r' hr' r hr e
    obtain ⟨c2, h2, h3⟩ := ingest_view (hc p (by simp)).symm hown h1
    have hout : ∀ own : PyStr → Bool, (∀ r ∈ (calls p).2, own r.id = false) → ownDocs own c2 = ownDocs own c1 :=
      fun own h => ingest_outside h h2
    obtain ⟨c', k1, k2, k3⟩ := ingestAll_view hd order hn.2 (c1 := c2) (by
      intro q hq
      have hqp : q ≠ p := fun e => hn.1 (e ▸ hq)
      rw [hout _ (hoth' q hqp)]
      exact hc q (by simp [hq])) (fun q hq => hr q (by simp [hq]))
    refine ⟨c', ?_, ?_, ?_⟩
    · rw [List.map_cons]
      unfold ingestAll at k1 ⊢
      rw [List.foldlM_cons, h2]
      exact k1
    · intro q hq r' hr'
      rcases List.mem_cons.1 hq with rfl | hq
      · rw [k3 _ (fun p hp => hoth p (fun e => hn.1 (e ▸ hp))), ← h3]
        rw [h1] at hr'; cases hr'; rfl
      · exact k2 q hq r' hr'
    · intro own h
      rw [k3 own (fun q hq => h q (by simp [hq])), hout own (h p (by simp))]

end Splitgill
