import Verif.Proof.Writers10
import Verif.Spec.IngestSteps
/-!
# Proofs about the steps of an ingest
-/

namespace Splitgill

variable {U : Unicode} {size : Nat} {db : PyStr} {p : Nat}

/-- The steps an ingest has still to do, at most. -/
def IngestProc.work (i : IngestProc) : Nat :=
  (i.chunks.map (fun c => 2 * c.length + 1)).sum + 2 * i.ops.length + i.buf.length + i.writing.length +
    (if i.buf.isEmpty && i.ops.isEmpty && i.chunks.isEmpty then 0 else 1)

theorem collectOps_length {f : Record → Except PyErr (Option MongoOp)} : ∀ {rs : List Record} {ops : List MongoOp}, collectOps f rs = .ok ops → ops.length ≤ rs.length
  | [], ops, h => by cases h; simp
  | r :: rs, ops, h => by
    rw [collectOps] at h
    cases h1 : f r with
    | error e => rw [h1] at h; cases h
    | ok o =>
      cases h2 : collectOps f rs with
      | error e => rw [h1, h2] at h; cases h
      | ok ops' =>
        rw [h1, h2] at h
        cases h
        have := collectOps_length h2
        cases o <;> simp <;> omega

theorem recordsById_length (chunk : List Record) : (recordsById chunk).length ≤ chunk.length := by
  by_cases h : (chunk.map Record.id).Nodup
  · rw [recordsById_of_nodup h]
  · exact Nat.le_of_lt (recordsById_short h)

theorem chunkOps_length {mf : Option PyStr} {c : Coll} {chunk : List Record} {ops : List MongoOp} (h : chunkOps U mf c chunk = .ok ops) : ops.length ≤ chunk.length :=
  Nat.le_trans (collectOps_length h) (recordsById_length chunk)

theorem IngestProc.work_step {i : IngestProc} (hf : i.finished = false) (hr : i.raised = none) (c : Coll) :
    (i.step U size c).2.raised.isSome = true ∨ (i.step U size c).2.work < i.work := by
  rw [IngestProc.step.eq_def, hr]
  dsimp only
  split
  · next op rest hw =>
    right
    simp only [IngestProc.work, hw, List.length_cons]
    omega
  next hw =>
  split
  · next op rest ho =>
    right
    split
    · simp only [IngestProc.work, hw, ho, List.length_cons, List.length_append, List.isEmpty_cons, Bool.and_false, Bool.false_and, Bool.false_eq_true, if_false]
      split <;> simp <;> omega
    · simp only [IngestProc.work, hw, ho, List.length_cons, List.length_append, List.isEmpty_cons, Bool.and_false, Bool.false_and, Bool.false_eq_true, if_false]
      split <;> simp <;> omega
  next ho =>
  split
  · next chunk rest hc =>
    split
    · exact .inl rfl
    · next ops hops =>
      right
      have := chunkOps_length hops
      simp only [IngestProc.work, hw, ho, hc, List.map_cons, List.sum_cons, List.isEmpty_cons, Bool.and_false, Bool.false_eq_true, if_false, List.length_nil]
      split <;> omega
  · next hc =>
    right
    have hb : i.buf.isEmpty = false := by
      rw [IngestProc.finished, hw, ho, hc, hr] at hf
      simpa using hf
    simp only [IngestProc.work, hw, ho, hc, hb, List.isEmpty_nil, Bool.true_and, Bool.false_and, Bool.and_self, List.length_nil, Bool.false_eq_true, if_false, if_true]
    omega

/-- What an ingest has in memory. -/
structure IngestProc.Held (size : Nat) (records : List Record) (i : IngestProc) : Prop where
  chunks : ∀ ch ∈ i.chunks, ch ≠ [] ∧ ch.length ≤ size
  suffix : i.chunks.flatten <:+ records
  ops : i.ops.length ≤ size
  buf : i.buf.length < size
  writing : i.writing.length ≤ size

theorem IngestProc.Held.step {records : List Record} {i : IngestProc} (hs : 1 ≤ size) (h : i.Held size records) (c : Coll) : (i.step U size c).2.Held size records := by
  obtain ⟨h1, h2, h3, h4, h5⟩ := h
  rw [IngestProc.step.eq_def]
  split
  · exact ⟨h1, h2, h3, h4, h5⟩
  split
  · next op rest hw =>
    rw [hw, List.length_cons] at h5
    exact ⟨h1, h2, h3, h4, by dsimp only; omega⟩
  next hw =>
  split
  · next op rest ho =>
    rw [ho, List.length_cons] at h3
    split
    · next hb => exact ⟨h1, h2, by dsimp only; omega, by simpa using hb, h5⟩
    · exact ⟨h1, h2, by dsimp only; omega, by simp; omega, by simp; omega⟩
  next ho =>
  split
  · next chunk rest hc =>
    rw [hc] at h1 h2
    split
    · exact ⟨by dsimp only; rw [hc]; exact h1, by dsimp only; rw [hc]; exact h2, h3, h4, h5⟩
    · next ops hops =>
      exact ⟨fun ch hch => h1 ch (List.mem_cons_of_mem _ hch), (List.suffix_append chunk rest.flatten).trans (by rw [List.flatten_cons] at h2; exact h2),
        Nat.le_trans (chunkOps_length hops) (h1 chunk List.mem_cons_self).2, h4, h5⟩
  · exact ⟨h1, h2, h3, by simp; omega, Nat.le_of_lt h4⟩

/-- The ingest of a process after an action: nothing of it has changed, or it has done a step. -/
theorem ingest_act (s : WritersState) (a : WriterAct) :
    ((s.act U size db a).procs p).ingest = (s.procs p).ingest ∨
      ((s.procs p).ingest.finished = false ∧ ((s.act U size db a).procs p).ingest = ((s.procs p).ingest.step U size (s.mongo.data db)).2) := by
  cases proc_change (U := U) (size := size) (db := db) (p := p) s a with
  | same _ e => rw [e]; exact .inl rfl
  | crash _ e => rw [e]; exact .inl rfl
  | raise _ e => rw [e]; exact .inl rfl
  | step clock pick ea al hst =>
    generalize (s.act U size db a).mongo = m' at *
    generalize (s.act U size db a).procs p = w' at *
    cases hst with
    | ingest _ hf => exact .inr ⟨hf, rfl⟩
    | _ => exact .inl rfl

theorem held_run {records : List Record} (hs : 1 ≤ size) : ∀ (acts : List WriterAct) {s : WritersState}, (s.procs p).ingest.Held size records →
    ((s.run U size db acts).procs p).ingest.Held size records
  | [], _, h => h
  | a :: acts, s, h => by
    refine held_run hs acts (s := s.act U size db a) ?_
    rcases ingest_act (U := U) (size := size) (db := db) (p := p) s a with e | ⟨_, e⟩
    · rw [e]; exact h
    · rw [e]; exact h.step hs _

theorem ended_spec {s : WritersState} (a : WriterAct) (h1 : a ≠ .raise p) (h2 : a ≠ .crash p)
    (ha : (s.procs p).alive = true) (he : (s.procs p).pc.ended = true ∨ (s.procs p).pc.inside = true → (s.procs p).ingest.finished = true ∨ (s.procs p).ingest.raised.isSome = true) :
    ((s.act U size db a).procs p).alive = true ∧
    (((s.act U size db a).procs p).pc.ended = true ∨ ((s.act U size db a).procs p).pc.inside = true →
      ((s.act U size db a).procs p).ingest.finished = true ∨ ((s.act U size db a).procs p).ingest.raised.isSome = true) ∧
    (a.isStep p = true → (s.procs p).ingest.finished = false → (s.procs p).ingest.raised = none →
      ((s.act U size db a).procs p).ingest = ((s.procs p).ingest.step U size (s.mongo.data db)).2) := by
  cases proc_change (U := U) (size := size) (db := db) (p := p) s a with
  | same hne e =>
    rw [e]
    refine ⟨ha, he, fun h => ?_⟩
    cases a with
    | step q clock pick =>
      simp only [WriterAct.isStep, decide_eq_true_eq] at h
      subst h
      rw [hne _ _ rfl] at ha; cases ha
    | _ => cases h
  | crash e _ => exact absurd e h2
  | raise e _ => exact absurd e h1
  | step clock pick ea al hst =>
    generalize (s.act U size db a).mongo = m' at *
    generalize (s.act U size db a).procs p = w' at *
    cases hst with
    | ingest hpc hf =>
      refine ⟨al, fun h => ?_, fun _ _ _ => rfl⟩
      rcases he h with h' | h'
      · rw [hf] at h'; cases h'
      · obtain ⟨e, h'⟩ := Option.isSome_iff_exists.1 h'
        right
        rw [IngestProc.step.eq_def, h']
        dsimp only
        rw [h']; rfl
    | same hpc => 
      refine ⟨al, he, fun _ hf hr => ?_⟩
      rcases he (.inl hpc) with h' | h'
      · rw [hf] at h'; cases h'
      · rw [hr] at h'; cases h'
    | failed _ h => exact ⟨al, fun _ => .inr h, fun _ _ hr => by rw [hr] at h; cases h⟩
    | returns _ hf _ => exact ⟨al, fun _ => .inl hf, fun _ hf' _ => by rw [hf] at hf'; cases hf'⟩
    | _ hf => exact ⟨al, fun _ => .inl hf, fun _ hf' _ => by rw [hf] at hf'; cases hf'⟩

theorem work_run : ∀ (acts : List WriterAct) {s : WritersState}, (∀ a ∈ acts, a ≠ .raise p ∧ a ≠ .crash p) → (s.procs p).alive = true →
    ((s.procs p).pc.ended = true ∨ (s.procs p).pc.inside = true → (s.procs p).ingest.finished = true ∨ (s.procs p).ingest.raised.isSome = true) →
    ((s.run U size db acts).procs p).ingest.finished = true ∨ ((s.run U size db acts).procs p).ingest.raised.isSome = true ∨
      ((s.run U size db acts).procs p).ingest.work + acts.countP (WriterAct.isStep p) ≤ (s.procs p).ingest.work
  | [], s, _, _, _ => .inr (.inr (by simp [WritersState.run]))
  | a :: acts, s, h, ha, he => by
    obtain ⟨e1, e2, e3⟩ := ended_spec (U := U) (size := size) (db := db) a (h a List.mem_cons_self).1 (h a List.mem_cons_self).2 ha he
    rcases work_run acts (fun b hb => h b (List.mem_cons_of_mem _ hb)) e1 e2 with h1 | h1 | h1
    · exact .inl h1
    · exact .inr (.inl h1)
    · show ((((s.act U size db a).run U size db acts).procs p).ingest.finished = true ∨ _ ∨ (((s.act U size db a).run U size db acts).procs p).ingest.work + _ ≤ _)
      rw [List.countP_cons]
      have stay : ∀ (acts : List WriterAct) {t : WritersState}, ((t.procs p).ingest.finished = true ∨ (t.procs p).ingest.raised.isSome = true) →
          (((t.run U size db acts).procs p).ingest.finished = true ∨ ((t.run U size db acts).procs p).ingest.raised.isSome = true) := by
        intro acts
        induction acts with
        | nil => exact fun h => h
        | cons b acts ih =>
          intro t ht
          refine ih (t := t.act U size db b) ?_
          rcases ingest_act (U := U) (size := size) (db := db) (p := p) t b with e | ⟨hf, e⟩
          · rw [e]; exact ht
          · rcases ht with ht | ht
            · rw [hf] at ht; cases ht
            · obtain ⟨x, hx⟩ := Option.isSome_iff_exists.1 ht
              right
              rw [e, IngestProc.step.eq_def, hx]
              dsimp only
              rw [hx]; rfl
      by_cases hfr : (s.procs p).ingest.finished = true ∨ (s.procs p).ingest.raised.isSome = true
      · rcases stay (a :: acts) hfr with h' | h'
        · exact .inl h'
        · exact .inr (.inl h')
      · rw [not_or, Bool.not_eq_true, Bool.not_eq_true, Option.isSome_eq_false_iff, Option.isNone_iff_eq_none] at hfr
        cases hst : a.isStep p with
        | false =>
          rcases ingest_act (U := U) (size := size) (db := db) (p := p) s a with e | ⟨hf, e⟩
          · rw [e] at h1
            exact .inr (.inr (by simpa using h1))
          · rcases IngestProc.work_step (U := U) (size := size) hfr.1 hfr.2 (s.mongo.data db) with h2 | h2
            · rcases stay acts (t := s.act U size db a) (.inr (by rw [e]; exact h2)) with h' | h'
              · exact .inl h'
              · exact .inr (.inl h')
            · rw [e] at h1
              exact .inr (.inr (by simp; omega))
        | true =>
          have e := e3 hst hfr.1 hfr.2
          rcases IngestProc.work_step (U := U) (size := size) hfr.1 hfr.2 (s.mongo.data db) with h2 | h2
          · rcases stay acts (t := s.act U size db a) (.inr (by rw [e]; exact h2)) with h' | h'
            · exact .inl h'
            · exact .inr (.inl h')
          · rw [e] at h1
            exact .inr (.inr (by simp; omega))

/-! ## In a database that is used as the library does -/

variable {before : List ApiCall} {calls : Nat → Option PyStr × List Record × Bool} {acts pre post : List WriterAct}

theorem collectOps_ok {f : Record → Except PyErr (Option MongoOp)} : ∀ {rs : List Record}, (∀ r ∈ rs, ∃ o, f r = .ok o) → ∃ ops, collectOps f rs = .ok ops
  | [], _ => ⟨[], rfl⟩
  | r :: rs, h => by
    obtain ⟨o, ho⟩ := h r List.mem_cons_self
    obtain ⟨ops, hops⟩ := collectOps_ok fun x hx => h x (List.mem_cons_of_mem _ hx)
    exact ⟨o.toList ++ ops, by rw [collectOps, ho, hops]; rfl⟩

theorem no_raise (h : WritersOk U db before calls acts) (p : Nat) : ((afterWriters U db before calls acts).procs p).ingest.raised = none := by
  induction acts using List.reverseRecOn with
  | nil => rfl
  | append_singleton pre a ih =>
    have ih := ih h.split
    have e : afterWriters U db before calls (pre ++ [a]) = (afterWriters U db before calls pre).act U 200 db a := by
      rw [afterWriters, WritersState.run_append]; rfl
    rw [e]
    rcases ingest_act (U := U) (size := 200) (db := db) (p := p) (afterWriters U db before calls pre) a with e' | ⟨_, e'⟩
    · rw [e']; exact ih
    · rw [e', IngestProc.step.eq_def, ih]
      dsimp only
      split
      · rfl
      split
      · split <;> rfl
      split
      · next chunk rest hc =>
        split
        · next e hops =>
          obtain ⟨ops, hok⟩ := collectOps_ok (f := fun r => opFor U ((afterWriters U db before calls pre).procs p).ingest.modifiedField
            (lookupExisting ((afterWriters U db before calls pre).mongo.data db) r.id) r) (rs := recordsById chunk) (fun r _ => by
              obtain ⟨h1, k1, k2, k3, _⟩ := hist_from h r.id
              rw [lookupExisting_docs k3, docsWith_head]
              obtain ⟨op, e, _⟩ := opFor_spec (K := plainClass) (mf := ((afterWriters U db before calls pre).procs p).ingest.modifiedField) (prepareRecordData_wf U r) k1
                (fun d hd => by
                  have := List.find?_some hd
                  simpa using this)
              exact ⟨op, e⟩)
          rw [chunkOps, hok] at hops
          cases hops
        · rfl
      · rfl

theorem start_work (records : List Record) (mf : Option PyStr) : (IngestProc.start 200 mf records).work ≤ 3 * records.length + 1 := by
  have key : ∀ cs : List (List Record), (∀ c ∈ cs, c ≠ []) → (cs.map (fun c => 2 * c.length + 1)).sum ≤ 3 * cs.flatten.length := by
    intro cs
    induction cs with
    | nil => simp
    | cons c cs ih =>
      intro h
      have h1 := List.length_pos_iff.2 (h c List.mem_cons_self)
      have h2 := ih fun x hx => h x (List.mem_cons_of_mem _ hx)
      rw [List.map_cons, List.sum_cons, List.flatten_cons, List.length_append]
      omega
  have h := key (partition records 200) (fun c hc => (partitionLoop_chunks _ _ c hc).1)
  rw [partition_flatten (by omega)] at h
  have h' : ∀ b : Bool, (if b = true then 0 else 1) ≤ 1 := by decide
  have := h' ((IngestProc.start 200 mf records).buf.isEmpty && (IngestProc.start 200 mf records).ops.isEmpty && (IngestProc.start 200 mf records).chunks.isEmpty)
  unfold IngestProc.work
  simp only [IngestProc.start, List.length_nil] at this ⊢
  omega

theorem start_held (records : List Record) (mf : Option PyStr) : (IngestProc.start 200 mf records).Held 200 records := by
  refine ⟨fun c hc => partitionLoop_chunks _ _ c hc, ?_, by simp [IngestProc.start], by simp [IngestProc.start], by simp [IngestProc.start]⟩
  show (partition records 200).flatten <:+ records
  rw [partition_flatten (by omega)]

end Splitgill
