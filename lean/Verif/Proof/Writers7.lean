import Verif.Proof.Writers6
import Verif.Proof.Life
/-!
# Proofs about processes that ingest and commit: schedules
-/

namespace Splitgill

variable {U : Unicode} {size : Nat} {db : PyStr} {own : PyStr → Bool} {p : Nat}

/-! ## The data -/

theorem step_chunks (size : Nat) (c : Coll) (i : IngestProc) :
    (i.step U size c).2.modifiedField = i.modifiedField ∧
      ((i.step U size c).2.chunks = i.chunks ∨ ∃ ch, i.chunks = ch :: (i.step U size c).2.chunks) := by
  rw [IngestProc.step.eq_def]
  split
  · exact ⟨rfl, .inl rfl⟩
  split
  · exact ⟨rfl, .inl rfl⟩
  split
  · split <;> exact ⟨rfl, .inl rfl⟩
  split
  · next hc =>
    split
    · exact ⟨rfl, .inl rfl⟩
    · exact ⟨rfl, .inr ⟨_, hc⟩⟩
  · exact ⟨rfl, .inl rfl⟩

structure WriterData (U : Unicode) (mf : Option PyStr) (r : Record) (p : Nat) (db : PyStr) (s : WritersState) : Prop where
  phase : RecPhase U mf r (docsWith r.id (s.mongo.data db)) (s.procs p).ingest
  mf : (s.procs p).ingest.modifiedField = mf
  nodup : ((s.procs p).ingest.chunks.flatten.map Record.id).Nodup

theorem WriterData.act {mf : Option PyStr} {r : Record} {s : WritersState} (hs : s.Split own p) (hr : own r.id = true) (h : WriterData U mf r p db s) (a : WriterAct) :
    WriterData U mf r p db (s.act U size db a) := by
  cases own_change (U := U) (size := size) (db := db) hs a with
  | none e hi => exact ⟨by rw [hi, docsWith_own hr e]; exact h.phase, by rw [hi]; exact h.mf, by rw [hi]; exact h.nodup⟩
  | version q clock pick v k _ _ _ e hi =>
    exact ⟨by rw [hi, e]; exact h.phase.versioned (docsWith_commitNth _ _ _ _), by rw [hi]; exact h.mf, by rw [hi]; exact h.nodup⟩
  | ingest clock pick _ _ _ _ e hi =>
    obtain ⟨h1, h2⟩ := step_chunks (U := U) size (s.mongo.data db) (s.procs p).ingest
    refine ⟨by rw [hi, e]; exact h.phase.step h.mf h.nodup, by rw [hi, h1]; exact h.mf, ?_⟩
    rw [hi]
    rcases h2 with h2 | ⟨ch, h2⟩
    · rw [h2]; exact h.nodup
    · have := h.nodup
      rw [h2, List.flatten_cons, List.map_append, List.nodup_append] at this
      exact this.2.1

/-- A process that has returned has written all its operations. -/
def WriterDone (p : Nat) (s : WritersState) : Prop := ∀ x, (s.procs p).pc = .done x → (s.procs p).ingest.finished = true

theorem WriterDone.act {s : WritersState} (h : WriterDone p s) (a : WriterAct) : WriterDone p (s.act U size db a) := by
  intro x hx
  cases proc_change (U := U) (size := size) (db := db) (p := p) s a with
  | same _ e => rw [e] at hx ⊢; exact h x hx
  | crash _ e => rw [e] at hx ⊢; exact h x hx
  | raise _ e =>
    rw [e] at hx ⊢
    simp only [Writer.raise] at hx ⊢
    split at hx
    · exact h x hx
    · split at hx <;> cases hx
  | step clock pick ea al hst =>
    generalize (s.act U size db a).mongo = m' at *
    generalize hw : (s.act U size db a).procs p = w' at *
    cases hst with
    | same _ => exact h x hx
    | returns _ hf _ => exact hf
    | ingest he _ => rw [show (s.procs p).pc = .done x from hx] at he; cases he
    | release hf _ r hpc => exact hf
    | clock hf _ _ => exact hf
    | failed _ _ => cases hx
    | locked hf _ _ _ => exact hf
    | acquire hf _ _ _ => exact hf
    | raising hf _ _ => exact hf
    | noData hf _ _ _ => exact hf
    | nothing hf _ _ => exact hf
    | options hf => exact hf
    | begin hf _ _ _ => exact hf
    | data hf _ _ _ _ => exact hf
    | wait hf _ _ _ => exact hf
    | dataEnd hf => exact hf
    | optionsData hf => exact hf
    | optionsEnd hf => exact hf

theorem RecPhase.finished {mf : Option PyStr} {r : Record} {D : List MongoRecord} {i : IngestProc} (h : RecPhase U mf r D i) (hf : i.finished = true) : ShowsRecord U mf r D := by
  simp only [IngestProc.finished, Bool.and_eq_true, List.isEmpty_iff] at hf
  obtain ⟨⟨⟨⟨h1, h2⟩, h3⟩, h4⟩, _⟩ := hf
  cases h with
  | todo h _ _ => rw [h1] at h; cases h
  | ready o _ ho _ => rw [IngestProc.waiting, h2, h3, h4] at ho; cases ho
  | shown _ _ h => exact h

/-! ## The start -/

variable {calls : Nat → Option PyStr × List Record × Bool} {m : Mongo}

theorem start_split (hd : DisjointIds (fun p => (calls p).2.1)) (p : Nat) :
    (startWriters calls m).Split (fun id => decide (id ∈ (calls p).2.1.map Record.id)) p := by
  refine ⟨start_within (by omega) (fun r hr => by simpa using ⟨r, hr, rfl⟩), fun q hq => start_within (by omega) (fun r hr => ?_)⟩
  simp only [decide_eq_false_iff_not, List.mem_map, not_exists, not_and]
  intro r' hr' e
  exact hd p q (Ne.symm hq) r' hr' r hr e

theorem start_lock (hl : m.locks.Nodup) : WritersLock db (startWriters calls m) := by
  have : ∀ q, ¬ (startWriters calls m).Holds q := fun q h => by have := h.2; cases this
  exact ⟨hl, fun q h => (this q h).elim, fun q q' h => (this q h).elim⟩

theorem start_clean : WriterClean own p db (startWriters calls m) :=
  ⟨fun h => absurd rfl h, fun _ h => (nomatch h), fun _ _ h => (nomatch h)⟩

theorem start_done : WriterDone p (startWriters calls m) := fun _ h => nomatch h

theorem start_versions {P : PyStr → Int → Prop} {w : Writer} {mf : Option PyStr} {rs : List Record} (hw : w.ingest = .start size mf rs) {c : Coll} (h : DocsVersions P c) :
    w.ingest.Versions P c := by
  rw [hw]
  exact ⟨h, nofun, nofun, nofun⟩

theorem docRep_ok {K : DataClass} {d : MongoRecord} {h : Hist} (hr : Rep K (some d) h) : DocOk d := by
  obtain ⟨cs, p⟩ := h
  cases p with
  | none =>
    cases cs with
    | nil => exact hr.elim
    | cons vd cs =>
      have h1 : DocRep K d (some vd.1) vd.2 cs := hr.1
      refine ⟨h1.data.wfl, ?_⟩
      intro d' o e
      rw [revertRecord_committed h1.version] at e
      cases e
  | some x =>
    have h1 : DocRep K d none x cs := hr
    refine ⟨h1.data.wfl, ?_⟩
    intro d' o e
    cases cs with
    | nil =>
      have : d.diffs = [] := by
        cases hd : d.diffs with
        | nil => rfl
        | cons kv l => have := (h1.keys kv.1).1 (by simp [hd]); simp at this
      simp [revertRecord, this] at e
    | cons vd cs =>
      obtain ⟨v, d0⟩ := vd
      obtain ⟨doc', e1, e2, _⟩ := h1.revert
      rw [e1] at e
      injection e with e
      injection e with e
      injection e with e _
      subst e
      exact e2.data.wfl

theorem oneDoc_rcoll {K : PyStr → DataClass} {c : Coll} {s : Store} (h : RColl K c s) (id : PyStr) : OneDoc (docsWith id c) := by
  have hrep := h.rep id
  cases hf : findRecord id c with
  | none =>
    refine .inl (List.filter_eq_nil_iff.2 fun d hd => ?_)
    simpa using List.find?_eq_none.1 hf d hd
  | some d =>
    rw [hf] at hrep
    refine .inr ⟨d, ?_, docRep_ok hrep⟩
    have hid := findRecord_id hf
    have hmem := findRecord_mem hf
    have hn := h.nodup
    unfold docsWith
    clear hrep hf h
    induction c with
    | nil => cases hmem
    | cons x c ih =>
      rw [ids, List.map_cons, List.nodup_cons] at hn
      rcases List.mem_cons.1 hmem with rfl | hmem
      · rw [List.filter_cons_of_pos (by simpa using hid)]
        congr 1
        rw [List.filter_eq_nil_iff]
        intro y hy
        simp only [decide_eq_true_eq]
        intro e
        exact hn.1 (List.mem_map.2 ⟨y, hy, e.trans hid.symm⟩)
      · rw [List.filter_cons_of_neg, ih hmem hn.2]
        simp only [decide_eq_true_eq]
        intro e
        exact hn.1 (List.mem_map.2 ⟨d, hmem, hid.trans e.symm⟩)

theorem start_data {r : Record} (hr : r ∈ (calls p).2.1) (hn : ((calls p).2.1.map Record.id).Nodup) (h : OneDoc (docsWith r.id (m.data db))) :
    WriterData U (calls p).1 r p db (startWriters calls m) := by
  have e : (IngestProc.start 200 (calls p).1 (calls p).2.1).chunks.flatten = (calls p).2.1 := partition_flatten (by omega) _
  refine ⟨.todo ?_ nofun h, rfl, ?_⟩
  · show r ∈ (IngestProc.start 200 (calls p).1 (calls p).2.1).chunks.flatten
    rw [e]; exact hr
  · show ((IngestProc.start 200 (calls p).1 (calls p).2.1).chunks.flatten.map Record.id).Nodup
    rw [e]; exact hn

/-! ## Schedules -/

theorem WritersState.run_cons (s : WritersState) (a : WriterAct) (acts : List WriterAct) : s.run U size db (a :: acts) = (s.act U size db a).run U size db acts := rfl

theorem WritersState.run_append (s : WritersState) (a b : List WriterAct) : s.run U size db (a ++ b) = (s.run U size db a).run U size db b := List.foldl_append ..

theorem clean_run : ∀ (acts : List WriterAct) {s : WritersState}, s.Split own p → WriterClean own p db s →
    (s.run U size db acts).Split own p ∧ WriterClean own p db (s.run U size db acts)
  | [], _, h, h' => ⟨h, h'⟩
  | a :: acts, _, h, h' => clean_run acts (h.act a) (h'.act h a)

theorem doCommit_run : ∀ (acts : List WriterAct) (s : WritersState), ((s.run U size db acts).procs p).doCommit = (s.procs p).doCommit
  | [], _ => rfl
  | a :: acts, s => (doCommit_run acts (s.act U size db a)).trans (doCommit_act a)

theorem data_run {mf : Option PyStr} {r : Record} (hr : own r.id = true) : ∀ (acts : List WriterAct) {s : WritersState}, s.Split own p → WriterDone p s → WriterData U mf r p db s →
    WriterDone p (s.run U size db acts) ∧ WriterData U mf r p db (s.run U size db acts)
  | [], _, _, h, h' => ⟨h, h'⟩
  | a :: acts, _, hs, h, h' => data_run hr acts (hs.act a) (h.act a) (h'.act hs hr a)

theorem bound_run : ∀ (acts : List WriterAct) {s : WritersState} {T : Int}, CarefulWriters U size db s acts → ClockForward acts →
    (∀ t ∈ acts.filterMap WriterAct.clock?, T ≤ t) → WritersLock db s → s.Split own p → WriterClean own p db s → (s.procs p).doCommit = true →
    VersionBound own p db T s → ∃ T', VersionBound own p db T' (s.run U size db acts)
  | [], _, T, _, _, _, _, _, _, _, h => ⟨T, h⟩
  | a :: acts, s, T, hc, hf, ht, hl, hs, hcl, hdc, h => by
    have hl' := hl.act (U := U) (size := size) a (fun e => by subst e; exact hc.1)
    have hdc' := (doCommit_act (U := U) (size := size) (db := db) (p := p) (s := s) a).trans hdc
    cases ha : a.clock? with
    | none =>
      have e : (a :: acts).filterMap WriterAct.clock? = acts.filterMap WriterAct.clock? := List.filterMap_cons_none ha
      rw [e] at ht
      unfold ClockForward at hf
      rw [e] at hf
      exact bound_run acts hc.2 hf ht hl' (hs.act a) (hcl.act hs a) hdc' (h.act hl hs hcl hdc a (Int.le_refl T) (fun t e => by rw [ha] at e; cases e))
    | some t =>
      have e : (a :: acts).filterMap WriterAct.clock? = t :: acts.filterMap WriterAct.clock? := List.filterMap_cons_some ha
      rw [e] at ht
      unfold ClockForward at hf
      rw [e, List.pairwise_cons] at hf
      exact bound_run acts hc.2 hf.2 hf.1 hl' (hs.act a) (hcl.act hs a) hdc'
        (h.act hl hs hcl hdc a (ht t List.mem_cons_self) (fun t' e => by rw [ha] at e; injection e with e; subst e; exact ⟨Int.le_refl _, Int.le_refl _⟩))

theorem same_run {old : PyStr → Int → Prop} : ∀ (acts : List WriterAct) {s : WritersState}, NoOtherCommit U size db p s acts → s.Split own p → (s.procs p).doCommit = true →
    VersionSame own p db old s → VersionSame own p db old (s.run U size db acts)
  | [], _, _, _, _, h => h
  | a :: acts, s, hn, hs, hdc, h => by
    refine same_run acts hn.2 (hs.act a) ((doCommit_act a).trans hdc) (h.act hs hdc a ?_)
    intro q clock pick e hq
    subst e
    exact hn.1 hq

theorem notBegun_run : ∀ (acts : List WriterAct) (s : WritersState), NotBegun p acts → (s.run U size db acts).procs p = s.procs p
  | [], _, _ => rfl
  | a :: acts, s, h => by
    rw [WritersState.run_cons, notBegun_run acts _ (fun x hx => h x (List.mem_cons_of_mem _ hx))]
    have ha := h a List.mem_cons_self
    cases proc_change (U := U) (size := size) (db := db) (p := p) s a with
    | same _ e => exact e
    | crash e _ => exact absurd e (ha 0 none).2.2
    | raise e _ => exact absurd e (ha 0 none).2.1
    | step clock pick e _ _ => exact absurd e (ha clock pick).1

end Splitgill
