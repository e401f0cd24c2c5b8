import Verif.Proof.Writers10
import Verif.Props.Writers
/-!
# C122: the histories of records while several processes ingest and commit

`afterWriters` runs any schedule of processes that each go through one `ingest(records, commit, modified_field)` (with no records: `commit()`),
command by command, in a database that was used before as the library does.
-/

namespace Splitgill.Props
open Splitgill

/-- What is wanted: every version a record shows at some moment it shows, with equal data, at every later moment. -/
def C122_full : Prop :=
  ∀ (U : Unicode) (db : PyStr) (before : List ApiCall) (calls : Nat → Option PyStr × List Record × Bool) (pre post : List WriterAct),
    WritersOk U db before calls (pre ++ post) → ∀ id items, history ((afterWriters U db before calls pre).mongo.data db) id = .ok items →
      ∃ items', history ((afterWriters U db before calls (pre ++ post)).mongo.data db) id = .ok items' ∧
        ∃ newer, SameVersions (committedOf items') (newer ++ committedOf items)

/-- **C122** (readable) At every moment there is at most one document of each record, its versions can all be read, and their numbers go down. -/
theorem C122_reads (U : Unicode) (db : PyStr) (before : List ApiCall) (calls : Nat → Option PyStr × List Record × Bool) (acts : List WriterAct)
    (h : WritersOk U db before calls acts) :
    (((afterWriters U db before calls acts).mongo.data db).map (·.id)).Nodup ∧
    ∀ id, ∃ items, history ((afterWriters U db before calls acts).mongo.data db) id = .ok items ∧
      ((committedOf items).map Prod.fst).Pairwise (· > ·) := by
  obtain ⟨s, h1, _⟩ := h.rcoll
  refine ⟨h1.nodup, fun id => ?_⟩
  obtain ⟨items, i1, i2⟩ := Rep.history h1 id
  have := i2.committed
  rw [committedOf_states] at this
  exact ⟨items, i1, by rw [this.fst]; exact Rep.desc (h1.rep id)⟩

/-- **C122** (kept, partial: the record had no uncommitted data at the start, or the process that ingests it has not begun at that moment, or has
written all its records) Then every version the record shows stays, with equal data, however the ingests and commits of all processes interleave,
and whoever raises or dies. Missing: a version can be lost that is committed, by another process, after the ingest has looked the record up with
uncommitted data and before it writes, see `C122_refuted`. -/
theorem C122_kept_partial (U : Unicode) (db : PyStr) (before : List ApiCall) (calls : Nat → Option PyStr × List Record × Bool) (pre post : List WriterAct)
    (h : WritersOk U db before calls (pre ++ post)) (id : PyStr) (hq : SafeAt U db before calls pre id) :
    ∃ items items', history ((afterWriters U db before calls pre).mongo.data db) id = .ok items ∧
      history ((afterWriters U db before calls (pre ++ post)).mongo.data db) id = .ok items' ∧
      ∃ newer, SameVersions (committedOf items') (newer ++ committedOf items) := by
  obtain ⟨h1, r1, _, _, k⟩ := hist_from h id
  obtain ⟨h2, r2, newer, hn⟩ := k hq
  have hist : ∀ (c : Coll) (hh : Hist), Rep plainClass (findRecord id c) hh → ∃ items, history c id = .ok items ∧ VersEq plainClass (committedOf items) hh.committed := by
    intro c hh hr
    cases hf : findRecord id c with
    | none =>
      rw [hf] at hr
      exact ⟨[], by rw [history, hf], by rw [(Rep.none_iff.1 hr).1]; exact .nil⟩
    | some d =>
      rw [hf] at hr
      obtain ⟨items, e1, e2⟩ := hr.iter
      refine ⟨items, by rw [history, hf]; exact e1, ?_⟩
      have := e2.committed
      rwa [committedOf_states] at this
  obtain ⟨items, i1, i2⟩ := hist _ _ r1
  obtain ⟨items', j1, j2⟩ := hist _ _ r2
  rw [← hn] at j2
  refine ⟨items, items', i1, j1, newer, ?_⟩
  have key : ∀ (pre a x : List (Int × Dict)) (b : List (Int × Dict)), VersEq plainClass x (pre ++ b) → VersEq plainClass a b → SameVersions x (pre ++ a) := by
    intro pre a
    induction pre with
    | nil => intro x b h1 h2; exact (h1.trans h2.symm).same
    | cons p pre ih =>
      intro x b h1 h2
      cases h1 with
      | cons h hr => exact .cons ⟨h.1, h.2.sim⟩ (ih _ b hr h2)
  exact key newer _ _ _ j2 i2

theorem length_of_eqWith {c : Value → Value → Bool} {a b : Dict} (h : eqWith c (.dict a) (.dict b) = true) : a = [] ↔ b = [] := by
  simp only [eqWith, Bool.and_eq_true, beq_iff_eq] at h
  rw [← List.length_eq_zero_iff, ← List.length_eq_zero_iff, h.1]

theorem empty_of_shown {mf : Option PyStr} {a b : Dict} (h : simEq (.dict a) (.dict b) = true ∨ sameData mf a b = true) : a = [] ↔ b = [] := by
  rcases h with h | h
  · exact length_of_eqWith h
  · unfold sameData at h
    split at h
    · exact length_of_eqWith h
    · split at h
      · next hc =>
        rw [Bool.and_eq_true] at hc
        constructor
        · rintro rfl; cases hc.1
        · rintro rfl; cases hc.2
      · exact length_of_eqWith h

/-- **C122** (found) After `ingest` of process `p` has returned the version `v`, a sync into new indices succeeds, whatever others are doing, and
`search(v)` shows what was ingested: for each record of the ingest one document, made of the data ingested (or of data that differs from it only
as `ingest` is told not to care about) with the options as of `v`, and for each deleted record none. -/
theorem C122_found {P : Type} (X : Parser P) (maxDocs : Nat) (U : Unicode) (db : PyStr) (before : List ApiCall)
    (calls : Nat → Option PyStr × List Record × Bool) (acts : List WriterAct) (h : WritersOk U db before calls acts)
    (ho : ValidOptions (committedOptionsOf db (afterWriters U db before calls acts).mongo)) (p : Nat) (hc : (calls p).2.2 = true) (v : Int)
    (hp : ((afterWriters U db before calls acts).procs p).pc = .done (some v)) :
    ∃ es, sync X maxDocs db false (afterWriters U db before calls acts).mongo [] = .ok es ∧
      ∀ r ∈ (calls p).2.1,
        (r.isDelete = true → foundFor es (.version v) r.id = []) ∧
        (r.isDelete = false → ∀ o,
          OptionsAsOf (effectiveOptions (histOf ((afterWriters U db before calls acts).mongo.data db) r.id) (committedOptionsOf db (afterWriters U db before calls acts).mongo)) v o →
          ∃ d data, foundFor es (.version v) r.id = [d] ∧ X.same d.parsed (X.parse data o) ∧
            (simEq (.dict (prepareRecordData U r)) (.dict data) = true ∨ sameData (calls p).1 (prepareRecordData U r) data = true)) := by
  have hm := h.dbOk ho
  obtain ⟨es, h1, h2, h3⟩ := C30_first_sync X maxDocs db _ hm
  obtain ⟨s1, s2, s3⟩ := C36_search_partial X db _ _ es hm List.filter_sublist h2 h3 v
  refine ⟨es, h1, fun r hr => ?_⟩
  have hret := C120_returned U db before h.orderly calls h.disjoint p (h.nodup p) hc acts h.careful h.forward h.after v hp r hr
  change (docsWith r.id ((afterWriters U db before calls acts).mongo.data db) = [] ∧ _) ∨ ∃ d x, docsWith r.id ((afterWriters U db before calls acts).mongo.data db) = [d] ∧ _ at hret
  have hemp := prepareRecordData_isEmpty U r
  rcases hret with ⟨e, hdel⟩ | ⟨d, x, e, hx, hxv, hdata⟩
  · refine ⟨fun _ => ?_, fun h => by rw [hdel] at h; cases h⟩
    unfold foundFor
    rw [List.filter_eq_nil_iff]
    intro d hd he
    obtain ⟨r', hr', e'⟩ := s3 d hd
    have : r' ∈ docsWith r.id ((afterWriters U db before calls acts).mongo.data db) :=
      List.mem_filter.2 ⟨(List.mem_filter.1 hr').1, by rw [← e']; exact he⟩
    rw [e] at this
    cases this
  · have hmem : d ∈ docsWith r.id ((afterWriters U db before calls acts).mongo.data db) := by rw [e]; exact List.mem_singleton.2 rfl
    have hid := docsWith_id d hmem
    have hin := (List.mem_filter.1 hmem).1
    have hsel : d ∈ ((afterWriters U db before calls acts).mongo.data db).filter (fun r => r.version.isSome) := List.mem_filter.2 ⟨hin, by rw [hx]; rfl⟩
    obtain ⟨rest, hh⟩ := hm.hist_head hin hx
    have hdesc := hm.desc d.id
    rw [hh] at hdesc
    have has : AsOf (histOf ((afterWriters U db before calls acts).mongo.data db) d.id) v d.data := by rw [hh]; exact asOf_head hdesc hxv
    rw [← hid]
    refine ⟨fun hdel => s2 d hsel ?_, fun hdel o hopt => ?_⟩
    · rintro ⟨b, hb, hne⟩
      have hn : (((x, d.data) :: rest).map Prod.fst).Nodup := hdesc.imp (fun h e => by omega)
      rw [hh] at has hb
      rw [hb.unique hn has] at hne
      apply hne
      rw [hdel] at hemp
      exact (empty_of_shown hdata).1 (List.isEmpty_iff.1 hemp)
    · obtain ⟨f, f1, f2⟩ := s1 d hsel d.data o has (fun h0 => by
        have := (empty_of_shown hdata).2 h0
        rw [hdel, this] at hemp
        cases hemp) hopt
      exact ⟨f, d.data, f1, f2, hdata⟩

/-! ## Examples -/

/-- `FreshVersions`, to be computed. -/
def freshB (U : Unicode) (size : Nat) (db : PyStr) : WritersState → List WriterAct → Bool
  | _, [] => true
  | s, a :: acts =>
    (match a with
      | .step q _ _ =>
        match (s.procs q).pc with
        | .data v => (s.mongo.data db).all (fun d => !decide (d.version = none) || !decide ({ d with version := some v } ∈ (s.act U size db a).mongo.data db) ||
            !decide (v ∈ d.getVersions))
        | _ => true
      | _ => true) && freshB U size db (s.act U size db a) acts

theorem freshB_spec {U : Unicode} {size : Nat} {db : PyStr} : ∀ {acts : List WriterAct} {s : WritersState},
    freshB U size db s acts = true → FreshVersions U size db s acts
  | [], _, _ => trivial
  | a :: acts, s, h => by
    rw [freshB.eq_def] at h
    dsimp only at h
    rw [Bool.and_eq_true] at h
    refine ⟨?_, freshB_spec h.2⟩
    have h1 := h.1
    cases a with
    | step q clock pick =>
      dsimp only at h1 ⊢
      split
      · next v hv =>
        rw [hv] at h1
        dsimp only at h1
        intro d hd h2 h3 h4
        have := List.all_eq_true.1 h1 d hd
        simp [h2, h3, h4] at this
      · trivial
    | _ => trivial

/-- What the schedules of the examples have in common. -/
theorem exWritersOk {before : List ApiCall} (hb : Orderly before) {acts : List WriterAct} (hr : ∀ a ∈ acts, a ≠ .adminRelease) (hf : ClockForward acts)
    (ht : ∀ t0 ∈ before.filterMap ApiCall.clock?, ∀ t ∈ acts.filterMap WriterAct.clock?, t0 ≤ t)
    (hfr : freshB asciiU 200 [] (afterWriters asciiU [] before exWriters []) acts = true) : WritersOk asciiU [] before exWriters acts := by
  refine ⟨hb, exWriters_disjoint, fun p => ?_, careful_of_no_release hr, hf, ht, freshB_spec hfr⟩
  match p with
  | 0 => exact List.nodup_nil
  | 1 => decide
  | 2 => exact List.nodup_nil
  | 3 => decide
  | n + 4 => exact List.nodup_nil

/-- The record `a` has the version 0 and uncommitted data. -/
def exBeforePending : List ApiCall := [.ingest none [exRec ['a'] 7] true 0, .ingest none [exRec ['a'] 8] false 1]

/-- Process 1 looks `a` up, process 2 commits at 5. -/
def exLostPre : List WriterAct := exWriterSteps 1 2 none 3 ++ exWriterCommit 2 5 5 1
/-- Process 1 writes. -/
def exLostPost : List WriterAct := exWriterSteps 1 6 none 3

theorem exBeforePending_orderly : Orderly exBeforePending := ⟨by decide, fun c hc => by
  simp only [exBeforePending, List.mem_cons, List.not_mem_nil, or_false] at hc
  rcases hc with rfl | rfl <;> (unfold NoSpan; decide)⟩

set_option maxRecDepth 100000 in
theorem exLost_ok : WritersOk asciiU [] exBeforePending exWriters (exLostPre ++ exLostPost) := by
  refine exWritersOk exBeforePending_orderly (fun a ha => ?_) (by unfold ClockForward; decide +kernel) (by decide +kernel) (by decide +kernel)
  simp only [exLostPre, exLostPost, exWriterCommit, exWriterSteps, List.mem_append, List.mem_replicate] at ha
  rintro rfl
  simp at ha

set_option maxRecDepth 100000 in
/-- **C122** (the full statement is wrong) Process 1 has looked `a` up, with its uncommitted data; then process 2 commits this data as version 5,
and it is shown; then process 1 writes, and version 5 is lost. -/
theorem C122_refuted : ¬ C122_full := by
  intro h
  have e1 : history ((afterWriters asciiU [] exBeforePending exWriters exLostPre).mongo.data []) ['a'] =
      .ok [(some 5, exData ['a'] 8), (some 0, exData ['a'] 7)] := by decide +kernel
  have e2 : history ((afterWriters asciiU [] exBeforePending exWriters (exLostPre ++ exLostPost)).mongo.data []) ['a'] =
      .ok [(none, exData ['a'] 1), (some 0, exData ['a'] 7)] := by decide +kernel
  obtain ⟨items', h1, newer, h2⟩ := h asciiU [] exBeforePending exWriters exLostPre exLostPost exLost_ok ['a'] _ e1
  rw [e2] at h1
  cases h1
  have := List.Forall₂.length_eq h2
  simp [committedOf] at this

set_option maxRecDepth 100000 in
theorem exBetween_ok : WritersOk asciiU [] exBefore exWriters exBetween := by
  refine exWritersOk exBefore_orderly (fun a ha => ?_) exBetween_forward (by decide +kernel) (by decide +kernel)
  simp only [exBetween, exWriterCommit, exWriterSteps, List.mem_append, List.mem_replicate] at ha
  rintro rfl
  simp at ha

set_option maxRecDepth 100000 in
/-- The hypotheses of C122_reads and C122_found are met: process 1 has returned 9; `a` was committed by process 2 in between. -/
example : WritersOk asciiU [] exBefore exWriters exBetween ∧
    ValidOptions (committedOptionsOf [] (afterWriters asciiU [] exBefore exWriters exBetween).mongo) ∧
    exSeen (afterWriters asciiU [] exBefore exWriters exBetween) 1 = ([(['a'], some 5), (['c'], some 5), (['b'], some 9)], some (some 9)) ∧
    history ((afterWriters asciiU [] exBefore exWriters exBetween).mongo.data []) ['a'] = .ok [(some 5, exData ['a'] 1), (some 0, exData ['a'] 7)] ∧
    (match sync exParser 2 [] false (afterWriters asciiU [] exBefore exWriters exBetween).mongo [] with
      | .ok es => [['a'], ['b'], ['c']].map (fun id => (foundFor es (.version 9) id).map (fun d => (d.version, d.parsed.1)))
      | .error _ => []) = [[(5, exData ['a'] 1)], [(9, exData ['b'] 2)], [(5, exData ['c'] 3)]] :=
  ⟨exBetween_ok, ⟨by decide +kernel, by decide +kernel⟩, by decide +kernel, by decide +kernel, by decide +kernel⟩

set_option maxRecDepth 100000 in
/-- The hypotheses of C122_kept_partial are met: processes 3 and 2 have done their work, then process 1 begins. -/
example : WritersOk asciiU [] exBefore exWriters (exFirst ++ exThen) ∧ (∀ q, (∃ r ∈ (exWriters q).2.1, r.id = ['a']) → NotBegun q exFirst) ∧
    history ((afterWriters asciiU [] exBefore exWriters exFirst).mongo.data []) ['a'] = .ok [(some 0, exData ['a'] 7)] ∧
    history ((afterWriters asciiU [] exBefore exWriters (exFirst ++ exThen)).mongo.data []) ['a'] = .ok [(some 9, exData ['a'] 1), (some 0, exData ['a'] 7)] := by
  refine ⟨exWritersOk exBefore_orderly (fun a ha => ?_) (by unfold ClockForward; decide +kernel) (by decide +kernel) (by decide +kernel), ?_, by decide +kernel, by decide +kernel⟩
  · simp only [exFirst, exThen, exWriterCommit, exWriterSteps, List.mem_append, List.mem_replicate] at ha
    rintro rfl
    simp at ha
  · rintro q ⟨r, hr, e⟩
    match q with
    | 1 =>
      intro a ha clock pick
      simp only [exFirst, exWriterCommit, exWriterSteps, List.mem_append, List.mem_replicate] at ha
      refine ⟨?_, ?_, ?_⟩ <;> rintro rfl <;> simp at ha
    | 3 =>
      simp only [exWriters, List.mem_singleton] at hr
      subst hr
      exact absurd e (by decide)
    | 0 => cases hr
    | 2 => cases hr
    | n + 4 => cases hr

set_option maxRecDepth 100000 in
/-- So they are at every moment for records that had no uncommitted data: here process 1 has looked `a` up and not written it yet. -/
example : SafeAt asciiU [] exBefore exWriters (exWriterSteps 1 5 none 2) ['a'] ∧
    ((afterWriters asciiU [] exBefore exWriters (exWriterSteps 1 5 none 2)).procs 1).ingest.waiting.map MongoOp.id = [['a'], ['b']] :=
  ⟨.inl (by decide +kernel), by decide +kernel⟩

set_option maxRecDepth 100000 in
/-- And after its ingest has written all, also if it had. -/
example : ((afterWriters asciiU [] exBeforePending exWriters (exWriterSteps 1 5 none 6)).procs 1).ingest.finished = true ∧
    ¬ (∀ d ∈ (afterCalls asciiU [] exBeforePending).data [], d.id = ['a'] → d.version ≠ none) := ⟨by decide +kernel, by decide +kernel⟩

set_option maxRecDepth 100000 in
/-- `FreshVersions` is needed for C122_reads: two commits within the same millisecond give `a` the version 5 twice. -/
example : freshB asciiU 200 [] (afterWriters asciiU [] exBeforePending exWriters []) (exWriterCommit 2 5 5 1 ++ exWriterSteps 1 5 none 6 ++ exWriterCommit 1 5 5 2) = false ∧
    ((afterWriters asciiU [] exBeforePending exWriters (exWriterCommit 2 5 5 1 ++ exWriterSteps 1 5 none 6 ++ exWriterCommit 1 5 5 2)).mongo.data []).map
      (fun d => (d.id, d.getVersions)) = [(['a'], [0, 5, 5]), (['b'], [5])] := by decide +kernel

end Splitgill.Props
