import Verif.Proof.Reach
import Verif.Props.Prepare
/-!
# C05-C12, C14, C15: the history of a record

`runEvents U [] es` runs any sequence of ingests, commits and rollbacks, complete or stopped by a crash
after any of their writes, on an empty collection.
-/

namespace Splitgill.Props
open Splitgill

/-- **C05** after any sequence of events the collection has at most one record per id, and iterating it
gives the states of its history (see `Hist`): first the uncommitted one if there is one, then every
committed version, once each, in strictly descending order, with the data ingested for it. -/
theorem C05_history (U : Unicode) (es : List Event) (hes : Regular es) :
    ∃ c s, runEvents U [] es = .ok c ∧ SpecRun U Store.empty es s ∧ (c.map MongoRecord.id).Nodup ∧
      ∀ id, ∃ items, history c id = .ok items ∧ SameStates items (s id).states ∧
        ((committedOf items).map Prod.fst).Pairwise (· > ·) ∧
        (findRecord id c = none ↔ (s id).states = []) := by
  obtain ⟨c, s, h1, h2, h3⟩ := run_events (U := U) es RColl.empty (by simp [Store.empty]) (fun e _ => fits_plain U e.stream) hes
  refine ⟨c, s, h1, h2, h3.nodup, fun id => ?_⟩
  obtain ⟨items, h4, h5⟩ := Rep.history h3 id
  refine ⟨items, h4, h5.same, ?_, ?_⟩
  · have := h5.committed
    rw [committedOf_states] at this
    rw [this.fst]; exact (h3.rep id).desc
  · have hr := h3.rep id
    constructor
    · intro e
      rw [e] at hr
      obtain ⟨a, b⟩ := Rep.none_iff.1 hr
      simp [Hist.states, a, b]
    · intro e
      cases hf : findRecord id c with
      | none => rfl
      | some doc =>
        rw [hf] at hr
        generalize s id = h at e hr
        obtain ⟨cs, p⟩ := h
        cases p with
        | some p => simp [Hist.states] at e
        | none =>
          cases cs with
          | nil => exact hr.elim
          | cons vd cs => simp [Hist.states] at e

/-- Example records: `{"x": n}`, and a delete. -/
def exRec (id : PyStr) (n : Int) : Record := ⟨id, [(.str ['x'], .int n)]⟩
def exDel (id : PyStr) : Record := ⟨id, []⟩
/-- The stored data of `exRec`. -/
def exData (id : PyStr) (n : Int) : Dict := [(['x'], .int n), ("_id".toList, .str id)]

/-- Create, commit, change, crash in the next change, commit, delete (uncommitted). -/
def exEvents : List Event :=
  [.ingest none [exRec ['a'] 1, exRec ['b'] 1], .commit 10, .ingestCrash none [exRec ['a'] 2, exRec ['b'] 2] 1,
    .commit 20, .ingest none [exDel ['a']]]

/-- The hypotheses hold for a sequence with a crash, and the record has three states. -/
example : Regular exEvents ∧ ∃ c, runEvents asciiU [] exEvents = .ok c ∧
    history c ['a'] = .ok [(none, []), (some 20, exData ['a'] 2), (some 10, exData ['a'] 1)] ∧
    history c ['b'] = .ok [(some 10, exData ['b'] 1)] := by
  refine ⟨⟨by decide, ?_⟩, _, rfl, by decide, by decide⟩
  intro e he
  simp only [exEvents, List.mem_cons, List.not_mem_nil, or_false] at he
  rcases he with rfl | rfl | rfl | rfl | rfl <;> simp [NoSpan, Event.stream, partition, partitionLoop]

/-- **C06** `get_versions` lists exactly the committed versions of the history, descending or ascending. -/
theorem C06_get_versions (U : Unicode) (es : List Event) (hes : Regular es) (c : Coll)
    (hc : runEvents U [] es = .ok c) (id : PyStr) (doc : MongoRecord) (hd : findRecord id c = some doc) :
    ∃ s, SpecRun U Store.empty es s ∧ doc.getVersions true = (s id).committed.map Prod.fst ∧
      doc.getVersions false = ((s id).committed.map Prod.fst).reverse ∧
      (doc.getVersions true).Pairwise (· > ·) ∧ (doc.getVersions false).Pairwise (· < ·) := by
  obtain ⟨s, h1, h2⟩ := reach hes hc
  have hr := h2.rep id
  rw [hd] at hr
  obtain ⟨e1, e2⟩ := hr.getVersions
  refine ⟨s, h1, e1, e2, by rw [e1]; exact hr.desc, by rw [e2]; exact List.pairwise_reverse.2 hr.desc⟩

/-- **C06** the properties of a record: it is uncommitted iff there is uncommitted data, it is deleted iff its newest state is empty, and
it has a history iff it has a state before the newest. -/
theorem C06_flags (U : Unicode) (es : List Event) (hes : Regular es) (c : Coll)
    (hc : runEvents U [] es = .ok c) (id : PyStr) (doc : MongoRecord) (hd : findRecord id c = some doc) :
    ∃ s newest older, SpecRun U Store.empty es s ∧ (s id).states = newest :: older ∧
      (doc.isUncommitted = true ↔ newest.1 = none) ∧ (doc.isDeleted = true ↔ newest.2 = []) ∧
      (doc.hasHistory = true ↔ older ≠ []) := by
  obtain ⟨s, h1, h2⟩ := reach hes hc
  have hr := h2.rep id
  rw [hd] at hr
  have key : ∀ {ver d rest}, DocRep plainClass doc ver d rest →
      (doc.isUncommitted = true ↔ ver = none) ∧ (doc.isDeleted = true ↔ d = []) ∧ (doc.hasHistory = true ↔ rest ≠ []) := by
    intro ver d rest h
    refine ⟨?_, ?_, ?_⟩
    · rw [MongoRecord.isUncommitted, h.version, Option.isNone_iff_eq_none]
    · rw [MongoRecord.isDeleted, List.isEmpty_iff]
      exact h.data.nil_iff
    · rw [MongoRecord.hasHistory, Bool.not_eq_true', List.isEmpty_eq_false_iff]
      refine not_congr ⟨fun e => ?_, fun e => ?_⟩
      · cases rest with
        | nil => rfl
        | cons a r =>
          have := (h.keys a.1).2 (by simp)
          rw [e] at this
          cases this
      · cases hdf : doc.diffs with
        | nil => rfl
        | cons a r =>
          have := (h.keys a.1).1 (by rw [hdf]; simp [akeys])
          rw [e] at this
          cases this
  generalize hs : s id = h at hr
  obtain ⟨cs, p⟩ := h
  cases p with
  | some p =>
    refine ⟨s, (none, p), cs.map (fun vd => (some vd.1, vd.2)), h1, by rw [hs]; rfl, ?_⟩
    obtain ⟨a, b, d⟩ := key hr
    exact ⟨a, b, by rw [d]; simp⟩
  | none =>
    cases cs with
    | nil => exact hr.elim
    | cons vd cs =>
      refine ⟨s, (some vd.1, vd.2), cs.map (fun vd => (some vd.1, vd.2)), h1, by rw [hs]; rfl, ?_⟩
      obtain ⟨a, b, d⟩ := key hr.1
      exact ⟨by rw [a], b, by rw [d]; simp⟩

example : ∃ c doc, runEvents asciiU [] exEvents = .ok c ∧ findRecord ['a'] c = some doc ∧
    doc.version = none ∧ doc.getVersions true = [20, 10] ∧ doc.getVersions false = [10, 20] ∧ doc.isUncommitted = true ∧
    doc.isDeleted = true ∧ doc.hasHistory = true :=
  ⟨_, _, rfl, rfl, by decide, by decide, by decide, by decide, by decide, by decide⟩

/-- **C07** whatever happens later (`es'`), with crashes at any write, every version committed before is
still there with equal data. -/
theorem C07_committed_immutable (U : Unicode) (es es' : List Event) (hes : Regular (es ++ es')) (c : Coll)
    (hc : runEvents U [] es = .ok c) :
    ∃ c', runEvents U [] (es ++ es') = .ok c' ∧ ∀ id, ∃ items items', history c id = .ok items ∧
      history c' id = .ok items' ∧
      ∃ later, SameVersions (committedOf items') (later ++ committedOf items) := by
  obtain ⟨s, c', s', h1, h2, h3, h4, h5⟩ := reach_append hes hc
  refine ⟨c', h3, fun id => ?_⟩
  obtain ⟨items, i1, i2⟩ := Rep.history h2 id
  obtain ⟨items', j1, j2⟩ := Rep.history h5 id
  refine ⟨items, items', i1, j1, ?_⟩
  have i3 := i2.committed
  have j3 := j2.committed
  rw [committedOf_states] at i3 j3
  obtain ⟨pre, hpre⟩ := h4.suffix id
  rw [← hpre] at j3
  refine ⟨pre, ?_⟩
  have key : ∀ (pre a x : List (Int × Dict)) (b : List (Int × Dict)), VersEq plainClass x (pre ++ b) → VersEq plainClass a b →
      SameVersions x (pre ++ a) := by
    intro pre a
    induction pre with
    | nil => intro x b h1 h2; exact (h1.trans h2.symm).same
    | cons p pre ih =>
      intro x b h1 h2
      cases h1 with
      | cons h hr => exact .cons ⟨h.1, h.2.sim⟩ (ih _ b hr h2)
  exact key pre _ _ _ j3 i3

/-- A later change and rollback, stopped by crashes, keep versions 10 and 20. -/
example : Regular (exEvents ++ [.commit 30, .ingest none [exRec ['a'] 7], .rollbackCrash 0,
      .ingestCrash none [exRec ['a'] 8, exDel ['b']] 1, .commitCrash 40 (fun id => id == ['b'])]) ∧
    ∃ c, runEvents asciiU [] (exEvents ++ [.commit 30, .ingest none [exRec ['a'] 7], .rollbackCrash 0,
      .ingestCrash none [exRec ['a'] 8, exDel ['b']] 1, .commitCrash 40 (fun id => id == ['b'])]) = .ok c ∧
    history c ['a'] = .ok [(none, exData ['a'] 8), (some 30, []), (some 20, exData ['a'] 2),
      (some 10, exData ['a'] 1)] := by
  refine ⟨⟨by decide, ?_⟩, _, rfl, by decide⟩
  intro e he
  simp only [exEvents, List.cons_append, List.nil_append, List.mem_cons, List.not_mem_nil, or_false] at he
  rcases he with rfl | rfl | rfl | rfl | rfl | rfl | rfl | rfl | rfl | rfl <;>
    simp [NoSpan, Event.stream, partition, partitionLoop]

/-- **C08** `rollback_records`, after any events including crashed ones, leaves no uncommitted data and the
committed versions of every record as they were; a record is gone exactly if it has no committed version.
Running it again, or after it crashed at any write, gives the same collection. -/
theorem C08_rollback (U : Unicode) (es : List Event) (hes : Regular es) (c : Coll)
    (hc : runEvents U [] es = .ok c) :
    ∃ c', rollbackRecords c = .ok c' ∧
      (∀ id, ∃ items items', history c id = .ok items ∧ history c' id = .ok items' ∧
        SameVersions (committedOf items') (committedOf items) ∧ (∀ vd ∈ items', vd.1 ≠ none) ∧
        (findRecord id c' = none ↔ committedOf items = [])) ∧
      rollbackRecords c' = .ok c' ∧
      ∀ n c'', rollbackCrash c n = .ok c'' → rollbackRecords c'' = .ok c' := by
  obtain ⟨s, h1, h2⟩ := reach hes hc
  obtain ⟨c', e1, h3⟩ := rollback_spec h2
  have e2 := rollbackRecords_closed h2
  rw [e1] at e2
  refine ⟨c', e1, fun id => ?_, ?_, ?_⟩
  · obtain ⟨items, i1, i2⟩ := Rep.history h2 id
    obtain ⟨items', j1, j2⟩ := Rep.history h3 id
    have i3 := i2.committed
    have j3 := j2.committed
    rw [committedOf_states] at i3 j3
    refine ⟨items, items', i1, j1, (j3.trans i3.symm).same, ?_, ?_⟩
    · intro vd hvd
      obtain ⟨b, hb, e, _⟩ := j2.mem hvd
      simp [Hist.states, Hist.rollback] at hb
      obtain ⟨x, y, _, rfl⟩ := hb; rw [e]; simp
    · have hr := h3.rep id
      have e : committedOf items = [] ↔ (s id).committed = [] := by
        have := i3.fst
        constructor
        · intro e; rw [e] at this; simpa using this.symm
        · intro e; rw [e] at this; simpa using this
      rw [e]
      constructor
      · intro hn; rw [hn] at hr; exact (Rep.none_iff.1 hr).1
      · intro he
        cases hf : findRecord id c' with
        | none => rfl
        | some doc =>
          rw [hf] at hr
          simp only [Hist.rollback, he] at hr
          exact hr.elim
  · have e3 := rollbackRecords_closed h3
    cases e2
    rw [e3, List.filterMap_filterMap]
    congr 1
    apply List.filterMap_congr
    intro d hd
    cases hr : rolled d with
    | none => rfl
    | some d' =>
      obtain ⟨v, hv⟩ := rolled_version (h2.rep_mem hd) hr
      simp [rolled, rbOp_committed hv, docOp?]
  · intro n c'' hn
    rw [rollback_after_crash h2 n hn, e2]

/-- A crashed ingest of one new and one known record, then a rollback. -/
example : Regular [.ingest none [exRec ['a'] 1], .commit 10, .ingestCrash none [exRec ['b'] 2, exRec ['a'] 2] 2] ∧
    ∃ c, runEvents asciiU [] [.ingest none [exRec ['a'] 1], .commit 10,
      .ingestCrash none [exRec ['b'] 2, exRec ['a'] 2] 2] = .ok c ∧ c.length = 2 ∧
      rollbackRecords c = .ok [⟨['a'], some 10, exData ['a'] 1, []⟩] := by
  refine ⟨⟨by decide, ?_⟩, _, rfl, by decide, by decide⟩
  intro e he
  simp only [List.mem_cons, List.not_mem_nil, or_false] at he
  rcases he with rfl | rfl | rfl <;> simp [NoSpan, Event.stream, partition, partitionLoop]

/-- **C09** (full statement) the versions of a record are distinct and later versions are greater, whatever
the clock shows at the commits. -/
def C09_full : Prop := ∀ (U : Unicode) (es : List Event) (c : Coll) (id : PyStr) (items : List VersionedData),
  (∀ e ∈ es, NoSpan 200 e.stream) → runEvents U [] es = .ok c → history c id = .ok items →
    ((committedOf items).map Prod.fst).Pairwise (· > ·)

/-- **C09 is false of the code**: two commits within one millisecond give two states one version. -/
theorem C09_refuted : ¬ C09_full := by
  intro h
  have := h asciiU [.ingest none [exRec ['a'] 1], .commit 10, .ingest none [exRec ['a'] 2], .commit 10]
    [⟨['a'], some 10, exData ['a'] 2, [(10, [⟨[], { dc := some [(['x'], .int 1)] }⟩])]⟩] ['a']
    [(some 10, exData ['a'] 2), (some 10, exData ['a'] 1)] (by
      intro e he
      simp only [List.mem_cons, List.not_mem_nil, or_false] at he
      rcases he with rfl | rfl | rfl | rfl <;> simp [NoSpan, Event.stream, partition, partitionLoop])
    (by decide) (by decide)
  revert this; decide

/-- **C09** (what holds) when the clock shows a greater time at a commit than at all earlier ones, the
committed version is greater than every version in the collection.  Missing: the code does not check
the clock. -/
theorem C09_later_versions_partial (U : Unicode) (es : List Event) (v : Int) (hes : Regular (es ++ [.commit v]))
    (c c' : Coll) (hc : runEvents U [] es = .ok c) (hc' : runEvents U [] (es ++ [.commit v]) = .ok c') :
    (∀ id items, history c id = .ok items → ∀ w ∈ (committedOf items).map Prod.fst, w < v) ∧
    (∀ id items, history c' id = .ok items → ((committedOf items).map Prod.fst).Pairwise (· > ·)) := by
  constructor
  · intro id items hi w hw
    obtain ⟨s, h1, h2⟩ := reach hes.left hc
    obtain ⟨items', e, hs⟩ := Rep.history h2 id
    rw [hi] at e; cases e
    have hs := hs.committed
    rw [committedOf_states] at hs
    rw [hs.fst, List.mem_map] at hw
    obtain ⟨vd, hvd, rfl⟩ := hw
    rcases h1.versions id vd hvd with h | h
    · simp [Store.empty] at h
    · have := hes.clock
      rw [List.filterMap_append] at this
      exact (List.pairwise_append.1 this).2.2 _ h v (by simp [Event.version])
  · intro id items hi
    obtain ⟨s, h1, h2⟩ := reach hes hc'
    obtain ⟨items', e, hs⟩ := Rep.history h2 id
    rw [hi] at e; cases e
    have hs := hs.committed
    rw [committedOf_states] at hs
    rw [hs.fst]; exact (h2.rep id).desc

example : Regular (exEvents ++ [.commit 21]) := by
  refine ⟨by decide, ?_⟩
  intro e he
  simp only [exEvents, List.cons_append, List.nil_append, List.mem_cons, List.not_mem_nil, or_false] at he
  rcases he with rfl | rfl | rfl | rfl | rfl | rfl <;> simp [NoSpan, Event.stream, partition, partitionLoop]

/-- **C10** (full statement) ingesting exactly the current data of a record writes nothing. -/
def C10_full : Prop := ∀ (U : Unicode) (es : List Event) (c : Coll) (r : Record) (doc : MongoRecord),
  Regular es → runEvents U [] es = .ok c → findRecord r.id c = some doc → prepareRecordData U r = doc.data →
    ∃ st, ingestSized U none 200 c [r] = .ok st ∧ st.written = []

/-- **C10 is false of the code**: a record with a NaN is changed by ingesting the same data again. -/
theorem C10_refuted : ¬ C10_full := by
  intro h
  obtain ⟨st, h1, h2⟩ := h asciiU [.ingest none [⟨['a'], [(.str ['x'], .float .nan)]⟩], .commit 10]
    [⟨['a'], some 10, [(['x'], .float .nan), ("_id".toList, .str ['a'])], []⟩]
    ⟨['a'], [(.str ['x'], .float .nan)]⟩ ⟨['a'], some 10, [(['x'], .float .nan), ("_id".toList, .str ['a'])], []⟩
    ⟨by decide, by
      intro e he
      simp only [List.mem_cons, List.not_mem_nil, or_false] at he
      rcases he with rfl | rfl <;> simp [NoSpan, Event.stream, partition, partitionLoop]⟩
    (by decide) (by decide) (by decide)
  have e : ingestSized asciiU none 200
    [⟨['a'], some 10, [(['x'], .float .nan), ("_id".toList, .str ['a'])], []⟩]
    [⟨['a'], [(.str ['x'], .float .nan)]⟩] = .ok st := h1
  have : (ingestSized asciiU none 200
    [⟨['a'], some 10, [(['x'], .float .nan), ("_id".toList, .str ['a'])], []⟩]
    [⟨['a'], [(.str ['x'], .float .nan)]⟩]).toOption.map (fun st => st.written.length) = some 1 := by decide
  rw [e] at this
  simp [Except.toOption, h2] at this

/-- **C10** (what holds) ingesting data equal (in Python's sense) to the current data of a committed or a
never committed record writes nothing, so the collection is the same and a commit gives the record no new
version.  Missing: data with a NaN, which is not equal to itself; and a record with an uncommitted change
of a committed version, for which the same update is written again. -/
theorem C10_reingest_partial (U : Unicode) (es : List Event) (hes : Regular es) (c : Coll)
    (hc : runEvents U [] es = .ok c) (mf : Option PyStr) (r : Record) (doc : MongoRecord)
    (hd : findRecord r.id c = some doc) (hdoc : doc.version ≠ none ∨ (doc.diffs = [] ∧ r.data ≠ []))
    (hsame : pyEq (.dict (prepareRecordData U r)) (.dict doc.data) = true) :
    (∃ st, ingestSized U mf 200 c [r] = .ok st ∧ st.written = []) ∧ ingest U mf c [r] = .ok c ∧
    (doc.version ≠ none → ∀ v, findRecord r.id (commitColl v c) = some doc) := by
  obtain ⟨s, h1, h2⟩ := reach hes hc
  have hr := h2.rep r.id
  rw [hd] at hr
  have hop : opFor U mf (findRecord r.id c) r = .ok none := by
    rw [hd]
    cases hv : doc.version with
    | some v => exact opFor_same_committed hv hr.data_wf hsame
    | none =>
      rcases hdoc with h | h
      · exact absurd hv h
      · exact opFor_same_new hv h.1 h.2 hr.data_wf hsame
  have := ingestSized_one h2.nodup hop
  refine ⟨⟨_, this, rfl⟩, by rw [ingest, this]; rfl, ?_⟩
  intro hv v
  rw [commitColl, findRecord_map (by intro d; split <;> rfl), hd]
  have : doc.version.isNone = false := by cases h : doc.version <;> simp_all
  simp only [Option.map, this, Bool.false_eq_true, if_false]

/-- The committed record with `x = 1` and the data `x = True`, equal in Python's sense. -/
example : ∃ c doc, runEvents asciiU [] [.ingest none [exRec ['a'] 1], .commit 10] = .ok c ∧
    findRecord ['a'] c = some doc ∧ doc.version ≠ none ∧
    pyEq (.dict (prepareRecordData asciiU ⟨['a'], [(.str ['x'], .bool true)]⟩)) (.dict doc.data) = true :=
  ⟨_, _, rfl, rfl, by decide, by decide⟩

theorem Hist.ingest_cons (mf : Option PyStr) (new : Dict) (v : Int) (old : Dict) (cs : List (Int × Dict))
    (p : Option Dict) : Hist.ingest mf new ⟨(v, old) :: cs, p⟩ =
      ⟨(v, old) :: cs, if sameData mf new old then none else some new⟩ := rfl

/-- The effect of ingesting one record with committed versions. -/
theorem ingest_committed_record {U : Unicode} {mf : Option PyStr} {es : List Event} (hes : Regular es) {c : Coll}
    (hc : runEvents U [] es = .ok c) (r : Record) {items : List VersionedData}
    (hi : history c r.id = .ok items) {v : Int} {old : Dict} {rest} (hl : committedOf items = (v, old) :: rest) :
    ∃ c' doc', ingest U mf c [r] = .ok c' ∧ findRecord r.id c' = some doc' ∧
      (sameData mf (prepareRecordData U r) old = true → doc'.version = some v ∧ DEq plainClass doc'.data old) ∧
      (sameData mf (prepareRecordData U r) old = false →
        doc'.version = none ∧ DEq plainClass doc'.data (prepareRecordData U r)) ∧
      (∀ id, id ≠ r.id → findRecord id c' = findRecord id c) := by
  obtain ⟨s, h1, h2⟩ := reach hes hc
  obtain ⟨items', e, hs⟩ := Rep.history h2 r.id
  rw [hi] at e; cases e
  have hs := hs.committed
  rw [committedOf_states, hl] at hs
  obtain ⟨c', e1, e2, _, e3⟩ := ingest_one (U := U) (mf := mf) h2 r (prepareRecordData_wf U r)
  generalize hh : s r.id = h at hs e3
  obtain ⟨cs, p⟩ := h
  cases hs with
  | @cons x y xs ys hxy hrest =>
    obtain ⟨v', old'⟩ := y
    obtain ⟨rfl, hold⟩ := hxy
    rw [Hist.ingest_cons] at e3
    have hsame : sameData mf (prepareRecordData U r) old = sameData mf (prepareRecordData U r) old' := by
      have hwf := prepareRecordData_wf U r
      obtain ⟨n1, ch1, _, a1, _, a2, _⟩ := computeChanges_spec (K := plainClass) (mf := mf) hwf (DEq.refl hold.left)
      obtain ⟨n2, ch2, _, b1, _, b2, _⟩ := computeChanges_spec (K := plainClass) (mf := mf) hwf hold
      rw [a1] at b1; cases b1
      rw [Bool.eq_iff_iff, ← a2, ← b2]
    rw [hsame]
    cases hsd : sameData mf (prepareRecordData U r) old' with
    | true =>
      rw [hsd] at e3
      simp only [if_true] at e3
      cases hf : findRecord r.id c' with
      | none => rw [hf] at e3; have := (Rep.none_iff.1 e3).1; simp at this
      | some doc' =>
        rw [hf] at e3
        have e3 : DocRep plainClass doc' (some v) old' ys ∧ _ := e3
        exact ⟨c', doc', e1, hf, fun _ => ⟨e3.1.version, e3.1.data.trans hold.symm⟩, by simp, e2⟩
    | false =>
      rw [hsd] at e3
      simp only [Bool.false_eq_true, if_false] at e3
      cases hf : findRecord r.id c' with
      | none => rw [hf] at e3; have := (Rep.none_iff.1 e3).1; simp at this
      | some doc' =>
        rw [hf] at e3
        have e3 : DocRep plainClass doc' none (prepareRecordData U r) _ := e3
        exact ⟨c', doc', e1, hf, by simp, fun _ => ⟨e3.version, e3.data⟩, e2⟩

/-- **C11** the effect of ingesting one record.  With a committed version (the last one being `(v, old)`):
its current data is the new data, and it is uncommitted exactly if that differs from `old`.  Without a
committed version: a delete leaves no record, other data becomes the uncommitted data.  Other records
stay as they are. -/
theorem C11_ingest_one (U : Unicode) (es : List Event) (hes : Regular es) (c : Coll)
    (hc : runEvents U [] es = .ok c) (r : Record) (items : List VersionedData)
    (hi : history c r.id = .ok items) :
    ∃ c', ingest U none c [r] = .ok c' ∧ (∀ id, id ≠ r.id → findRecord id c' = findRecord id c) ∧
      match committedOf items with
      | (v, old) :: _ => ∃ doc', findRecord r.id c' = some doc' ∧
          simEq (.dict doc'.data) (.dict (prepareRecordData U r)) = true ∧
          doc'.version = (if pyEq (.dict (prepareRecordData U r)) (.dict old) then some v else none)
      | [] => if r.data = [] then findRecord r.id c' = none else
          ∃ doc', findRecord r.id c' = some doc' ∧ doc'.version = none ∧ doc'.diffs = [] ∧
            simEq (.dict doc'.data) (.dict (prepareRecordData U r)) = true := by
  cases hl : committedOf items with
  | cons vd rest =>
    obtain ⟨v, old⟩ := vd
    obtain ⟨c', doc', h1, h2, h3, h4, h5⟩ := ingest_committed_record (U := U) (mf := none) hes hc r hi hl
    refine ⟨c', h1, h5, doc', h2, ?_⟩
    cases hs : sameData none (prepareRecordData U r) old with
    | true =>
      obtain ⟨a, b⟩ := h3 hs
      have hs : pyEq (.dict (prepareRecordData U r)) (.dict old) = true := hs
      exact ⟨simEq_trans b.sim (simEq_symm (prepareRecordData_wf U r) b.wfr (simEq_of_pyEq hs)), by simp [a, hs]⟩
    | false =>
      obtain ⟨a, b⟩ := h4 hs
      have hs : pyEq (.dict (prepareRecordData U r)) (.dict old) = false := hs
      exact ⟨b.sim, by simp [a, hs]⟩
  | nil =>
    obtain ⟨s, h1, h2⟩ := reach hes hc
    obtain ⟨items', e, hs⟩ := Rep.history h2 r.id
    rw [hi] at e; cases e
    have hs := hs.committed
    rw [committedOf_states, hl] at hs
    obtain ⟨c', e1, e2, _, e3⟩ := ingest_one (U := U) (mf := none) h2 r (prepareRecordData_wf U r)
    refine ⟨c', e1, e2, ?_⟩
    have hcs : (s r.id).committed = [] := by cases hh : (s r.id).committed <;> simp_all [VersEq]
    have hemp := prepareRecordData_isEmpty U r
    have hh : (s r.id).ingest none (prepareRecordData U r) =
        ⟨[], if (prepareRecordData U r).isEmpty then none else some (prepareRecordData U r)⟩ := by
      rw [Hist.ingest, hcs]
    rw [hh, hemp] at e3
    by_cases hd : r.data = []
    · have : r.isDelete = true := by simp [Record.isDelete, hd]
      rw [this] at e3
      simp only [hd, if_true] at e3 ⊢
      cases hf : findRecord r.id c' with
      | none => rfl
      | some doc' => rw [hf] at e3; exact e3.elim
    · have : r.isDelete = false := by simp [Record.isDelete, hd]
      rw [this] at e3
      simp only [hd, Bool.false_eq_true, if_false] at e3 ⊢
      cases hf : findRecord r.id c' with
      | none => rw [hf] at e3; have := (Rep.none_iff.1 e3).2; simp at this
      | some doc' =>
        rw [hf] at e3
        have e3 : DocRep plainClass doc' none (prepareRecordData U r) [] := e3
        have hdiffs : doc'.diffs = [] := by
          cases hd : doc'.diffs with
          | nil => rfl
          | cons kv _ => have := (e3.keys kv.1).1 (by simp [hd]); simp at this
        exact ⟨doc', rfl, e3.version, hdiffs, e3.data.sim⟩

/-- Re-adding a deleted record keeps its history. -/
example : ∃ c, runEvents asciiU [] [.ingest none [exRec ['a'] 1], .commit 10, .ingest none [exDel ['a']],
      .commit 20, .ingest none [exRec ['a'] 3]] = .ok c ∧
    history c ['a'] = .ok [(none, exData ['a'] 3), (some 20, []), (some 10, exData ['a'] 1)] :=
  ⟨_, rfl, by decide⟩

/-- **C12** with a modified field that both the new data and the last committed data have: if nothing else
differs the record stays at (or returns to) its last committed version; otherwise the new data, with the
modified field, becomes the uncommitted data. -/
theorem C12_modified_field (U : Unicode) (es : List Event) (hes : Regular es) (c : Coll)
    (hc : runEvents U [] es = .ok c) (m : PyStr) (r : Record) (items : List VersionedData)
    (hi : history c r.id = .ok items) (v : Int) (old : Dict) (rest) (hl : committedOf items = (v, old) :: rest)
    (hm : ahas m (prepareRecordData U r) = true) (hm' : ahas m old = true) :
    ∃ c' doc', ingest U (some m) c [r] = .ok c' ∧ findRecord r.id c' = some doc' ∧
      if pyEq (.dict ((prepareRecordData U r).filter (fun kv => decide (kv.1 ≠ m))))
          (.dict (old.filter (fun kv => decide (kv.1 ≠ m)))) then
        doc'.version = some v ∧ simEq (.dict doc'.data) (.dict old) = true
      else doc'.version = none ∧ simEq (.dict doc'.data) (.dict (prepareRecordData U r)) = true := by
  obtain ⟨c', doc', h1, h2, h3, h4, h5⟩ := ingest_committed_record (U := U) (mf := some m) hes hc r hi hl
  refine ⟨c', doc', h1, h2, ?_⟩
  have e : sameData (some m) (prepareRecordData U r) old =
      pyEq (.dict ((prepareRecordData U r).filter (fun kv => decide (kv.1 ≠ m))))
          (.dict (old.filter (fun kv => decide (kv.1 ≠ m)))) := by
    simp [sameData, hm, hm']
  rw [e] at h3 h4
  split
  · rename_i h; exact ⟨(h3 h).1, (h3 h).2.sim⟩
  · rename_i h
    have h := h4 (by simpa using h)
    exact ⟨h.1, h.2.sim⟩

/-- Only `m` differs: the uncommitted change is dropped; something else differs: it is stored. -/
example :
    let rec1 (x m : Int) : Record := ⟨['a'], [(.str ['x'], .int x), (.str ['m'], .int m)]⟩
    let c := [(⟨['a'], none, prepareRecordData asciiU (rec1 2 5),
      [(10, [⟨[], { dc := some [(['x'], .int 1), (['m'], .int 1)] }⟩])]⟩ : MongoRecord)]
    runEvents asciiU [] [.ingest none [rec1 1 1], .commit 10, .ingest none [rec1 2 5]] = .ok c ∧
    (∃ c', ingest asciiU (some ['m']) c [rec1 1 7] = .ok c' ∧
      history c' ['a'] = .ok [(some 10, [(['x'], .int 1), ("_id".toList, .str ['a']), (['m'], .int 1)])]) ∧
    (∃ c' d, ingest asciiU (some ['m']) c [rec1 3 7] = .ok c' ∧ findRecord ['a'] c' = some d ∧
      aget ['m'] d.data = some (.int 7)) :=
  ⟨by decide, ⟨_, rfl, by decide⟩, _, _, rfl, rfl, by decide⟩

/-- **C14** (full statement) every id has at most one record after an ingest, in the state given by its last
occurrence in the stream. -/
def C14_full : Prop := ∀ (U : Unicode) (es : List Event) (c c' : Coll) (mf : Option PyStr) (records : List Record),
  Regular es → runEvents U [] es = .ok c → ingest U mf c records = .ok c' → (c'.map MongoRecord.id).Nodup

/-- 200 copies of one record, then another copy. -/
def exSpan : List Record := List.replicate 200 (exRec ['a'] 1) ++ [exRec ['a'] 2]

set_option maxRecDepth 100000 in
/-- **C14 is false of the code**: an id that occurs in two lookup batches is inserted twice. -/
theorem C14_refuted : ¬ C14_full := by
  intro h
  have := h asciiU [] [] [⟨['a'], none, exData ['a'] 1, []⟩, ⟨['a'], none, exData ['a'] 2, []⟩] none exSpan
    ⟨by decide, by simp⟩ rfl (by decide)
  revert this; decide

/-- **C14** (what holds) if no id occurs in two lookup batches of 200 records: every id has at most one
record after the ingest; a record in the stream is in the state that ingesting only its last occurrence gives;
the other records stay as they are.  Missing: ids repeated across batches. -/
theorem C14_last_wins_partial (U : Unicode) (es : List Event) (hes : Regular es) (c : Coll)
    (hc : runEvents U [] es = .ok c) (mf : Option PyStr) (records : List Record) (hspan : NoSpan 200 records) :
    ∃ c', ingest U mf c records = .ok c' ∧ (c'.map MongoRecord.id).Nodup ∧
      (∀ id, (∀ r ∈ records, r.id ≠ id) → findRecord id c' = findRecord id c) ∧
      ∀ pre r post, records = pre ++ r :: post → (∀ r' ∈ post, r'.id ≠ r.id) →
        ∃ c1, ingest U mf c [r] = .ok c1 ∧ findRecord r.id c' = findRecord r.id c1 := by
  obtain ⟨s, h1, h2⟩ := reach hes hc
  obtain ⟨c', e1, e2, e3⟩ := ingest_find (U := U) (mf := mf) h2 (fits_plain U records) hspan
  refine ⟨c', e1, e2, ?_, ?_⟩
  · intro id hid
    rw [e3, lastRec_none.2 hid]; rfl
  · intro pre r post he hpost
    obtain ⟨c1, f1, _, f2, _⟩ := ingest_one (U := U) (mf := mf) h2 r (prepareRecordData_wf U r)
    refine ⟨c1, f1, ?_⟩
    have : lastRec r.id records = some r := by
      rw [he, lastRec_append, lastRec_cons, lastRec_none.2 hpost]; simp
    rw [e3, f2, this]; rfl

/-- One id three times in one batch. -/
example : NoSpan 200 [exRec ['a'] 1, exRec ['b'] 1, exRec ['a'] 2, exRec ['a'] 3] ∧
    ingest asciiU none [] [exRec ['a'] 1, exRec ['b'] 1, exRec ['a'] 2, exRec ['a'] 3] =
      .ok [⟨['a'], none, exData ['a'] 3, []⟩, ⟨['b'], none, exData ['b'] 1, []⟩] :=
  ⟨by simp [NoSpan, partition, partitionLoop], by decide⟩

/-- **C15** the counts of an ingest are the numbers of records that are new, that are changed and that are
gone afterwards. -/
theorem C15_counts (U : Unicode) (es : List Event) (hes : Regular es) (c : Coll)
    (hc : runEvents U [] es = .ok c) (mf : Option PyStr) (records : List Record) (hspan : NoSpan 200 records) :
    ∃ c' n, ingest U mf c records = .ok c' ∧ ingestCounts U mf c records = .ok n ∧
      n.inserted = (c'.filter (fun d => decide (∀ d' ∈ c, d'.id ≠ d.id))).length ∧
      n.updated = (c.filter (fun d => decide (∃ d' ∈ c', d'.id = d.id ∧ d' ≠ d))).length ∧
      n.deleted = (c.filter (fun d => decide (∀ d' ∈ c', d'.id ≠ d.id))).length := by
  obtain ⟨s, h1, h2⟩ := reach hes hc
  obtain ⟨st, f1, f2, f3, f4, f5, f6⟩ := ingestSized_spec (U := U) (mf := mf) h2 (by omega) (fits_plain U records) hspan
  obtain ⟨b1, b2⟩ := bulkWrite_spec h2.nodup f4 f5
  have hk := bulkCounts_spec h2.nodup f4 f5
  refine ⟨st.coll, _, by rw [ingest, f1]; rfl, by rw [ingestCounts, f1]; rfl, ?_⟩
  have none_iff : ∀ (c : Coll) (id : PyStr), (findRecord id c).isNone = decide (∀ d' ∈ c, d'.id ≠ id) := by
    intro c id
    rw [Bool.eq_iff_iff]
    simp only [Option.isNone_iff_eq_none, findRecord_none, ids, List.mem_map, decide_eq_true_eq]
    constructor
    · intro h d hd e; exact h ⟨d, hd, e⟩
    · rintro h ⟨d, hd, e⟩; exact h d hd e
  rw [batchCounts_eq, hk, ← f2]
  refine ⟨?_, ?_, ?_⟩
  · simp only; congr 1; apply List.filter_congr; intro d _; exact none_iff c d.id
  · simp only
    congr 1
    apply List.filter_congr
    intro d _
    rw [f2, Bool.eq_iff_iff, decide_eq_true_eq]
    cases hf : findRecord d.id (bulkWrite c st.written.flatten) with
    | none =>
      simp only [differs, Bool.false_eq_true, false_iff, not_exists]
      rintro d' ⟨h1, h2, _⟩
      exact findRecord_none.1 hf (List.mem_map.2 ⟨d', h1, h2⟩)
    | some x =>
      simp only [differs, Bool.not_eq_true', decide_eq_false_iff_not]
      constructor
      · intro h; exact ⟨x, findRecord_mem hf, findRecord_id hf, h⟩
      · rintro ⟨d', h1, h2, h3⟩
        have := findRecord_of_mem b1 h1
        rw [h2, hf] at this; cases this; exact h3
  · simp only; congr 1; apply List.filter_congr; intro d _; exact none_iff st.coll d.id

/-- Two inserted, one changed, one removed (a pending record deleted), one unchanged. -/
example : ∃ c, runEvents asciiU [] [.ingest none [exRec ['a'] 1, exRec ['b'] 1], .commit 10,
      .ingest none [exRec ['c'] 1]] = .ok c ∧
    ingestCounts asciiU none c [exRec ['a'] 2, exRec ['b'] 1, exDel ['c'], exRec ['d'] 1, exRec ['e'] 1, exDel ['f']]
      = .ok ⟨2, 1, 1⟩ := ⟨_, rfl, by decide⟩

end Splitgill.Props
