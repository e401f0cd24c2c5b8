import Verif.Proof.Writers8
/-!
# Proofs about processes that ingest and commit: the histories of the records over schedules
-/

namespace Splitgill

variable {U : Unicode} {size : Nat} {db id : PyStr} {own : PyStr → Bool} {p : Nat} {old : List (Int × Dict)} {D0 : Option (List MongoRecord)} {T c c' : Int}

/-- A process that gives versions after an action has given them before, or has just read the clock. -/
theorem data_change {s : WritersState} (a : WriterAct) {q : Nat} {v : Int} (hal : ((s.act U size db a).procs q).alive = true)
    (hpc : ((s.act U size db a).procs q).pc = .data v) :
    ((s.procs q).alive = true ∧ (s.procs q).pc = .data v) ∨ ∃ pick, a = .step q v pick ∧ (s.procs q).pc = .clock := by
  cases proc_change (U := U) (size := size) (db := db) (p := q) s a with
  | same _ e => rw [e] at hal hpc; exact .inl ⟨hal, hpc⟩
  | crash _ e => rw [e] at hal; cases hal
  | raise _ e =>
    rw [e] at hpc hal
    simp only [Writer.raise] at hpc
    split at hpc
    · exact .inl ⟨hal, hpc⟩
    · split at hpc <;> cases hpc
  | step clock pick ea al hst =>
    generalize (s.act U size db a).mongo = m' at *
    generalize hw : (s.act U size db a).procs q = w' at *
    cases hst with
    | clock _ _ hpc' =>
      injection hpc with hpc
      subst hpc
      exact .inr ⟨pick, ea, hpc'⟩
    | same _ => exact .inl ⟨al, hpc⟩
    | failed _ _ => cases hpc
    | returns _ _ _ => cases hpc
    | ingest _ _ => exact .inl ⟨al, hpc⟩
    | locked _ _ _ _ => cases hpc
    | acquire _ _ _ _ => cases hpc
    | release _ _ r _ => cases hpc
    | raising _ _ _ => cases hpc
    | noData _ _ _ _ => cases hpc
    | nothing _ _ _ => cases hpc
    | options _ _ os pc _ _ _ _ _ hpc' => rcases hpc' with rfl | rfl | rfl | ⟨l, rfl | rfl | rfl⟩ | rfl <;> cases hpc
    | begin _ _ _ _ => exact .inl ⟨al, hpc⟩
    | data _ _ _ _ _ => exact .inl ⟨al, hpc⟩
    | wait _ _ _ _ => exact .inl ⟨al, hpc⟩
    | dataEnd _ _ v' _ _ _ _ => cases hpc
    | optionsData _ _ _ _ _ => exact .inl ⟨al, hpc⟩
    | optionsEnd _ _ v' _ => cases hpc

theorem docsWith_version {v : Int} {k : Nat} {c : Coll} (h : docsWith id c = [] ∨ ∃ d, docsWith id c = [d]) :
    docsWith id (commitNth v k c) = docsWith id c ∨
      ∃ d, docsWith id c = [d] ∧ d.version = none ∧ docsWith id (commitNth v k c) = [{ d with version := some v }] := by
  have hf : List.Forall₂ (fun d d' => d' = d ∨ (d.version = none ∧ d' = { d with version := some v })) (docsWith id c) (docsWith id (commitNth v k c)) := by
    clear h
    have h := commitNth_forall (v := v) k c
    generalize commitNth v k c = c' at h
    induction h with
    | nil => exact .nil
    | @cons d d' c c' hd _ ih =>
      have e : d'.id = d.id := by
        rcases hd with rfl | ⟨_, rfl⟩ <;> rfl
      unfold docsWith at ih ⊢
      by_cases hx : d.id = id
      · rw [List.filter_cons_of_pos (by simpa using hx), List.filter_cons_of_pos (by simpa [e] using hx)]
        exact .cons hd ih
      · rw [List.filter_cons_of_neg (by simpa using hx), List.filter_cons_of_neg (by simpa [e] using hx)]
        exact ih
  generalize docsWith id (commitNth v k c) = D at *
  rcases h with h | ⟨d, h⟩
  · rw [h] at hf ⊢; cases hf; exact .inl rfl
  · rw [h] at hf ⊢
    cases hf with
    | cons h1 h2 =>
      cases h2
      rcases h1 with rfl | ⟨h1, rfl⟩
      · exact .inl rfl
      · exact .inr ⟨d, rfl, h1, rfl⟩

/-- The history of a record of process `p`, while the clock has reached `c`. If `D0` is given, the record has the documents `D0`, which have no
uncommitted data, until it is written. -/
structure WriterHist (old : List (Int × Dict)) (D0 : Option (List MongoRecord)) (id : PyStr) (p : Nat) (db : PyStr) (T c : Int) (s : WritersState) : Prop where
  phase : IdPhase old T id (docsWith id (s.mongo.data db)) (s.procs p).ingest
  nodup : ((s.procs p).ingest.chunks.flatten.map Record.id).Nodup
  le : T ≤ c
  run : ∀ q v, (s.procs q).alive = true → (s.procs q).pc = .data v → T ≤ v ∧ v ≤ c
  fixed : ∀ D, D0 = some D → (∀ d ∈ D, d.version ≠ none) ∧ ((s.procs p).ingest.HasFor id → docsWith id (s.mongo.data db) = D)

/-- What `FreshVersions` says of one action. -/
def FreshAct (U : Unicode) (size : Nat) (db : PyStr) (s : WritersState) (a : WriterAct) : Prop :=
  ∀ q clock pick v, a = .step q clock pick → (s.procs q).pc = .data v → ∀ d ∈ s.mongo.data db, d.version = none →
    { d with version := some v } ∈ (s.act U size db a).mongo.data db → v ∉ d.getVersions

theorem FreshVersions.head {s : WritersState} {a : WriterAct} {acts : List WriterAct} (h : FreshVersions U size db s (a :: acts)) : FreshAct U size db s a := by
  intro q clock pick v e hq
  subst e
  have := h.1
  simp only [hq] at this
  exact this

theorem WriterHist.act {s : WritersState} (hl : WritersLock db s) (hs : s.Split own p) (hid : own id = true) (a : WriterAct) (hfr : FreshAct U size db s a)
    (hcc : c ≤ c') (hc : ∀ t, a.clock? = some t → c ≤ t ∧ t ≤ c') (h : WriterHist old D0 id p db T c s) :
    ∃ T', WriterHist old D0 id p db T' c' (s.act U size db a) := by
  have hrun : ∀ q v, ((s.act U size db a).procs q).alive = true → ((s.act U size db a).procs q).pc = .data v → T ≤ v ∧ v ≤ c' := by
    intro q v h1 h2
    rcases data_change a h1 h2 with ⟨h3, h4⟩ | ⟨pick, e, _⟩
    · obtain ⟨h5, h6⟩ := h.run q v h3 h4
      exact ⟨h5, Int.le_trans h6 hcc⟩
    · obtain ⟨h5, h6⟩ := hc v (by rw [e]; rfl)
      exact ⟨Int.le_trans h.le h5, h6⟩
  have hle := Int.le_trans h.le hcc
  cases own_change (U := U) (size := size) (db := db) hs a with
  | none e hi => exact ⟨T, by rw [hi, docsWith_own hid e]; exact h.phase, by rw [hi]; exact h.nodup, hle, hrun,
      fun D e' => ⟨(h.fixed D e').1, by rw [hi, docsWith_own hid e]; exact (h.fixed D e').2⟩⟩
  | version q clock pick v k ea hq ha e hi =>
    rcases docsWith_version (v := v) (k := k) h.phase.kept.1 with e' | ⟨d, h1, h2, h3⟩
    · exact ⟨T, by rw [hi, e, e']; exact h.phase, by rw [hi]; exact h.nodup, hle, hrun,
        fun D e2 => ⟨(h.fixed D e2).1, by rw [hi, e, e']; exact (h.fixed D e2).2⟩⟩
    · obtain ⟨hT, hvc⟩ := h.run q v ha hq
      have hd : d ∈ s.mongo.data db := by
        have : d ∈ docsWith id (s.mongo.data db) := by rw [h1]; exact List.mem_singleton.2 rfl
        exact (List.mem_filter.1 this).1
      have hd' : { d with version := some v } ∈ (s.act U size db a).mongo.data db := by
        have : { d with version := some v } ∈ docsWith id (commitNth v k (s.mongo.data db)) := by rw [h3]; exact List.mem_singleton.2 rfl
        rw [e]
        exact (List.mem_filter.1 this).1
      have hfresh := hfr q clock pick v ea hq d hd h2 hd'
      have hph := h.phase
      rw [h1] at hph
      refine ⟨v, by rw [hi, e, h3]; exact hph.version h2 hT hfresh, by rw [hi]; exact h.nodup, Int.le_trans hvc hcc, ?_, fun D e2 => ⟨(h.fixed D e2).1, fun h' => ?_⟩⟩
      rotate_left
      · rw [hi] at h'
        have := (h.fixed D e2).2 h'
        rw [h1] at this
        exact absurd h2 ((h.fixed D e2).1 d (by rw [← this]; exact List.mem_singleton.2 rfl))
      intro q' v' h4 h5
      refine ⟨?_, (hrun q' v' h4 h5).2⟩
      rcases data_change a h4 h5 with ⟨h6, h7⟩ | ⟨pick', e', h6⟩
      · have := hl.unique q q' ⟨ha, by rw [hq]; rfl⟩ ⟨h6, by rw [h7]; rfl⟩
        subst this
        rw [hq] at h7
        cases h7
        exact Int.le_refl _
      · rw [ea] at e'
        injection e' with e'
        subst e'
        rw [hq] at h6
        cases h6
  | ingest clock pick _ _ _ _ e hi =>
    obtain ⟨_, h2⟩ := step_chunks (U := U) size (s.mongo.data db) (s.procs p).ingest
    refine ⟨T, by rw [hi, e]; exact h.phase.step h.nodup, ?_, hle, hrun, fun D e' => ⟨(h.fixed D e').1, by rw [hi, e]; exact h.phase.fixed (h.fixed D e').2⟩⟩
    rw [hi]
    rcases h2 with h2 | ⟨ch, h2⟩
    · rw [h2]; exact h.nodup
    · have := h.nodup
      rw [h2, List.flatten_cons, List.map_append, List.nodup_append] at this
      exact this.2.1

theorem hist_run (hid : own id = true) : ∀ (acts : List WriterAct) {s : WritersState} {T c : Int}, CarefulWriters U size db s acts → ClockForward acts →
    FreshVersions U size db s acts → (∀ t ∈ acts.filterMap WriterAct.clock?, c ≤ t) → WritersLock db s → s.Split own p → WriterHist old D0 id p db T c s →
    ∃ T' c', WriterHist old D0 id p db T' c' (s.run U size db acts) ∧ WritersLock db (s.run U size db acts) ∧ (s.run U size db acts).Split own p ∧
      c ≤ c' ∧ ∀ t', (∀ t ∈ acts.filterMap WriterAct.clock?, t ≤ t') → c ≤ t' → c' ≤ t'
  | [], _, T, c, _, _, _, _, hl, hs, h => ⟨T, c, h, hl, hs, Int.le_refl _, fun _ _ h => h⟩
  | a :: acts, s, T, c, hk, hf, hfr, ht, hl, hs, h => by
    have hl' := hl.act (U := U) (size := size) a (fun e => by subst e; exact hk.1)
    cases ha : a.clock? with
    | none =>
      have e : (a :: acts).filterMap WriterAct.clock? = acts.filterMap WriterAct.clock? := List.filterMap_cons_none ha
      rw [e] at ht ⊢
      unfold ClockForward at hf
      rw [e] at hf
      obtain ⟨T1, h1⟩ := h.act hl hs hid a hfr.head (Int.le_refl c) (fun t e => by rw [ha] at e; cases e)
      exact hist_run hid acts hk.2 hf hfr.2 ht hl' (hs.act a) h1
    | some t =>
      have e : (a :: acts).filterMap WriterAct.clock? = t :: acts.filterMap WriterAct.clock? := List.filterMap_cons_some ha
      rw [e] at ht ⊢
      unfold ClockForward at hf
      rw [e, List.pairwise_cons] at hf
      have hct := ht t List.mem_cons_self
      obtain ⟨T1, h1⟩ := h.act hl hs hid a hfr.head hct (fun t' e => by rw [ha] at e; injection e with e; subst e; exact ⟨hct, Int.le_refl _⟩)
      obtain ⟨T', c', h2, h3, h4, h5, h6⟩ := hist_run hid acts hk.2 hf.2 hfr.2 hf.1 hl' (hs.act a) h1
      exact ⟨T', c', h2, h3, h4, Int.le_trans hct h5, fun t' h7 h8 => h6 t' (fun x hx => h7 x (List.mem_cons_of_mem _ hx)) (h7 t List.mem_cons_self)⟩

/-! ## From the start -/

theorem CarefulWriters.split : ∀ {a b : List WriterAct} {s : WritersState}, CarefulWriters U size db s (a ++ b) →
    CarefulWriters U size db s a ∧ CarefulWriters U size db (s.run U size db a) b
  | [], _, _, h => ⟨trivial, h⟩
  | _ :: _, _, _, h => ⟨⟨h.1, (CarefulWriters.split h.2).1⟩, (CarefulWriters.split h.2).2⟩

theorem FreshVersions.split : ∀ {a b : List WriterAct} {s : WritersState}, FreshVersions U size db s (a ++ b) →
    FreshVersions U size db s a ∧ FreshVersions U size db (s.run U size db a) b
  | [], _, _, h => ⟨trivial, h⟩
  | _ :: _, _, _, h => ⟨⟨h.1, (FreshVersions.split h.2).1⟩, (FreshVersions.split h.2).2⟩

variable {before : List ApiCall} {calls : Nat → Option PyStr × List Record × Bool} {acts pre post : List WriterAct}

/-- Each record is looked after by one process at most. -/
theorem exists_owner (hd : DisjointIds (fun p => (calls p).2.1)) (id : PyStr) :
    ∃ p, ((∃ r ∈ (calls p).2.1, r.id = id) ∨ ∀ q, ∀ r ∈ (calls q).2.1, r.id ≠ id) ∧
      ∀ m, (startWriters calls m).Split (fun x => decide (x ∈ (calls p).2.1.map Record.id) || decide (x = id)) p := by
  have key : ∃ p, ((∃ r ∈ (calls p).2.1, r.id = id) ∨ ∀ q, ∀ r ∈ (calls q).2.1, r.id ≠ id) := by
    by_cases h : ∃ p, ∃ r ∈ (calls p).2.1, r.id = id
    · obtain ⟨p, h⟩ := h; exact ⟨p, .inl h⟩
    · exact ⟨0, .inr fun q r hr e => h ⟨q, r, hr, e⟩⟩
  obtain ⟨p, hp⟩ := key
  refine ⟨p, hp, fun m => ⟨start_within (by omega) (fun r hr => ?_), fun q hq => start_within (by omega) (fun r hr => ?_)⟩⟩
  · rw [Bool.or_eq_true]
    exact .inl (by simpa using ⟨r, hr, rfl⟩)
  · rw [Bool.or_eq_false_iff]
    constructor
    · simp only [decide_eq_false_iff_not, List.mem_map, not_exists, not_and]
      intro r' hr' e
      exact hd p q (Ne.symm hq) r' hr' r hr e
    · rw [decide_eq_false_iff_not]
      rintro rfl
      rcases hp with ⟨r', hr', e⟩ | hp
      · exact hd p q (Ne.symm hq) r' hr' r hr e
      · exact hp q r hr rfl

theorem docsWith_head (c : Coll) (id : PyStr) : (docsWith id c).head? = findRecord id c := by
  unfold docsWith findRecord
  rw [List.head?_filter]

theorem docsWith_nodup {c : Coll} (h : (ids c).Nodup) (id : PyStr) : docsWith id c = [] ∨ ∃ d, docsWith id c = [d] := by
  cases hD : docsWith id c with
  | nil => exact .inl rfl
  | cons d D =>
    cases D with
    | nil => exact .inr ⟨d, rfl⟩
    | cons d' D =>
      exfalso
      have hs : (docsWith id c).Sublist c := List.filter_sublist
      have hn : ((docsWith id c).map MongoRecord.id).Nodup := List.Nodup.sublist (hs.map _) h
      have h1 := docsWith_id (id := id) (c := c) d (by rw [hD]; simp)
      have h2 := docsWith_id (id := id) (c := c) d' (by rw [hD]; simp)
      rw [hD, List.map_cons, List.map_cons, List.nodup_cons] at hn
      exact hn.1 (by rw [h1, h2]; exact List.mem_cons_self)

theorem nodup_of_docsWith {c : Coll} (h : ∀ id, docsWith id c = [] ∨ ∃ d, docsWith id c = [d]) : (ids c).Nodup := by
  induction c with
  | nil => exact List.nodup_nil
  | cons d c ih =>
    rw [ids, List.map_cons, List.nodup_cons]
    constructor
    · intro hm
      obtain ⟨d', h1, h2⟩ := List.mem_map.1 hm
      have h3 : d' ∈ docsWith d.id c := List.mem_filter.2 ⟨h1, by simpa using h2⟩
      have e : docsWith d.id (d :: c) = d :: docsWith d.id c := List.filter_cons_of_pos (by simp)
      rcases h d.id with h | ⟨x, h⟩
      · rw [e] at h; cases h
      · rw [e] at h
        injection h with _ h
        rw [h] at h3; cases h3
    · refine ih fun id => ?_
      have h := h id
      by_cases e : d.id = id
      · have e : docsWith id (d :: c) = d :: docsWith id c := List.filter_cons_of_pos (by simpa using e)
        rw [e] at h
        rcases h with h | ⟨x, h⟩
        · cases h
        · injection h with _ h; exact .inl h
      · have e : docsWith id (d :: c) = docsWith id c := List.filter_cons_of_neg (by simpa using e)
        rwa [e] at h

theorem exists_clock {before : List ApiCall} (hf : ClockForward acts) (ht : ∀ t0 ∈ before.filterMap ApiCall.clock?, ∀ t ∈ acts.filterMap WriterAct.clock?, t0 ≤ t) :
    ∃ c : Int, (∀ t ∈ acts.filterMap WriterAct.clock?, c ≤ t) ∧ ∀ v, Below (lastClock none before) v → v ≤ c := by
  cases hlast : lastClock none before with
  | some t0 =>
    refine ⟨t0, fun t h => ht t0 ?_ t h, ?_⟩
    · rw [lastClock_eq, Option.or_none] at hlast
      exact List.mem_of_getLast? hlast
    · rintro v ⟨_, e, h⟩; cases e; exact h
  | none =>
    have hb : ∀ v, ¬ Below none v := by rintro v ⟨_, e, _⟩; cases e
    cases hmin : acts.filterMap WriterAct.clock? with
    | nil => exact ⟨0, nofun, fun v h => (hb v h).elim⟩
    | cons t ts =>
      refine ⟨t, ?_, fun v h => (hb v h).elim⟩
      have := hf
      unfold ClockForward at this
      rw [hmin, List.pairwise_cons] at this
      intro t' ht'
      rcases List.mem_cons.1 ht' with rfl | h
      · exact Int.le_refl _
      · exact this.1 t' h

theorem start_hist (hb : Orderly before) (hn : ((calls p).2.1.map Record.id).Nodup) (id : PyStr) {c : Int} (hc : ∀ v, Below (lastClock none before) v → v ≤ c) :
    ∃ h0 : Hist, Rep plainClass (findRecord id ((afterCalls U db before).data db)) h0 ∧ FirstOk h0 ∧
      WriterHist h0.committed none id p db c c (startWriters calls (afterCalls U db before)) := by
  have hlife := life (K := fun _ => plainClass) (U := U) (db := db) (fun c _ => fits_plain U c.stream) hb
  refine ⟨_, hlife.rep.rep id, hlife.first id, .idle nofun ⟨docsWith_nodup hlife.rep.nodup id, _, ?_, hlife.first id, List.suffix_refl _, fun vd hvd => hc _ (hlife.vers id vd hvd)⟩, ?_, Int.le_refl _,
    fun q v _ h => (nomatch h), nofun⟩
  · rw [docsWith_head]; exact hlife.rep.rep id
  · have e : (IngestProc.start 200 (calls p).1 (calls p).2.1).chunks.flatten = (calls p).2.1 := partition_flatten (by omega) _
    show ((IngestProc.start 200 (calls p).1 (calls p).2.1).chunks.flatten.map Record.id).Nodup
    rw [e]; exact hn

/-- If the record has no uncommitted data at the start, it is as it was until it is written. -/
theorem start_fixed {m : Mongo} (hc : ∀ d ∈ m.data db, d.id = id → d.version ≠ none) (h : WriterHist old none id p db T c (startWriters calls m)) :
    WriterHist old (some (docsWith id (m.data db))) id p db T c (startWriters calls m) :=
  ⟨h.phase, h.nodup, h.le, h.run, fun D e => by
    cases e
    exact ⟨fun d hd => hc d (List.mem_filter.1 hd).1 (docsWith_id d hd), fun _ => rfl⟩⟩

theorem WritersOk.split (h : WritersOk U db before calls (pre ++ post)) : WritersOk U db before calls pre :=
  ⟨h.orderly, h.disjoint, h.nodup, (CarefulWriters.split h.careful).1,
    by have := h.forward; unfold ClockForward at this ⊢; rw [List.filterMap_append] at this; exact (List.pairwise_append.1 this).1,
    fun t0 h0 t ht => h.after t0 h0 t (by rw [List.filterMap_append]; exact List.mem_append_left _ ht), (FreshVersions.split h.fresh).1⟩

/-- The history of a record after a schedule, and after more of it. -/
theorem hist_from (h : WritersOk U db before calls (pre ++ post)) (id : PyStr) :
    ∃ h1 : Hist, Rep plainClass (findRecord id ((afterWriters U db before calls pre).mongo.data db)) h1 ∧ FirstOk h1 ∧
      (docsWith id ((afterWriters U db before calls pre).mongo.data db) = [] ∨ ∃ d, docsWith id ((afterWriters U db before calls pre).mongo.data db) = [d]) ∧
      (SafeAt U db before calls pre id →
        ∃ h2 : Hist, Rep plainClass (findRecord id ((afterWriters U db before calls (pre ++ post)).mongo.data db)) h2 ∧ h1.committed <:+ h2.committed) := by
  obtain ⟨c, hc1, hc2⟩ := exists_clock h.forward h.after
  obtain ⟨p, hp, hs⟩ := exists_owner h.disjoint id
  have hs := hs (afterCalls U db before)
  have hlocks : (afterCalls U db before).locks.Nodup := by
    rw [(life (K := fun _ => plainClass) (U := U) (db := db) (fun c _ => fits_plain U c.stream) h.orderly).free]; exact List.nodup_nil
  have hpre := h.split
  have hfw := h.forward
  unfold ClockForward at hfw
  rw [List.filterMap_append] at hfw hc1
  obtain ⟨hf1, hf2, hf3⟩ := List.pairwise_append.1 hfw
  obtain ⟨h0, z1, z2, w0⟩ := start_hist (U := U) (db := db) h.orderly (h.nodup p) id hc2
  -- the rest of the schedule, when versions are kept from its beginning
  have later : ∀ {old D0 T c1}, WriterHist old D0 id p db T c1 ((startWriters calls (afterCalls U db before)).run U 200 db pre) →
      WritersLock db ((startWriters calls (afterCalls U db before)).run U 200 db pre) →
      ((startWriters calls (afterCalls U db before)).run U 200 db pre).Split (fun x => decide (x ∈ (calls p).2.1.map Record.id) || decide (x = id)) p →
      (∀ t', (∀ t ∈ pre.filterMap WriterAct.clock?, t ≤ t') → c ≤ t' → c1 ≤ t') →
      ∃ h2 : Hist, Rep plainClass (findRecord id ((afterWriters U db before calls (pre ++ post)).mongo.data db)) h2 ∧ old <:+ h2.committed := by
    intro old D0 T c1 w2 hl hs1 hct
    obtain ⟨T', c2, w3, _⟩ := hist_run (U := U) (by simp) post (CarefulWriters.split h.careful).2 hf2 (FreshVersions.split h.fresh).2
      (fun t ht => hct t (fun t' ht' => hf3 t' ht' t ht) (hc1 t (List.mem_append_right _ ht))) hl hs1 w2
    obtain ⟨_, h2, m2, _, m4, _⟩ := w3.phase.kept
    rw [docsWith_head, ← WritersState.run_append] at m2
    exact ⟨h2, m2, m4⟩
  by_cases hclean : ∀ d ∈ (afterCalls U db before).data db, d.id = id → d.version ≠ none
  · obtain ⟨T, c1, w, hl, hs1, hcc, hct⟩ := hist_run (U := U) (by simp) pre hpre.careful hpre.forward hpre.fresh (fun t ht => hc1 t (List.mem_append_left _ ht))
      (start_lock hlocks) hs (start_fixed hclean w0)
    obtain ⟨k1, h1, k2, k3, k4, k5⟩ := w.phase.kept
    by_cases hf : (((startWriters calls (afterCalls U db before)).run U 200 db pre).procs p).ingest.HasFor id
    · have e : docsWith id ((afterWriters U db before calls pre).mongo.data db) = docsWith id ((afterCalls U db before).data db) := (w.fixed _ rfl).2 hf
      refine ⟨h0, ?_, z2, k1, fun _ => later w hl hs1 hct⟩
      rw [← docsWith_head, e, docsWith_head]
      exact z1
    · rw [docsWith_head] at k2
      refine ⟨h1, k2, k3, k1, fun _ => later (D0 := none) ⟨.idle (fun o ho e => hf (.inl ⟨o, ho, e⟩)) ⟨k1, h1, by rw [docsWith_head]; exact k2, k3, List.suffix_refl _, k5⟩,
        w.nodup, w.le, w.run, nofun⟩ hl hs1 hct⟩
  · obtain ⟨T, c1, w, hl, hs1, hcc, hct⟩ := hist_run (U := U) (by simp) pre hpre.careful hpre.forward hpre.fresh (fun t ht => hc1 t (List.mem_append_left _ ht))
      (start_lock hlocks) hs w0
    obtain ⟨k1, h1, k2, k3, k4, k5⟩ := w.phase.kept
    rw [docsWith_head] at k2
    refine ⟨h1, k2, k3, k1, fun hq => ?_⟩
    have hq := hq.resolve_left hclean
    have hidle : ∀ o ∈ (((startWriters calls (afterCalls U db before)).run U 200 db pre).procs p).ingest.waiting, o.id ≠ id := by
      rcases hp with hp | hp
      · rcases hq p hp with hq | hq
        · rw [notBegun_run pre _ hq]
          exact nofun
        · have : (((startWriters calls (afterCalls U db before)).run U 200 db pre).procs p).ingest.finished = true := hq
          simp only [IngestProc.finished, Bool.and_eq_true, List.isEmpty_iff] at this
          simp [IngestProc.waiting, this]
      · have hs2 := (clean_run (U := U) (size := 200) (db := db) pre (start_split (m := afterCalls U db before) h.disjoint p) start_clean).1.1
        intro o ho e
        have : o.id ∈ (calls p).2.1.map Record.id := by
          have h5 : ∀ o ∈ (((startWriters calls (afterCalls U db before)).run U 200 db pre).procs p).ingest.waiting, decide (o.id ∈ (calls p).2.1.map Record.id) = true := by
            intro o ho
            rw [IngestProc.waiting, List.mem_append, List.mem_append] at ho
            rcases ho with (ho | ho) | ho
            · exact hs2.writing o ho
            · exact hs2.buf o ho
            · exact hs2.ops o ho
          simpa using h5 o ho
        obtain ⟨r, h6, h7⟩ := List.mem_map.1 this
        exact hp p r h6 (h7.trans e)
    exact later (D0 := none) ⟨.idle hidle ⟨k1, h1, by rw [docsWith_head]; exact k2, k3, List.suffix_refl _, k5⟩, w.nodup, w.le, w.run, nofun⟩ hl hs1 hct

end Splitgill
