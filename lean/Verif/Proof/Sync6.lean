import Verif.Proof.Sync5

namespace Splitgill

section
variable {P : Type} {X : Parser P} {db : PyStr} {m : Mongo}

/-- A sync that nobody disturbs. -/
theorem syncOver_filter (X : Parser P) (maxDocs : Nat) (db : PyStr) (m : Mongo) (es : ES P) :
    syncOver X maxDocs db m (fun sel => (m.data db).filter sel) es = sync X maxDocs db false m es := by
  unfold syncOver sync syncOps
  split
  · simp [ES.applyOps]
  · cases h : syncScope db false m es with
    | error e => rfl
    | ok o =>
      cases o with
      | none => simp [ES.applyOps]
      | some p =>
        obtain ⟨sel, last⟩ := p
        simp only [Bool.false_eq_true, if_false]
        cases generateOps X maxDocs (committedOptionsOf db m) last es.arcStatus ((m.data db).filter sel) <;> rfl

theorem SameForParser.nil_iff {h h' : List (Int × Dict)} (hs : SameForParser X h h') : h = [] ↔ h' = [] := by
  cases hs with
  | nil => simp
  | cons _ _ => simp

/-- What is committed is the same, also in the order of the options. -/
structure SameStrict (X : Parser P) (db : PyStr) (m m' : Mongo) : Prop where
  hist : ∀ id, SameForParser X (histOf (m.data db) id) (histOf (m'.data db) id)
  opts : committedOptionsOf db m' = committedOptionsOf db m

structure _root_.Splitgill.LongSync.Strict (X : Parser P) (db : PyStr) (s : LongSync) : Prop where
  dbOk : ∀ m ∈ s.during, DbOk db m
  same : ∀ m ∈ s.during, SameStrict X db s.start m
  cursor : ∀ sel, Scanned db s.during sel (s.cursor sel)

def StrictTimeline (X : Parser P) (db : PyStr) : List LongSync → Prop
  | [] => True
  | [s] => s.Strict X db
  | s :: s' :: rest => s.Strict X db ∧
      (∃ t, Later X db t s.start s'.start ∧ NoUpdateDelete db t s'.start ∧ ∀ m ∈ s'.during, PendingOld db (some t) m) ∧
      StrictTimeline X db (s' :: rest)

theorem SameStrict.recDocs {m' : Mongo} (h : SameStrict X db m m') (id : PyStr) :
    recDocs X (committedOptionsOf db m') (m'.data db) id = recDocs X (committedOptionsOf db m) (m.data db) id := by
  have := (h.hist id).nil_iff
  by_cases he : histOf (m.data db) id = []
  · rw [recDocs_nil he, recDocs_nil (this.1 he)]
  · have he' : histOf (m'.data db) id ≠ [] := fun e => he (this.2 e)
    unfold Splitgill.recDocs
    split
    · exact absurd (by assumption) he'
    · rw [h.opts, ← buildFrom_same (h.hist id)]

/-- What `syncOver` needs to know of the records that the cursor gives. -/
structure ScanOk (X : Parser P) (db : PyStr) (m : Mongo) (es : ES P) (scan : List MongoRecord) : Prop where
  once : (scan.map MongoRecord.id).Nodup
  build : ∀ r ∈ scan, ∃ rvs, build X r (committedOptionsOf db m) = .ok rvs ∧ rvs ≠ [] ∧
    recDocs X (committedOptionsOf db m) (m.data db) r.id = createDocs rvs
  mem : ∀ r ∈ scan, r.id ∈ (m.data db).map MongoRecord.id
  rest : ∀ r ∈ m.data db, r.id ∉ scan.map MongoRecord.id →
    trunc es.version (dbDocs X db m r) = dbDocs X db m r

theorem Holds.congr_ids {es : ES P} {rs rs' : List MongoRecord} {f : PyStr → List (Doc P)}
    (hn : (rs.map MongoRecord.id).Nodup) (hn' : (rs'.map MongoRecord.id).Nodup)
    (hi : ∀ id, id ∈ rs.map MongoRecord.id ↔ id ∈ rs'.map MongoRecord.id)
    (h : Holds es rs (fun r => f r.id)) : Holds es rs' (fun r => f r.id) := by
  refine ⟨h.ok, fun r hr => ?_, fun id hid => h.others id (fun e => hid ((hi id).1 e)), ?_⟩
  · obtain ⟨r', hr', he⟩ := List.mem_map.1 ((hi r.id).2 (List.mem_map_of_mem hr))
    have := h.latest r' hr'
    rwa [he] at this
  · refine h.archived.trans ?_
    rw [flatMap_map_id rs (fun id => closedOf (f id)), flatMap_map_id rs' (fun id => closedOf (f id))]
    exact nodup_flatMap_perm hn hn' _ (fun x _ => hi x)

theorem scan_holds (hm : DbOk db m) (X : Parser P) (maxDocs : Nat) {es : ES P} {scan : List MongoRecord}
    (hh : Holds es (m.data db) (fun r => trunc es.version (dbDocs X db m r)))
    (hl : ∀ r ∈ m.data db, LastNotNew es.version (dbDocs X db m r)) (hs : ScanOk X db m es scan) :
    ∃ ops arc', generateOps X maxDocs (committedOptionsOf db m) es.version es.arcStatus scan = .ok (ops, arc') ∧
      Holds (es.applyOps ops) (m.data db) (dbDocs X db m) := by
  let sel : MongoRecord → Bool := fun r => decide (r.id ∈ scan.map MongoRecord.id)
  let rs := scan ++ (m.data db).filter (fun r => !sel r)
  have hn : (rs.map MongoRecord.id).Nodup := by
    rw [List.map_append, List.nodup_append]
    refine ⟨hs.once, (List.Sublist.map _ List.filter_sublist).nodup hm.nodup, ?_⟩
    rintro a ha b hb rfl
    obtain ⟨r, hr, rfl⟩ := List.mem_map.1 hb
    have := (List.mem_filter.1 hr).2
    simp only [sel, Bool.not_eq_true', decide_eq_false_iff_not] at this
    exact this ha
  have hi : ∀ id, id ∈ (m.data db).map MongoRecord.id ↔ id ∈ rs.map MongoRecord.id := by
    intro id
    simp only [rs, List.map_append, List.mem_append]
    constructor
    · intro h
      by_cases hid : id ∈ scan.map MongoRecord.id
      · exact .inl hid
      · obtain ⟨r, hr, rfl⟩ := List.mem_map.1 h
        exact .inr (List.mem_map_of_mem (List.mem_filter.2 ⟨hr, by simpa [sel] using hid⟩))
    · rintro (h | h)
      · obtain ⟨r, hr, rfl⟩ := List.mem_map.1 h
        exact hs.mem r hr
      · obtain ⟨r, hr, rfl⟩ := List.mem_map.1 h
        exact List.mem_map_of_mem (List.mem_filter.1 hr).1
  have hf : rs.filter sel = scan := by
    simp only [rs, List.filter_append]
    rw [List.filter_eq_self.2 (fun r hr => by simpa [sel] using ⟨r, hr, rfl⟩), List.filter_filter,
      List.filter_eq_nil_iff.2 (fun r _ => by simp), List.append_nil]
  have inM : ∀ r ∈ rs, ∃ r' ∈ m.data db, r'.id = r.id := by
    intro r hr
    obtain ⟨r', hr', he⟩ := List.mem_map.1 ((hi r.id).2 (List.mem_map_of_mem hr))
    exact ⟨r', hr', he⟩
  have hD : ∀ r r' : MongoRecord, r'.id = r.id → dbDocs X db m r' = dbDocs X db m r := by
    intro r r' he
    unfold dbDocs
    rw [he]
  have hh' : Holds es rs (fun r => trunc es.version (dbDocs X db m r)) :=
    Holds.congr_ids (f := fun id => trunc es.version (recDocs X (committedOptionsOf db m) (m.data db) id)) hm.nodup hn hi hh
  obtain ⟨ops, arc', h1, h2⟩ := generateOps_holds X maxDocs (committedOptionsOf db m) es.version rs (dbDocs X db m) sel
    es.arcStatus es hh' hn
    (fun r hr hsel => by
      have hr' : r ∈ scan := by rw [← hf]; exact List.mem_filter.2 ⟨hr, hsel⟩
      exact hs.build r hr')
    (fun r _ => hm.good X r.id)
    (fun r hr _ => by
      obtain ⟨r', hr', he⟩ := inM r hr
      rw [← hD r r' he]; exact hl r' hr')
    (fun r hr hsel => by
      obtain ⟨r', hr', he⟩ := inM r hr
      rw [← hD r r' he]
      apply hs.rest r' hr'
      rw [he]
      simpa [sel] using hsel)
  rw [hf] at h1
  exact ⟨ops, arc', h1,
    Holds.congr_ids (f := fun id => recDocs X (committedOptionsOf db m) (m.data db) id) hn hm.nodup (fun id => (hi id).symm) h2⟩

/-- The records that a cursor gives while nothing is committed. -/
theorem scanOk {s : LongSync} (hq : s.Strict X db) {es : ES P} (sel : MongoRecord → Bool)
    (h1 : ∀ r, sel r = true → r.version.isSome = true)
    (h2 : ∀ m ∈ s.during, ∀ r ∈ m.data db, sel r = false → trunc es.version (dbDocs X db m r) = dbDocs X db m r) :
    ScanOk X db s.start es (s.cursor sel) := by
  have hsc := hq.cursor sel
  have hist : ∀ r ∈ s.cursor sel, ∃ m ∈ s.during, r ∈ m.data db ∧ ∃ rvs,
      build X r (committedOptionsOf db m) = .ok rvs ∧ rvs ≠ [] ∧ dbDocs X db m r = createDocs rvs := by
    intro r hr
    obtain ⟨m, hm, hrm, hs⟩ := hsc.was r hr
    exact ⟨m, hm, hrm, (hq.dbOk m hm).build X hrm (h1 r hs)⟩
  refine ⟨hsc.once, ?_, ?_, ?_⟩
  · intro r hr
    obtain ⟨m, hm, _, rvs, hb, hne, hd⟩ := hist r hr
    have hs := hq.same m hm
    refine ⟨rvs, by rw [← hs.opts]; exact hb, hne, ?_⟩
    rw [← hs.recDocs]; exact hd
  · intro r hr
    obtain ⟨m, hm, hrm, rvs, hb, hne, hd⟩ := hist r hr
    apply mem_ids_of_hist
    intro he
    have hs := hq.same m hm
    have he' : histOf (m.data db) r.id = [] := ((hs.hist r.id).nil_iff).1 he
    rw [dbDocs, recDocs_nil he'] at hd
    have := (hq.dbOk m hm)
    obtain ⟨items, hi, hv⟩ := this.reads r hrm
    obtain ⟨m', hm', hrm', hs'⟩ := hsc.was r hr
    obtain ⟨v, hv'⟩ := Option.isSome_iff_exists.1 (h1 r hs')
    obtain ⟨_, d, hh⟩ := hv v hv'
    have hfr := findRecord_of_mem (c := m.data db) this.nodup hrm
    unfold histOf history at he'
    rw [hfr] at he'
    simp only [hi] at he'
    rw [he'] at hh
    cases hh
  · intro r hr hid
    by_cases hne : histOf (s.start.data db) r.id = []
    · rw [dbDocs, recDocs_nil hne]; rfl
    · have : ¬ ∀ m ∈ s.during, ∃ r' ∈ m.data db, r'.id = r.id ∧ sel r' = true := fun h => hid (hsc.all _ h)
      push Not at this
      obtain ⟨m, hm, hno⟩ := this
      have hs := hq.same m hm
      have hne' : histOf (m.data db) r.id ≠ [] := fun e => hne (((hs.hist r.id).nil_iff).2 e)
      obtain ⟨r', hr', he⟩ := List.mem_map.1 (mem_ids_of_hist hne')
      have := h2 m hm r' hr' (by simpa using hno r' hr' he)
      unfold dbDocs at this ⊢
      rw [he, hs.recDocs] at this
      exact this

/-- One sync during which nothing is committed. -/
theorem syncOver_step {s : LongSync} (hq : s.Strict X db) (maxDocs : Nat) {es : ES P}
    (hh : Holds es (s.start.data db) (fun r => trunc es.version (dbDocs X db s.start r)))
    (hl : ∀ r ∈ s.start.data db, LastNotNew es.version (dbDocs X db s.start r))
    (hp : ∀ m ∈ s.during, ∀ r ∈ m.data db, r.version = none →
      trunc es.version (dbDocs X db m r) = dbDocs X db m r) :
    ∃ es', syncOver X maxDocs db s.start s.cursor es = .ok es' ∧ Holds es' (s.start.data db) (dbDocs X db s.start) := by
  have hst : s.start ∈ s.during := List.mem_cons_self
  have hm := hq.dbOk s.start hst
  have hsame : (∀ r ∈ s.start.data db, trunc es.version (dbDocs X db s.start r) = dbDocs X db s.start r) →
      Holds es (s.start.data db) (dbDocs X db s.start) := by
    intro ht
    refine ⟨hh.ok, fun r hr => by rw [hh.latest r hr, ht r hr], hh.others, ?_⟩
    refine hh.archived.trans (List.Perm.of_eq ?_)
    apply List.flatMap_congr
    intro r hr
    rw [ht r hr]
  have hgen : ∀ sel : MongoRecord → Bool, (∀ r, sel r = true → r.version.isSome = true) →
      (∀ m ∈ s.during, ∀ r ∈ m.data db, sel r = false → trunc es.version (dbDocs X db m r) = dbDocs X db m r) →
      ∃ ops arc', generateOps X maxDocs (committedOptionsOf db s.start) es.version es.arcStatus (s.cursor sel) =
        .ok (ops, arc') ∧ Holds (es.applyOps ops) (s.start.data db) (dbDocs X db s.start) := fun sel h1 h2 =>
    scan_holds hm X maxDocs hh hl (scanOk hq sel h1 h2)
  unfold syncOver
  by_cases hd : hasData db s.start = true
  · simp only [hd, Bool.not_true, Bool.false_eq_true, if_false, syncScope]
    cases hv : es.version with
    | none =>
      obtain ⟨ops, arc', h1, h2⟩ := hgen (fun r => r.version.isSome) (fun _ h => h)
        (fun m hm r hr hs => hp m hm r hr (by simpa using hs))
      rw [hv] at h1
      simp only [h1]
      exact ⟨_, rfl, h2⟩
    | some e =>
      obtain ⟨r0, hr0, hv0⟩ := List.any_eq_true.1 hd
      obtain ⟨v0, hv0⟩ := Option.isSome_iff_exists.1 hv0
      obtain ⟨c, hc, _⟩ := record_le_committed hr0 hv0
      simp only [hc]
      by_cases hle : e ≥ c
      · rw [if_pos hle]
        refine ⟨es, rfl, hsame ?_⟩
        intro r hr
        cases hrv : r.version with
        | none => exact hp _ hst r hr hrv
        | some v =>
          rw [hv]
          apply hm.trunc_old X
          · intro w hw
            have h1 := hm.key_le hr hrv hw
            obtain ⟨c', h2, h3⟩ := record_le_committed hr hrv
            rw [hc] at h2; cases h2; omega
          · intro _ w hw
            obtain ⟨c', h2, h3⟩ := options_le_committed hw
            rw [hc] at h2; cases h2; omega
      · rw [if_neg hle]
        by_cases ho : (akeys (committedOptionsOf db s.start)).any (fun v => decide (v > e)) = true
        · rw [if_pos ho]
          obtain ⟨ops, arc', h1, h2⟩ := hgen (fun r => r.version.isSome) (fun _ h => h)
            (fun m hm r hr hs => hp m hm r hr (by simpa using hs))
          rw [hv] at h1
          simp only [h1]
          exact ⟨_, rfl, h2⟩
        · rw [if_neg ho]
          obtain ⟨ops, arc', h1, h2⟩ := hgen
            (newerThan e) (fun r h => by
              unfold newerThan at h
              cases hrv : r.version with
              | none => rw [hrv] at h; cases h
              | some v => rfl) (fun m hm r hr hs => by
              cases hrv : r.version with
              | none => exact hp m hm r hr hrv
              | some v =>
                rw [newerThan, hrv] at hs
                simp only [decide_eq_false_iff_not] at hs
                rw [hv]
                apply (hq.dbOk m hm).trunc_old X
                · intro w hw
                  have := (hq.dbOk m hm).key_le hr hrv hw
                  omega
                · intro _ w hw
                  rw [(hq.same m hm).opts] at hw
                  simp only [List.any_eq_true, decide_eq_true_eq, not_exists, not_and] at ho
                  have := ho w hw
                  omega)
          rw [hv] at h1
          simp only [h1]
          exact ⟨_, rfl, h2⟩
  · simp only [hd, Bool.not_false, if_true]
    refine ⟨es, rfl, hsame (fun r hr => hp _ hst r hr ?_)⟩
    cases hrv : r.version with
    | none => rfl
    | some v => exact absurd (List.any_eq_true.2 ⟨r, hr, by simp [hrv]⟩) hd

/-- The first sync. -/
theorem syncOver_first {s : LongSync} (hq : s.Strict X db) (maxDocs : Nat) (hp : ∀ m ∈ s.during, PendingOld db none m) :
    ∃ es, syncOver X maxDocs db s.start s.cursor [] = .ok es ∧ Holds es (s.start.data db) (dbDocs X db s.start) := by
  apply syncOver_step hq maxDocs
  · simp only [version_nil, trunc_none]; exact holds_nil _
  · intro r _ h1
    simp [version_nil, trunc_none, openOf] at h1
  · intro m hm r hr hv
    by_cases hne : histOf (m.data db) r.id = []
    · rw [dbDocs, recDocs_nil hne]; rfl
    · obtain ⟨t', ht', _⟩ := hp m hm r hr hv hne
      cases ht'

/-- The next sync. -/
theorem syncOver_next {t : Int} {m : Mongo} {s : LongSync} (hq : s.Strict X db) (h : Later X db t m s.start)
    (hm : DbOk db m) (hd : NoUpdateDelete db t s.start) (hp : ∀ m ∈ s.during, PendingOld db (some t) m) (maxDocs : Nat)
    {es : ES P} (hh : Holds es (m.data db) (dbDocs X db m)) :
    ∃ es', syncOver X maxDocs db s.start s.cursor es = .ok es' ∧
      Holds es' (s.start.data db) (dbDocs X db s.start) := by
  have hst : s.start ∈ s.during := List.mem_cons_self
  have hm' := hq.dbOk s.start hst
  obtain ⟨h1, h2, hl⟩ := next_ready h hm hm' hd hh
  apply syncOver_step hq maxDocs h2 hl
  intro m1 hm1 r hr hv
  by_cases hne : histOf (m1.data db) r.id = []
  · rw [dbDocs, recDocs_nil hne]; rfl
  · obtain ⟨t', ht', ha, hb⟩ := hp m1 hm1 r hr hv hne
    cases ht'
    have hs := hq.same m1 hm1
    have hne0 : histOf (s.start.data db) r.id ≠ [] := fun e => hne (((hs.hist r.id).nil_iff).1 e)
    obtain ⟨r0, hr0, he⟩ := List.mem_map.1 (mem_ids_of_hist hne0)
    have := h1 r0 hr0
    have e : dbDocs X db s.start r0 = dbDocs X db m1 r := by
      unfold dbDocs; rw [he, hs.recDocs]
    rw [e] at this
    rw [this]
    exact (hq.dbOk m1 hm1).trunc_old X ha (fun _ => hb)

theorem StrictTimeline.strict : ∀ {ss : List LongSync}, StrictTimeline X db ss → ∀ s ∈ ss, s.Strict X db
  | [], _, s, h => by cases h
  | [x], ht, s, h => by rw [List.mem_singleton] at h; subst h; exact ht
  | x :: y :: rest, ht, s, h => by
    rcases List.mem_cons.1 h with rfl | h
    · exact ht.1
    · exact StrictTimeline.strict ht.2.2 s h

theorem runLongSyncs_timeline (maxDocs : Nat) :
    ∀ (ss : List LongSync) (s : LongSync) (es : ES P), Holds es (s.start.data db) (dbDocs X db s.start) →
      StrictTimeline X db (s :: ss) →
      ∃ es', runLongSyncs X maxDocs db es ss = .ok es' ∧
        Holds es' (((s :: ss).getLast (by simp)).start.data db) (dbDocs X db ((s :: ss).getLast (by simp)).start)
  | [], s, es, h, _ => ⟨es, rfl, h⟩
  | s' :: ss, s, es, h, ht => by
    obtain ⟨hq, ⟨t, hl, hd, hp⟩, hr⟩ := ht
    have hq' : s'.Strict X db := StrictTimeline.strict hr s' List.mem_cons_self
    obtain ⟨es1, h1, h2⟩ := syncOver_next hq' hl (hq.dbOk _ List.mem_cons_self) hd hp maxDocs h
    obtain ⟨es2, h3, h4⟩ := runLongSyncs_timeline maxDocs ss s' es1 h2 hr
    refine ⟨es2, by simp only [runLongSyncs, h1, h3], ?_⟩
    simpa using h4

theorem runLongSyncs_all (maxDocs : Nat) (s : LongSync) (ss : List LongSync) (ht : StrictTimeline X db (s :: ss))
    (hp : ∀ m ∈ s.during, PendingOld db none m) :
    ∃ es, runLongSyncs X maxDocs db [] (s :: ss) = .ok es ∧
      Holds es (((s :: ss).getLast (by simp)).start.data db) (dbDocs X db ((s :: ss).getLast (by simp)).start) := by
  obtain ⟨es1, h1, h2⟩ := syncOver_first (ht.strict s List.mem_cons_self) maxDocs hp
  obtain ⟨es2, h3, h4⟩ := runLongSyncs_timeline maxDocs ss s es1 h2 ht
  exact ⟨es2, by simp only [runLongSyncs, h1, h3], h4⟩

end
end Splitgill

namespace Splitgill

/-- Reading each record of the database at some time during the sync. -/
theorem scanned_picks {db : PyStr} {during : List Mongo} {picks : List MongoRecord}
    (hok : ∀ m ∈ during, ((m.data db).map MongoRecord.id).Nodup) (hn : (picks.map MongoRecord.id).Nodup)
    (hp : ∀ r ∈ picks, ∃ m ∈ during, r ∈ m.data db)
    (hall : ∃ m ∈ during, ∀ r ∈ m.data db, r.id ∈ picks.map MongoRecord.id) (sel : MongoRecord → Bool) :
    Scanned db during sel (picks.filter sel) := by
  refine ⟨(List.Sublist.map _ List.filter_sublist).nodup hn, ?_, ?_⟩
  · intro r hr
    obtain ⟨hr, hs⟩ := List.mem_filter.1 hr
    obtain ⟨m, hm, h⟩ := hp r hr
    exact ⟨m, hm, h, hs⟩
  · intro id h
    obtain ⟨m0, hm0, hall⟩ := hall
    obtain ⟨r0, hr0, rfl, _⟩ := h m0 hm0
    obtain ⟨p, hpm, hpe⟩ := List.mem_map.1 (hall r0 hr0)
    obtain ⟨m, hm, hpd⟩ := hp p hpm
    obtain ⟨r, hr, he, hs⟩ := h m hm
    have h1 := findRecord_of_mem (c := m.data db) (hok m hm) hr
    have h2 := findRecord_of_mem (c := m.data db) (hok m hm) hpd
    rw [he, ← hpe, h2] at h1
    cases h1
    exact List.mem_map.2 ⟨p, List.mem_filter.2 ⟨hpm, hs⟩, hpe⟩

end Splitgill

namespace Splitgill

section
variable {P : Type} {X : Parser P} {db : PyStr}

/-- The same sync, with the options at its start in all states: it reads no others. -/
def LongSync.fix (s : LongSync) : LongSync :=
  { s with others := s.others.map (fun m => { m with options := s.start.options }) }

theorem LongSync.fix_during (s : LongSync) :
    s.fix.during = s.during.map (fun m => { m with options := s.start.options }) := by
  simp [LongSync.during, LongSync.fix]

theorem LongSync.Quiet.strict {s : LongSync} (h : s.Quiet X db) : s.fix.Strict X db := by
  refine ⟨?_, ?_, ?_⟩
  · intro m hm
    rw [LongSync.fix_during] at hm
    obtain ⟨m0, hm0, rfl⟩ := List.mem_map.1 hm
    have h0 := h.dbOk m0 hm0
    exact ⟨h0.nodup, h0.reads, h0.desc, h0.oldest, (h.dbOk s.start List.mem_cons_self).options⟩
  · intro m hm
    rw [LongSync.fix_during] at hm
    obtain ⟨m0, hm0, rfl⟩ := List.mem_map.1 hm
    exact ⟨(h.same m0 hm0).hist, rfl⟩
  · intro sel
    have hc := h.cursor sel
    refine ⟨hc.once, ?_, ?_⟩
    · intro r hr
      obtain ⟨m, hm, h1⟩ := hc.was r hr
      refine ⟨{ m with options := s.start.options }, ?_, h1⟩
      rw [LongSync.fix_during]
      exact List.mem_map.2 ⟨m, hm, rfl⟩
    · intro id hid
      apply hc.all id
      intro m hm
      exact hid { m with options := s.start.options } (by rw [LongSync.fix_during]; exact List.mem_map.2 ⟨m, hm, rfl⟩)

theorem LongSync.Quiet.pending {s : LongSync} (h : s.Quiet X db) {t : Option Int}
    (hp : ∀ m ∈ s.during, PendingOld db t m) : ∀ m ∈ s.fix.during, PendingOld db t m := by
  intro m hm
  rw [LongSync.fix_during] at hm
  obtain ⟨m0, hm0, rfl⟩ := List.mem_map.1 hm
  intro r hr hv hne
  obtain ⟨t', h1, h2, h3⟩ := hp m0 hm0 r hr hv hne
  refine ⟨t', h1, h2, fun w hw => ?_⟩
  obtain ⟨⟨w', o⟩, hmem, rfl⟩ := List.mem_map.1 hw
  exact h3 w' (List.mem_map_of_mem (((h.same m0 hm0).opts w' o).1 hmem))

theorem QuietTimeline.quiet : ∀ {ss : List LongSync}, QuietTimeline X db ss → ∀ s ∈ ss, s.Quiet X db
  | [], _, s, h => by cases h
  | [x], ht, s, h => by rw [List.mem_singleton] at h; subst h; exact ht
  | x :: y :: rest, ht, s, h => by
    rcases List.mem_cons.1 h with rfl | h
    · exact ht.1
    · exact QuietTimeline.quiet ht.2.2 s h

theorem QuietTimeline.strict : ∀ {ss : List LongSync}, QuietTimeline X db ss → StrictTimeline X db (ss.map LongSync.fix)
  | [], _ => trivial
  | [_], h => LongSync.Quiet.strict h
  | s :: s' :: rest, h => by
    obtain ⟨h1, ⟨t, h2, h3, h4⟩, h5⟩ := h
    exact ⟨h1.strict, ⟨t, h2, h3, (QuietTimeline.quiet h5 s' List.mem_cons_self).pending h4⟩, QuietTimeline.strict h5⟩

theorem runLongSyncs_fix (maxDocs : Nat) : ∀ (ss : List LongSync) (es : ES P),
    runLongSyncs X maxDocs db es (ss.map LongSync.fix) = runLongSyncs X maxDocs db es ss
  | [], _ => rfl
  | s :: ss, es => by
    have h : syncOver X maxDocs db s.fix.start s.fix.cursor es = syncOver X maxDocs db s.start s.cursor es := rfl
    simp only [List.map_cons, runLongSyncs, h]
    cases syncOver X maxDocs db s.start s.cursor es with
    | error e => rfl
    | ok es => exact runLongSyncs_fix maxDocs ss es

theorem runLongSyncs_quiet (maxDocs : Nat) (s : LongSync) (ss : List LongSync) (ht : QuietTimeline X db (s :: ss))
    (hp : ∀ m ∈ s.during, PendingOld db none m) :
    ∃ es, runLongSyncs X maxDocs db [] (s :: ss) = .ok es ∧
      Holds es (((s :: ss).getLast (by simp)).start.data db) (dbDocs X db ((s :: ss).getLast (by simp)).start) := by
  obtain ⟨es, h1, h2⟩ := runLongSyncs_all (X := X) (db := db) maxDocs s.fix (ss.map LongSync.fix) ht.strict
    ((ht.quiet s List.mem_cons_self).pending hp)
  refine ⟨es, ?_, ?_⟩
  · rw [← runLongSyncs_fix]; exact h1
  · have : (s.fix :: ss.map LongSync.fix).getLast (by simp) = ((s :: ss).getLast (by simp)).fix := by
      rw [← List.getLast_map (f := LongSync.fix) (by simp)]
      rfl
    rw [this] at h2
    exact h2

end
end Splitgill
