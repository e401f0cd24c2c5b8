import Verif.Proof.Each
import Verif.Proof.Sync6
/-!
# Lemmas: one record in the indices, whatever others write and commit during a sync
-/

namespace Splitgill

section
variable {P : Type} {X : Parser P} {db : PyStr}

/-- A sync that runs while the database is in good states. -/
structure LongSync.Busy (db : PyStr) (s : LongSync) : Prop where
  dbOk : ∀ m ∈ s.during, DbOk db m
  cursor : ∀ sel, Scanned db s.during sel (s.cursor sel)

theorem histOf_congr {c c' : Coll} {id : PyStr} (h : findRecord id c = findRecord id c') : histOf c id = histOf c' id := by
  unfold histOf history
  rw [h]

/-- The database with the documents that were read, and others from the start. -/
def readDb (db : PyStr) (m : Mongo) (sel : MongoRecord → Bool) (scan : List MongoRecord) : Mongo :=
  m.setData db (scan ++ (m.data db).filter (fun r => !sel r && !decide (r.id ∈ scan.map MongoRecord.id)))

theorem readDb_data {m : Mongo} {sel : MongoRecord → Bool} {scan : List MongoRecord} : (readDb db m sel scan).data db =
    scan ++ (m.data db).filter (fun r => !sel r && !decide (r.id ∈ scan.map MongoRecord.id)) := by
  simp [readDb, Mongo.setData]

theorem readDb_options {m : Mongo} {sel : MongoRecord → Bool} {scan : List MongoRecord} :
    committedOptionsOf db (readDb db m sel scan) = committedOptionsOf db m := rfl

theorem readDb_nodup {m : Mongo} (hn : ((m.data db).map MongoRecord.id).Nodup) {sel : MongoRecord → Bool} {scan : List MongoRecord}
    (h : (scan.map MongoRecord.id).Nodup) : (((readDb db m sel scan).data db).map MongoRecord.id).Nodup := by
  rw [readDb_data, List.map_append, List.nodup_append]
  refine ⟨h, (List.Sublist.map _ List.filter_sublist).nodup hn, ?_⟩
  intro a ha b hb e
  subst e
  obtain ⟨r, hr, rfl⟩ := List.mem_map.1 hb
  have := (List.mem_filter.1 hr).2
  simp only [Bool.and_eq_true, Bool.not_eq_true', decide_eq_false_iff_not] at this
  exact this.2 ha

theorem dbOk_of_docs {m0 m : Mongo} (hn : ((m.data db).map MongoRecord.id).Nodup)
    (ho : committedOptionsOf db m = committedOptionsOf db m0) (hv : ValidOptions (committedOptionsOf db m0))
    (h : ∀ r ∈ m.data db, ∃ m', DbOk db m' ∧ r ∈ m'.data db) : DbOk db m := by
  have hh : ∀ id, histOf (m.data db) id = [] ∨ ∃ m', DbOk db m' ∧ histOf (m.data db) id = histOf (m'.data db) id := by
    intro id
    by_cases hid : id ∈ (m.data db).map MongoRecord.id
    · obtain ⟨r, hr, rfl⟩ := List.mem_map.1 hid
      obtain ⟨m', hm', hr'⟩ := h r hr
      exact .inr ⟨m', hm', histOf_congr ((findRecord_of_mem hn hr).trans (findRecord_of_mem hm'.nodup hr').symm)⟩
    · exact .inl (hist_none hid)
  refine ⟨hn, ?_, ?_, ?_, ho ▸ hv⟩
  · intro r hr
    obtain ⟨m', hm', hr'⟩ := h r hr
    exact hm'.reads r hr'
  · intro id
    rcases hh id with e | ⟨m', hm', e⟩
    · rw [e]; simp
    · rw [e]; exact hm'.desc id
  · intro id v d
    rcases hh id with e | ⟨m', hm', e⟩
    · rw [e]; intro h; cases h
    · rw [e]; exact hm'.oldest id v d

/-- What was read, as a database. -/
structure ScanAs (db : PyStr) (s : LongSync) (sel : MongoRecord → Bool) (m : Mongo) : Prop where
  dbOk : DbOk db m
  options : committedOptionsOf db m = committedOptionsOf db s.start
  was : ∀ r ∈ m.data db, ∃ m' ∈ s.during, r ∈ m'.data db
  scan : (m.data db).filter sel = s.cursor sel
  steady : ∀ id, (∀ m' ∈ s.during, findRecord id (m'.data db) = findRecord id (s.start.data db)) →
    findRecord id (m.data db) = findRecord id (s.start.data db)

theorem LongSync.Busy.scanAs {s : LongSync} (hq : s.Busy db) (sel : MongoRecord → Bool) :
    ScanAs db s sel (readDb db s.start sel (s.cursor sel)) := by
  have hst : s.start ∈ s.during := List.mem_cons_self
  have hm := hq.dbOk _ hst
  have hsc := hq.cursor sel
  let m := readDb db s.start sel (s.cursor sel)
  have hfrom : ∀ r ∈ m.data db, ∃ m' ∈ s.during, r ∈ m'.data db := by
    intro r hr
    rw [readDb_data] at hr
    rcases List.mem_append.1 hr with hr | hr
    · obtain ⟨m', hm', hr', _⟩ := hsc.was r hr
      exact ⟨m', hm', hr'⟩
    · exact ⟨_, hst, (List.mem_filter.1 hr).1⟩
  have hn : ((m.data db).map MongoRecord.id).Nodup := readDb_nodup hm.nodup hsc.once
  have hmo : DbOk db m := dbOk_of_docs (m0 := s.start) hn rfl hm.options (fun r hr => by
    obtain ⟨m', hm', hr'⟩ := hfrom r hr
    exact ⟨m', hq.dbOk m' hm', hr'⟩)
  have hsel : ∀ r ∈ s.cursor sel, sel r = true := fun r hr => by
    obtain ⟨_, _, _, h⟩ := hsc.was r hr
    exact h
  have hfil : (m.data db).filter sel = s.cursor sel := by
    rw [readDb_data, List.filter_append, List.filter_eq_self.2 hsel, List.filter_filter]
    have : ((s.start.data db).filter (fun r => sel r && (!sel r && !decide (r.id ∈ (s.cursor sel).map MongoRecord.id)))) = [] := by
      rw [List.filter_eq_nil_iff]
      intro r _
      cases sel r <;> simp
    rw [this, List.append_nil]
  have hmem : ∀ {r}, r ∈ s.cursor sel ↔ r ∈ m.data db ∧ sel r = true := fun {r} => by rw [← hfil]; exact List.mem_filter
  refine ⟨hmo, rfl, hfrom, hfil, ?_⟩
  · intro id hid
    cases hf : findRecord id (s.start.data db) with
    | none =>
      rw [findRecord_none]
      intro hi
      obtain ⟨r, hr, rfl⟩ := List.mem_map.1 hi
      obtain ⟨m', hm', hr'⟩ := hfrom r hr
      have := findRecord_of_mem (hq.dbOk m' hm').nodup hr'
      rw [hid m' hm', hf] at this
      cases this
    | some r =>
      have hid' : ∀ m' ∈ s.during, r ∈ m'.data db := fun m' hm' => findRecord_mem ((hid m' hm').trans hf)
      have hr := findRecord_id hf
      subst hr
      have hrm : r ∈ m.data db := by
        by_cases hin : r.id ∈ (s.cursor sel).map MongoRecord.id
        · obtain ⟨r', hr', he⟩ := List.mem_map.1 hin
          obtain ⟨m', hm', hr'', _⟩ := hsc.was r' hr'
          have e1 := findRecord_of_mem (hq.dbOk m' hm').nodup hr''
          have e2 := findRecord_of_mem (hq.dbOk m' hm').nodup (hid' m' hm')
          rw [he, e2] at e1
          cases e1
          exact (hmem.1 hr').1
        · have hs : sel r = false := by
            cases hs : sel r with
            | false => rfl
            | true => exact absurd (hsc.all r.id (fun m' hm' => ⟨r, hid' m' hm', rfl, hs⟩)) hin
          rw [readDb_data]
          exact List.mem_append_right _ (List.mem_filter.2 ⟨findRecord_mem hf, by simp only [hs, hin]; decide⟩)
      exact findRecord_of_mem hn hrm

/-- What a sync does, for any contents of the indices, and whatever others do during it: it is as if it had read a database `m` with
documents from the states during it. A record whose document is always the same is in `m` as it was. -/
theorem syncOver_effect {s : LongSync} (hq : s.Busy db) (X : Parser P) (maxDocs : Nat) {es : ES P} (hok : LatestOk es) :
    ∃ es' m sel, syncOver X maxDocs db s.start s.cursor es = .ok es' ∧ DbOk db m ∧
      committedOptionsOf db m = committedOptionsOf db s.start ∧
      (∀ r ∈ m.data db, ∃ m' ∈ s.during, r ∈ m'.data db) ∧
      (∀ id, (∀ m' ∈ s.during, findRecord id (m'.data db) = findRecord id (s.start.data db)) →
        findRecord id (m.data db) = findRecord id (s.start.data db)) ∧
      SyncEffect X db m es es' sel := by
  have hst : s.start ∈ s.during := List.mem_cons_self
  have hm := hq.dbOk _ hst
  have hsame : (∀ r ∈ s.start.data db, r.version = none ∨ trunc es.version (dbDocs X db s.start r) = dbDocs X db s.start r) →
      ∃ es' m sel, Except.ok (ε := PyErr) es = .ok es' ∧ DbOk db m ∧
      committedOptionsOf db m = committedOptionsOf db s.start ∧
      (∀ r ∈ m.data db, ∃ m' ∈ s.during, r ∈ m'.data db) ∧
      (∀ id, (∀ m' ∈ s.during, findRecord id (m'.data db) = findRecord id (s.start.data db)) →
        findRecord id (m.data db) = findRecord id (s.start.data db)) ∧
      SyncEffect X db m es es' sel := by
    intro ht
    exact ⟨es, s.start, fun _ => false, rfl, hm, rfl, fun r hr => ⟨_, hst, hr⟩, fun _ _ => rfl,
      ⟨hok, by simp, fun _ _ h => (nomatch h), fun _ _ => rfl, fun r hr _ => ht r hr⟩⟩
  have hgen : ∀ sel : MongoRecord → Bool, (∀ r, sel r = true → r.version.isSome = true) →
      (∀ m r, DbOk db m → committedOptionsOf db m = committedOptionsOf db s.start → r ∈ m.data db → sel r = false →
        r.version = none ∨ trunc es.version (dbDocs X db m r) = dbDocs X db m r) →
      ∃ ops arc', generateOps X maxDocs (committedOptionsOf db s.start) es.version es.arcStatus (s.cursor sel) =
        .ok (ops, arc') ∧
      ∃ es' m sel, Except.ok (ε := PyErr) (es.applyOps ops) = .ok es' ∧ DbOk db m ∧
      committedOptionsOf db m = committedOptionsOf db s.start ∧
      (∀ r ∈ m.data db, ∃ m' ∈ s.during, r ∈ m'.data db) ∧
      (∀ id, (∀ m' ∈ s.during, findRecord id (m'.data db) = findRecord id (s.start.data db)) →
        findRecord id (m.data db) = findRecord id (s.start.data db)) ∧
      SyncEffect X db m es es' sel := by
    intro sel h1 h2
    have hsc := hq.cursor sel
    let m := readDb db s.start sel (s.cursor sel)
    obtain ⟨hmo, _, hfrom, hfil, hstay⟩ : ScanAs db s sel m := hq.scanAs sel
    have hmem : ∀ {r}, r ∈ s.cursor sel ↔ r ∈ m.data db ∧ sel r = true := fun {r} => by rw [← hfil]; exact List.mem_filter
    obtain ⟨ops, arc', g1, g2, g3, g4, g5⟩ := generateOps_effect X maxDocs (committedOptionsOf db s.start) es.version (s.cursor sel)
      es.arcStatus es hok hsc.once (fun r hr => by
        obtain ⟨rvs, ha, hb, _⟩ := hmo.build X (hmem.1 hr).1 (h1 r (hmem.1 hr).2)
        exact ⟨rvs, ha, hb⟩)
    have hd : ∀ r ∈ m.data db, sel r = true → docsOf X (committedOptionsOf db s.start) r = dbDocs X db m r := by
      intro r hr hs
      obtain ⟨rvs, ha, _, hc⟩ := hmo.build X hr (h1 r hs)
      have ha : build X r (committedOptionsOf db s.start) = .ok rvs := ha
      simp [docsOf, ha, hc]
    refine ⟨ops, arc', g1, es.applyOps ops, m, sel, rfl, hmo, rfl, hfrom, ?_, ⟨g2, ?_, fun r hr hs => ?_, ?_, fun r hr hs => h2 m r hmo rfl hr hs⟩⟩
    · exact hstay
    · refine g3.trans (List.Perm.of_eq ?_)
      rw [hfil]
      congr 1
      apply List.flatMap_congr
      intro r hr
      rw [hd r (hmem.1 hr).1 (hmem.1 hr).2]
    · rw [g4 r (hmem.2 ⟨hr, hs⟩), hd r hr hs]
    · rw [hfil]; exact g5
  unfold syncOver
  by_cases hd : hasData db s.start = true
  · simp only [hd, Bool.not_true, Bool.false_eq_true, if_false, syncScope]
    have hnone : ∀ (m : Mongo) (r : MongoRecord), DbOk db m → committedOptionsOf db m = committedOptionsOf db s.start → r ∈ m.data db → (r.version.isSome = false) →
        r.version = none ∨ trunc es.version (dbDocs X db m r) = dbDocs X db m r := fun m r _ _ _ h => .inl (by simpa using h)
    cases hv : es.version with
    | none =>
      obtain ⟨ops, arc', h1, h2⟩ := hgen (fun r => r.version.isSome) (fun _ h => h) hnone
      rw [hv] at h1
      simp only [h1]
      exact h2
    | some e =>
      obtain ⟨r0, hr0, hv0⟩ := List.any_eq_true.1 hd
      obtain ⟨v0, hv0⟩ := Option.isSome_iff_exists.1 hv0
      obtain ⟨c, hc, _⟩ := record_le_committed hr0 hv0
      simp only [hc]
      by_cases hle : e ≥ c
      · rw [if_pos hle]
        refine hsame ?_
        intro r hr
        cases hrv : r.version with
        | none => exact .inl rfl
        | some v =>
          right
          rw [hv]
          apply hm.trunc_old X
          · intro w hw
            have h1 := hm.key_le hr hrv hw
            obtain ⟨c', h2, h3⟩ := record_le_committed hr hrv
            rw [hc] at h2; cases h2; omega
          · intro _ w hw
            obtain ⟨c', h2, h3⟩ := options_le_committed hw
            rw [hc] at h2; cases h2; omega
      · rw [if_neg hle]
        by_cases ho : (akeys (committedOptionsOf db s.start)).any (fun v => decide (v > e)) = true
        · rw [if_pos ho]
          obtain ⟨ops, arc', h1, h2⟩ := hgen (fun r => r.version.isSome) (fun _ h => h) hnone
          rw [hv] at h1
          simp only [h1]
          exact h2
        · rw [if_neg ho]
          obtain ⟨ops, arc', h1, h2⟩ := hgen
            (newerThan e) (fun r h => by
              unfold newerThan at h
              cases hrv : r.version with
              | none => rw [hrv] at h; cases h
              | some v => rfl) (fun m r hm' hopt hr hs => by
              cases hrv : r.version with
              | none => exact .inl rfl
              | some v =>
                right
                rw [newerThan, hrv] at hs
                simp only [decide_eq_false_iff_not] at hs
                rw [hv]
                apply hm'.trunc_old X
                · intro w hw
                  have := hm'.key_le hr hrv hw
                  omega
                · intro _ w hw
                  rw [hopt] at hw
                  simp only [List.any_eq_true, decide_eq_true_eq, not_exists, not_and] at ho
                  have := ho w hw
                  omega)
          rw [hv] at h1
          simp only [h1]
          exact h2
  · simp only [hd, Bool.not_false, if_true]
    refine hsame (fun r hr => ?_)
    cases hrv : r.version with
    | none => exact .inl rfl
    | some v => exact absurd (List.any_eq_true.2 ⟨r, hr, by simp [hrv]⟩) hd

theorem recDocs_congr {opts : List (Int × ParsingOptions)} {c c' : Coll} {id : PyStr} (h : findRecord id c = findRecord id c') :
    recDocs X opts c id = recDocs X opts c' id := by
  unfold recDocs
  rw [histOf_congr h]

/-- A sync that others disturb, for one record that they do not: the indices get what is missing of it. -/
theorem syncOver_each {s : LongSync} (hq : s.Busy db) (X : Parser P) (maxDocs : Nat) {es : ES P} {t t' : Int} (hs : SoundIndices t es)
    (htt : t ≤ t') (ht : ∀ m ∈ s.during, KeysUpTo db m t') (hot : ∀ w ∈ akeys (committedOptionsOf db s.start), w ≤ t') :
    ∃ es', syncOver X maxDocs db s.start s.cursor es = .ok es' ∧ SoundIndices t' es' ∧
      ∀ id D, (∀ m ∈ s.during, findRecord id (m.data db) = findRecord id (s.start.data db)) →
        recDocs X (committedOptionsOf db s.start) (s.start.data db) id = D → HoldsFor es id (trunc es.version D) →
        LastNotNew es.version D → NoPendingOf db id s.start → HoldsFor es' id D := by
  obtain ⟨es', m, sel, h1, hm, ho, hf, hi, he⟩ := syncOver_effect hq X maxDocs hs.ok
  have hst : s.start ∈ s.during := List.mem_cons_self
  have hk : KeysUpTo db m t' := by
    intro id w hw hne
    obtain ⟨r, hr, rfl⟩ := List.mem_map.1 (mem_ids_of_hist hne)
    obtain ⟨m', hm', hr'⟩ := hf r hr
    have e := histOf_congr ((findRecord_of_mem hm.nodup hr).trans (findRecord_of_mem (hq.dbOk m' hm').nodup hr').symm)
    rw [e] at hw hne
    rcases hw with hw | hw
    · exact ht m' hm' r.id w (.inl hw) hne
    · rw [ho] at hw; exact hot w hw
  obtain ⟨g1, g2⟩ := SyncEffect.each_raw hm he hs htt hk
  refine ⟨es', h1, g1, fun id D hid hD hh hl hp => ?_⟩
  have hfr := hi id hid
  have hp' : NoPendingOf db id m := by
    rintro r hr rfl
    have := findRecord_of_mem hm.nodup hr
    rw [hfr] at this
    exact hp r (findRecord_mem this) rfl
  have hD' : recDocs X (committedOptionsOf db m) (m.data db) id = D := by rw [ho, recDocs_congr hfr]; exact hD
  obtain ⟨k1, k2⟩ := g2 id D hD' hh.archived hp'
  refine ⟨?_, k1⟩
  rcases k2 with k2 | ⟨k2, k3⟩
  · rw [k2, hh.latest]
    exact latest_step _ _ (hD' ▸ hm.good X id) hl
  · rw [k3, hh.latest, k2]

/-- One sync of several, seen from one record. -/
structure LongSync.SteadyFor (db id : PyStr) (s : LongSync) : Prop where
  busy : s.Busy db
  same : ∀ m ∈ s.during, findRecord id (m.data db) = findRecord id (s.start.data db)
  noPending : NoPendingOf db id s.start

/-- Everything committed during a sync is at most `t`. -/
structure LongSync.UpTo (db : PyStr) (s : LongSync) (t : Int) : Prop where
  keys : ∀ m ∈ s.during, KeysUpTo db m t
  options : ∀ w ∈ akeys (committedOptionsOf db s.start), w ≤ t

/-- Several syncs, seen from one record. -/
def LongTimelineFor (X : Parser P) (db id : PyStr) (s : Int) : List LongSync → Prop
  | [] => True
  | [l] => l.SteadyFor db id ∧ ∃ t, s ≤ t ∧ l.UpTo db t
  | l :: l' :: rest => l.SteadyFor db id ∧
      ∃ t, s ≤ t ∧ l.UpTo db t ∧ LaterFor X db id t l.start l'.start ∧ NoUpdateDeleteOf db id t l'.start ∧
        LongTimelineFor X db id t (l' :: rest)

theorem LongTimelineFor.steady {id : PyStr} {s : Int} {l : LongSync} {ls : List LongSync} (h : LongTimelineFor X db id s (l :: ls)) : l.SteadyFor db id := by
  cases ls with
  | nil => exact h.1
  | cons a b => exact h.1

theorem runLongSyncs_each (X : Parser P) (db id : PyStr) (maxDocs : Nat) : ∀ (ls : List LongSync) (l : LongSync) (s : Int) (es : ES P),
    LongTimelineFor X db id s (l :: ls) → SoundIndices s es →
    HoldsFor es id (trunc es.version (recDocs X (committedOptionsOf db l.start) (l.start.data db) id)) →
    LastNotNew es.version (recDocs X (committedOptionsOf db l.start) (l.start.data db) id) →
    ∃ es' t, runLongSyncs X maxDocs db es (l :: ls) = .ok es' ∧ SoundIndices t es' ∧
      HoldsFor es' id (recDocs X (committedOptionsOf db ((l :: ls).getLast (by simp)).start)
        (((l :: ls).getLast (by simp)).start.data db) id)
  | [], l, s, es, ht, hs, hh, hl => by
    obtain ⟨hq, t, hst, hk⟩ := ht
    obtain ⟨es', h1, h2, h3⟩ := syncOver_each hq.busy X maxDocs hs hst hk.keys hk.options
    exact ⟨es', t, by simp only [runLongSyncs, h1], h2, h3 id _ hq.same rfl hh hl hq.noPending⟩
  | l' :: ls, l, s, es, ht, hs, hh, hl => by
    obtain ⟨hq, t, hst, hk, hlat, hd, hrest⟩ := ht
    have hm := hq.busy.dbOk _ List.mem_cons_self
    have hm' := hrest.steady.busy.dbOk _ List.mem_cons_self
    obtain ⟨es1, h1, h2, h3⟩ := syncOver_each hq.busy X maxDocs hs hst hk.keys hk.options
    obtain ⟨g1, g2⟩ := each_ready hlat hm hm' hd h2 (h3 id _ hq.same rfl hh hl hq.noPending)
    obtain ⟨es', t', k1, k2, k3⟩ := runLongSyncs_each X db id maxDocs ls l' t es1 hrest h2 g1 g2
    refine ⟨es', t', ?_, k2, by simpa using k3⟩
    rw [runLongSyncs, h1]
    exact k1

theorem runLongSyncs_each_first (X : Parser P) (db id : PyStr) (maxDocs : Nat) (ls : List LongSync) (l : LongSync) (s : Int)
    (h : LongTimelineFor X db id s (l :: ls)) :
    ∃ es' t, runLongSyncs X maxDocs db [] (l :: ls) = .ok es' ∧ SoundIndices t es' ∧
      HoldsFor es' id (recDocs X (committedOptionsOf db ((l :: ls).getLast (by simp)).start)
        (((l :: ls).getLast (by simp)).start.data db) id) := by
  apply runLongSyncs_each X db id maxDocs ls l s [] h (soundIndices_nil s)
  · rw [version_nil, trunc_none]
    exact ⟨rfl, .refl _⟩
  · intro h1
    simp [version_nil, trunc_none, openOf] at h1

/-- All such syncs succeed. -/
theorem runLongSyncs_ok (X : Parser P) (maxDocs : Nat) : ∀ (ls : List LongSync) (es : ES P), (∀ l ∈ ls, l.Busy db) → LatestOk es →
    ∃ es', runLongSyncs X maxDocs db es ls = .ok es' ∧ LatestOk es'
  | [], es, _, h => ⟨es, rfl, h⟩
  | l :: ls, es, hl, h => by
    obtain ⟨es1, _, _, h1, _, _, _, _, h2⟩ := syncOver_effect (hl l (by simp)) X maxDocs h
    obtain ⟨es2, h3, h4⟩ := runLongSyncs_ok X maxDocs ls es1 (fun l h => hl l (by simp [h])) h2.ok
    exact ⟨es2, by simp only [runLongSyncs, h1, h3], h4⟩

end

end Splitgill
