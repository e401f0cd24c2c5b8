import Verif.Proof.SyncRace3
import Verif.Proof.Resync
import Verif.Proof.Search3
import Verif.Proof.Wire
import Verif.Spec.Resync
/-!
# Lemmas: resyncs while others write
-/

namespace Splitgill

section
variable {P : Type} {X : Parser P} {db : PyStr} {m : Mongo}

theorem exists_keysUpTo (db : PyStr) (m : Mongo) : ∃ t, KeysUpTo db m t := by
  obtain ⟨t, h⟩ := exists_bound (((m.data db).flatMap (fun r => (histOf (m.data db) r.id).map Prod.fst)) ++
    (committedOptionsOf db m).map Prod.fst)
  refine ⟨t, fun id w hw hne => h w ?_⟩
  rcases hw with hw | hw
  · obtain ⟨r, hr, rfl⟩ := List.mem_map.1 (mem_ids_of_hist hne)
    exact List.mem_append_left _ (List.mem_flatMap.2 ⟨r, hr, hw⟩)
  · exact List.mem_append_right _ hw

theorem TidyLatest.latestOf {es : ES P} (h : TidyLatest es) {id : PyStr} {d : Doc P} (hd : es.latestOf id = some d) :
    d.id = id ∧ d.version = d.gte ∧ d.lt = none ∧ d.next = none :=
  h.docs id d ((aget_iff_mem h.ok.nodup).1 hd)

/-- Indices that are sound up to the times of the documents in them. -/
theorem sound_of {es : ES P} (hok : LatestOk es) (hl : ∀ id d, es.latestOf id = some d → d.id = id ∧ d.version = d.gte ∧ d.lt = none ∧ d.next = none)
    (ha : ∀ d ∈ es.archived, d.version = d.gte ∧ d.next = d.lt ∧ d.lt ≠ none) : ∃ t, SoundIndices t es := by
  obtain ⟨t, ht⟩ := exists_bound (es.all.map Doc.version ++ es.all.filterMap Doc.next)
  refine ⟨t, hok, fun d hd => ?_, fun id d hd => ⟨(hl id d hd).1, (hl id d hd).2.2.1⟩, fun d hd => (ha d hd).2.2, fun d hd => ⟨?_, fun n hn => ?_⟩⟩
  · rcases (mem_all hok).1 hd with ⟨id, hd⟩ | hd
    · obtain ⟨_, h1, h2, h3⟩ := hl id d hd
      exact ⟨h1, h3.trans h2.symm⟩
    · exact ⟨(ha d hd).1, (ha d hd).2.1⟩
  · exact ht _ (List.mem_append_left _ (List.mem_map_of_mem hd))
  · exact ht _ (List.mem_append_right _ (List.mem_filterMap.2 ⟨d, hd, hn⟩))

/-- What a first sync, with nobody writing, leaves. -/
theorem first_sync_each (hm : DbOk db m) (X : Parser P) (maxDocs : Nat) :
    ∃ es0 t, sync X maxDocs db false m [] = .ok es0 ∧ SoundIndices t es0 ∧
      Holds es0 ((m.data db).filter (fun r => r.version.isSome)) (dbDocs X db m) ∧
      ∀ id, NoPendingOf db id m → HoldsFor es0 id (recDocs X (committedOptionsOf db m) (m.data db) id) := by
  obtain ⟨t, ht⟩ := exists_keysUpTo db m
  obtain ⟨es0, h1, h2, h3⟩ := sync_each hm X maxDocs (soundIndices_nil t) (Int.le_refl t) ht
  obtain ⟨es0', h1', h4⟩ := first_sync hm X maxDocs
  rw [h1] at h1'; cases h1'
  refine ⟨es0, t, h1, h2, h4, fun id hp => h3 id _ rfl ?_ ?_ hp⟩
  · rw [version_nil, trunc_none]
    exact ⟨rfl, .refl _⟩
  · intro h1
    simp [version_nil, trunc_none, openOf] at h1

theorem resyncOver_effect {s : LongSync} (hq : s.Busy db) (X : Parser P) (maxDocs : Nat) {es : ES P} (he : TidyLatest es)
    (hd : hasData db s.start = true) :
    ∃ es' m t, resyncOver X maxDocs db s.start s.cursor es = .ok es' ∧ ScanAs db s (fun r => r.version.isSome) m ∧ SoundIndices t es' ∧
      ∀ id, NoPendingOf db id m →
        (es'.archived.filter (fun d => decide (d.id = id))).Perm (closedOf (recDocs X (committedOptionsOf db m) (m.data db) id)) ∧
        es'.latestOf id = (openOf (recDocs X (committedOptionsOf db m) (m.data db) id)).or (es.latestOf id) := by
  have hr := hq.scanAs (fun r => r.version.isSome)
  generalize readDb db s.start (fun r => r.version.isSome) (s.cursor (fun r => r.version.isSome)) = m at hr
  obtain ⟨es0, t0, h1, h2, h3, h4⟩ := first_sync_each hr.dbOk X maxDocs
  obtain ⟨ops, arc', g1, g2, g3, g4⟩ := generate_all hr.dbOk X maxDocs he.ok.deleteArcs (deleteArcs_archived es)
    es.deleteArcs.arcStatus h3
  rw [hr.scan, hr.options] at g1
  simp only [deleteArcs_latestOf] at g4
  have hs : ∃ t, SoundIndices t (es.deleteArcs.applyOps ops) := by
    refine sound_of g2 (fun id d hd => ?_) (fun d hd => ?_)
    · rw [g4 id] at hd
      cases h0 : es0.latestOf id with
      | none => rw [h0] at hd; exact he.latestOf hd
      | some x =>
        rw [h0] at hd
        cases hd
        have := h2.latest id d h0
        have hf := h2.fields d ((mem_all h2.ok).2 (.inl ⟨id, h0⟩))
        exact ⟨this.1, hf.1, this.2, hf.2.trans this.2⟩
    · have hd := g3.mem_iff.1 hd
      have hf := h2.fields d ((mem_all h2.ok).2 (.inr hd))
      exact ⟨hf.1, hf.2, h2.archived d hd⟩
  obtain ⟨t, hs⟩ := hs
  refine ⟨es.deleteArcs.applyOps ops, m, t, ?_, hr, hs, fun id hp => ?_⟩
  · unfold resyncOver
    have : syncScope db true s.start es = .ok (some (fun r => r.version.isSome, none)) := rfl
    simp only [hd, Bool.not_true, Bool.false_eq_true, if_false, this, g1]
  · exact ⟨(g3.filter _).trans (h4 id hp).archived, by rw [g4 id, (h4 id hp).latest]⟩

theorem resyncArcsOver_effect {s : LongSync} (hq : s.Busy db) (X : Parser P) (maxDocs : Nat) (es : ES P) :
    ∃ es' m, resyncArcsOver X maxDocs db s.start s.cursor es = .ok es' ∧ ScanAs db s (fun r => r.version.isSome) m ∧
      es'.docs .latest = es.docs .latest ∧
      (∀ d ∈ es'.archived, d.version = d.gte ∧ d.next = d.lt ∧ d.lt ≠ none) ∧
      ∀ id, NoPendingOf db id m →
        (es'.archived.filter (fun d => decide (d.id = id))).Perm (closedOf (recDocs X (committedOptionsOf db m) (m.data db) id)) := by
  have hr := hq.scanAs (fun r => r.version.isSome)
  generalize readDb db s.start (fun r => r.version.isSome) (s.cursor (fun r => r.version.isSome)) = m at hr
  obtain ⟨es0, t0, h1, h2, h3, h4⟩ := first_sync_each hr.dbOk X maxDocs
  obtain ⟨es', g1, g2, g3⟩ := resyncArcs_effect hr.dbOk X maxDocs es h3
  refine ⟨es', m, ?_, hr, g2, fun d hd => ?_, fun id hp => (g3.filter _).trans (h4 id hp).archived⟩
  · rw [← g1]
    unfold resyncArcsOver resyncArcs
    rw [hr.scan, hr.options]
    rfl
  · have hd := g3.mem_iff.1 hd
    have hf := h2.fields d ((mem_all h2.ok).2 (.inr hd))
    exact ⟨hf.1, hf.2, h2.archived d hd⟩

/-- A record that was the same all the time. -/
theorem ScanAs.same {s : LongSync} (hq : s.Busy db) {sel : MongoRecord → Bool} (hr : ScanAs db s sel m) {id : PyStr}
    (h : ∀ m' ∈ s.during, findRecord id (m'.data db) = findRecord id (s.start.data db)) (hp : NoPendingOf db id s.start) :
    NoPendingOf db id m ∧ recDocs X (committedOptionsOf db m) (m.data db) id =
      recDocs X (committedOptionsOf db s.start) (s.start.data db) id := by
  have hf := hr.steady id h
  refine ⟨?_, by rw [hr.options, recDocs_congr hf]⟩
  rintro r hrm rfl
  have := findRecord_of_mem hr.dbOk.nodup hrm
  rw [hf] at this
  exact hp r (findRecord_mem this) rfl

/-- After a resync, the same is found of such a record as after a first sync that nobody disturbed. -/
theorem resyncOver_same {s : LongSync} (hq : s.Busy db) {X : Parser P} {maxDocs : Nat} {es es' es0 : ES P} (he : TidyLatest es)
    (hd : hasData db s.start = true) (h1 : resyncOver X maxDocs db s.start s.cursor es = .ok es')
    (h0 : sync X maxDocs db false s.start [] = .ok es0) {id : PyStr}
    (h : ∀ m' ∈ s.during, findRecord id (m'.data db) = findRecord id (s.start.data db)) (hp : NoPendingOf db id s.start)
    (hnew : histOf (s.start.data db) id ≠ [] ∧ ¬ DeletedNow (histOf (s.start.data db) id) ∨ es.latestOf id = none) (v : Int) :
    foundFor es' (.version v) id = foundFor es0 (.version v) id := by
  have hm := hq.dbOk _ (List.mem_cons_self : s.start ∈ s.during)
  obtain ⟨es2, m, t, g1, g2, g3, g4⟩ := resyncOver_effect hq X maxDocs he hd
  rw [h1] at g1; cases g1
  obtain ⟨es3, t0, k1, k2, _, k4⟩ := first_sync_each hm X maxDocs
  rw [h0] at k1; cases k1
  obtain ⟨hp', hD⟩ := g2.same (X := X) hq h hp
  obtain ⟨g5, g6⟩ := g4 id hp'
  rw [hD] at g5 g6
  have hh : HoldsFor es' id (recDocs X (committedOptionsOf db s.start) (s.start.data db) id) := by
    refine ⟨?_, g5⟩
    rw [g6]
    cases ho : openOf (recDocs X (committedOptionsOf db s.start) (s.start.data db) id) with
    | some d => rfl
    | none =>
      rcases hnew with ⟨hne, hnd⟩ | hn
      · exact absurd (hm.deletedNow X hne ho) hnd
      · rw [hn]; rfl
  exact perm_le_one (hh.found g3 (hm.good X id) v) ((k4 id hp).found k2 (hm.good X id) v) (hm.found_le X id v)

/-! ## Records that others commit -/

/-- Documents cover the same up to `t` as they did then. -/
theorem trunc_found {t v : Int} (h : v ≤ t) (D : List (Doc P)) :
    ((trunc (some t) D).filter (fun d => d.inRange v)).map (fun d => (d.version, d.parsed)) =
      (D.filter (fun d => d.inRange v)).map (fun d => (d.version, d.parsed)) := by
  induction D with
  | nil => rfl
  | cons d D ih =>
    have hd : ((truncDoc (some t) d).toList.filter (fun d => d.inRange v)).map (fun d => (d.version, d.parsed)) =
        ([d].filter (fun d => d.inRange v)).map (fun d => (d.version, d.parsed)) := by
      unfold truncDoc
      by_cases hg : t < d.gte
      · have : ¬ d.inRange v = true := fun hr => by
          have := (inRange_iff.1 hr).1
          omega
        simp [gtAfter, hg, this]
      · simp only [gtAfter, decide_eq_true_eq, if_neg hg]
        cases hl : d.lt with
        | none => rfl
        | some e =>
          dsimp only
          by_cases he : t < e
          · rw [if_pos he]
            have e1 : ({ d with lt := none, next := none } : Doc P).inRange v = d.inRange v := by
              rw [Bool.eq_iff_iff, inRange_iff, inRange_iff]
              constructor
              · rintro ⟨h1, _⟩
                exact ⟨h1, fun x hx => by rw [hl] at hx; cases hx; omega⟩
              · rintro ⟨h1, _⟩
                exact ⟨h1, fun x hx => nomatch hx⟩
            by_cases hr : d.inRange v = true <;> simp [e1, hr]
          · rw [if_neg he]; rfl
    rw [trunc_cons, List.filter_append, List.map_append, ih, hd, ← List.map_append, ← List.filter_append]
    rfl

/-- After a resync, the same is found of a record that it read, up to the version when the resync started. -/
theorem resyncOver_grown {s : LongSync} (hq : s.Busy db) {X : Parser P} {maxDocs : Nat} {es es' es0 : ES P} (he : TidyLatest es)
    (h1 : resyncOver X maxDocs db s.start s.cursor es = .ok es')
    (h0 : sync X maxDocs db false s.start [] = .ok es0) {id : PyStr} {t : Int}
    (h : ∃ r ∈ s.start.data db, r.id = id ∧ r.version ≠ none)
    (hread : id ∈ (s.cursor (fun r => r.version.isSome)).map MongoRecord.id)
    (hnd : ∀ m ∈ s.during, ¬ DeletedNow (histOf (m.data db) id))
    (hl : ∀ m ∈ s.during, LaterFor X db id t s.start m) {v : Int} (hv : v ≤ t) :
    (foundFor es' (.version v) id).map (fun d => (d.version, d.parsed)) =
      (foundFor es0 (.version v) id).map (fun d => (d.version, d.parsed)) := by
  have hst : s.start ∈ s.during := List.mem_cons_self
  have hm := hq.dbOk _ hst
  have hd : hasData db s.start = true := by
    obtain ⟨r, hr, _, hv⟩ := h
    exact List.any_eq_true.2 ⟨r, hr, Option.isSome_iff_ne_none.2 hv⟩
  obtain ⟨es2, m, t1, g1, g2, g3, g4⟩ := resyncOver_effect hq X maxDocs he hd
  rw [h1] at g1; cases g1
  obtain ⟨es3, t0, k1, k2, _, k4⟩ := first_sync_each hm X maxDocs
  rw [h0] at k1; cases k1
  obtain ⟨r, hrc, hid⟩ := List.mem_map.1 hread
  rw [← g2.scan] at hrc
  obtain ⟨hr, hrv⟩ := List.mem_filter.1 hrc
  obtain ⟨m', hm', hr'⟩ := g2.was r hr
  have hf : findRecord id (m.data db) = findRecord id (m'.data db) := by
    rw [← hid]
    exact (findRecord_of_mem g2.dbOk.nodup hr).trans (findRecord_of_mem (hq.dbOk m' hm').nodup hr').symm
  have hp : NoPendingOf db id s.start := by
    intro r1 hr1 hid1
    obtain ⟨r2, h2, hid2, h3⟩ := h
    have e1 := findRecord_of_mem hm.nodup hr1
    have e2 := findRecord_of_mem hm.nodup h2
    rw [hid1] at e1
    rw [hid2, e1] at e2
    cases e2
    exact h3
  have hpm : NoPendingOf db id m := by
    intro r1 hr1 hid1
    have e1 := findRecord_of_mem g2.dbOk.nodup hr1
    have e2 := findRecord_of_mem g2.dbOk.nodup hr
    rw [hid1] at e1
    rw [hid, e1] at e2
    cases e2
    exact Option.isSome_iff_ne_none.1 hrv
  have hlm : LaterFor X db id t s.start m := by
    refine ⟨by rw [histOf_congr hf]; exact (hl m' hm').hist, fun w o => ?_⟩
    rw [g2.options]
    exact ⟨fun hw => ⟨hw, ((hl _ hst).opts w o).1 hw |>.2⟩, fun hw => hw.1⟩
  have hh : HoldsFor es' id (recDocs X (committedOptionsOf db m) (m.data db) id) := by
    refine ⟨?_, (g4 id hpm).1⟩
    rw [(g4 id hpm).2]
    cases ho : openOf (recDocs X (committedOptionsOf db m) (m.data db) id) with
    | some d => rfl
    | none =>
      have hne : histOf (m.data db) id ≠ [] := by
        obtain ⟨w, hw⟩ := Option.isSome_iff_exists.1 hrv
        obtain ⟨_, d, hd⟩ := g2.dbOk.head hr hw
        rw [← hid]
        intro he; rw [he] at hd; cases hd
      have := g2.dbOk.deletedNow X hne ho
      rw [histOf_congr hf] at this
      exact absurd this (hnd m' hm')
  have e1 := (hh.found g3 (g2.dbOk.good X id) v).map (fun d => (d.version, d.parsed))
  have e2 := ((k4 id hp).found k2 (hm.good X id) v).map (fun d => (d.version, d.parsed))
  rw [← hlm.trunc hm g2.dbOk, trunc_found hv] at e2
  exact perm_le_one e1 e2 (by rw [List.length_map]; exact g2.dbOk.found_le X id v)

/-! ## The latest index stays tidy -/

/-- An operation as a sync makes it. -/
def TidyOp : BulkOp P → Prop
  | .index .latest k d => k = some d.id ∧ d.version = d.gte ∧ d.lt = none ∧ d.next = none
  | .index (.arc _) k _ => k = none
  | .delete ix _ => ix = .latest

theorem rvOps_tidy {maxDocs : Nat} {after : Option Int} {id : PyStr} : ∀ {rvs : List (RecordVersion P)} {arc : Nat × Nat},
    (∀ rv ∈ rvs, rv.recordId = id) → ∀ op ∈ (rvOps maxDocs after id arc rvs).1, TidyOp op
  | [], arc, _, op, h => by cases h
  | rv :: rest, arc, hr, op, h => by
    have ih : ∀ arc, op ∈ (rvOps maxDocs after id arc rest).1 → TidyOp op := fun arc h =>
      rvOps_tidy (fun rv hm => hr rv (List.mem_cons_of_mem _ hm)) op h
    have harch : ∀ pre : List (BulkOp P), (∀ op ∈ pre, op = .delete .latest id) →
        op ∈ pre ++ .index (.arc (nextArc maxDocs arc).1) none (rv.createDoc rest.head?) ::
          (rvOps maxDocs after id (nextArc maxDocs arc) rest).1 → TidyOp op := by
      intro pre hpre h
      rcases List.mem_append.1 h with h | h
      · rw [hpre _ h]; rfl
      · rcases List.mem_cons.1 h with rfl | h
        · rfl
        · exact ih _ h
    rw [rvOps] at h
    dsimp only at h
    split at h
    · rename_i hc
      rcases List.mem_cons.1 h with rfl | h
      · simp only [Bool.and_eq_true, Option.isNone_iff_eq_none] at hc
        have he : rv.versionEnd rest.head? = none := by
          unfold RecordVersion.versionEnd
          rw [hc.2, hc.1.2]; rfl
        exact ⟨by rw [← hr rv List.mem_cons_self]; rfl, rfl, he, he⟩
      · exact ih _ h
    · split at h
      · exact harch [] (fun _ hm => (nomatch hm)) h
      · split at h
        · split at h
          · split at h
            · exact harch [.delete .latest id] (fun op hm => List.mem_singleton.1 hm) h
            · exact harch [] (fun _ hm => (nomatch hm)) h
          · exact ih _ h
        · exact ih _ h

theorem generateOps_tidy {maxDocs : Nat} {allOptions : List (Int × ParsingOptions)} {after : Option Int} :
    ∀ {records : List MongoRecord} {arc : Nat × Nat} {ops arc'}, generateOps X maxDocs allOptions after arc records = .ok (ops, arc') →
    ∀ op ∈ ops, TidyOp op
  | [], arc, ops, arc', h, op, hm => by cases h; cases hm
  | r :: rest, arc, ops, arc', h, op, hm => by
    rw [generateOps] at h
    cases hb : build X r allOptions with
    | error e => rw [hb] at h; cases h
    | ok rvs =>
      rw [hb] at h
      cases rvs with
      | nil => cases h
      | cons rv rvs =>
        dsimp only at h
        cases hg : generateOps X maxDocs allOptions after (rvOps maxDocs after r.id arc (rv :: rvs)).2 rest with
        | error e => rw [hg] at h; cases h
        | ok x =>
          rw [hg] at h
          cases h
          rcases List.mem_append.1 hm with hm | hm
          · obtain ⟨items, h3, h4⟩ := build_parseOf hb
            exact rvOps_tidy (fun rv hrv => (build_from hb h3 rv hrv).id) op hm
          · exact generateOps_tidy hg op hm

theorem TidyLatest.apply {es : ES P} (h : TidyLatest es) {op : BulkOp P} (ho : TidyOp op) : TidyLatest (BulkOp.apply es op) := by
  match op, ho with
  | .index .latest k d, ho =>
    obtain ⟨rfl, h1⟩ := ho
    have hok := h.ok.apply_put d.id d
    refine ⟨hok, fun id x hx => ?_⟩
    have hx := aget_of_mem hok.nodup hx
    have := latestOf_put es d.id id d
    unfold ES.latestOf at this
    rw [this] at hx
    split at hx
    · rename_i e
      cases hx
      exact ⟨e.symm, h1⟩
    · exact h.latestOf hx
  | .index (.arc n) k d, ho =>
    have ho : k = none := ho
    subst ho
    refine ⟨h.ok.apply_arc n d, fun id x hx => h.docs id x ?_⟩
    simpa only [BulkOp.apply, docs_aset, reduceCtorEq, if_false] using hx
  | .delete ix k, ho =>
    have ho : ix = .latest := ho
    subst ho
    have hok := h.ok.apply_delete k
    refine ⟨hok, fun id x hx => ?_⟩
    have hx := aget_of_mem hok.nodup hx
    have := latestOf_delete h.ok k id
    unfold ES.latestOf at this
    rw [this] at hx
    split at hx
    · cases hx
    · exact h.latestOf hx

theorem TidyLatest.applyOps : ∀ {ops : List (BulkOp P)} {es : ES P}, TidyLatest es → (∀ op ∈ ops, TidyOp op) → TidyLatest (es.applyOps ops)
  | [], _, h, _ => h
  | op :: ops, es, h, ho => by
    rw [applyOps_cons]
    exact TidyLatest.applyOps (h.apply (ho op List.mem_cons_self)) (fun o hm => ho o (List.mem_cons_of_mem _ hm))

theorem TidyLatest.deleteArcs {es : ES P} (h : TidyLatest es) : TidyLatest es.deleteArcs :=
  ⟨h.ok.deleteArcs, fun id d hd => h.docs id d (by rwa [deleteArcs_docs] at hd)⟩

end

end Splitgill
