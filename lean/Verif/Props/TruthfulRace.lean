import Verif.Props.Truthful
import Verif.Props.SyncRace2
/-!
# C38 and C132 if others write and commit while syncs run
-/

namespace Splitgill.Props
open Splitgill

section
variable {P : Type} {X : Parser P} {db : PyStr} {U : Unicode}

theorem syncEffect_docs {m : Mongo} (hm : DbOk db m) {es es' : ES P} {sel : MongoRecord → Bool} (hok : LatestOk es)
    (he : SyncEffect X db m es es' sel) : ∀ d ∈ es'.all, d ∈ es.all ∨ ∃ r ∈ m.data db, d ∈ dbDocs X db m r := by
  obtain ⟨h2, h3, h4, h5, _⟩ := he
  intro d hd
  rcases (mem_all h2).1 hd with ⟨id, hd⟩ | hd
  · by_cases hid : id ∈ ((m.data db).filter sel).map MongoRecord.id
    · obtain ⟨r, hr, rfl⟩ := List.mem_map.1 hid
      obtain ⟨hr, hsel⟩ := List.mem_filter.1 hr
      rw [h4 r hr hsel] at hd
      cases ha : latestAct es.version (dbDocs X db m r) with
      | put x =>
        rw [ha] at hd
        cases hd
        exact .inr ⟨r, hr, (latestAct_put ha).1⟩
      | remove => rw [ha] at hd; cases hd
      | leave => rw [ha] at hd; exact .inl ((mem_all hok).2 (.inl ⟨_, hd⟩))
    · rw [h5 id hid] at hd
      exact .inl ((mem_all hok).2 (.inl ⟨_, hd⟩))
  · rcases List.mem_append.1 (h3.mem_iff.1 hd) with hd | hd
    · exact .inl ((mem_all hok).2 (.inr hd))
    · obtain ⟨r, hr, hd⟩ := List.mem_flatMap.1 hd
      exact .inr ⟨r, (List.mem_filter.1 hr).1, (toArchive_mem (hm.good X r.id) hd).1⟩

/-- The documents after such syncs are documents of records as they were at some moment of a sync, with the options at its start. -/
theorem runLongSyncs_docs (maxDocs : Nat) : ∀ (ls : List LongSync) (es es' : ES P), (∀ l ∈ ls, l.Busy db) → LatestOk es →
    runLongSyncs X maxDocs db es ls = .ok es' → ∀ d ∈ es'.all, d ∈ es.all ∨ ∃ l ∈ ls, ∃ m, DbOk db m ∧
      committedOptionsOf db m = committedOptionsOf db l.start ∧ ∃ r ∈ m.data db, (∃ m' ∈ l.during, r ∈ m'.data db) ∧ d ∈ dbDocs X db m r
  | [], es, es', _, _, h, d, hd => by cases h; exact .inl hd
  | l :: ls, es, es', hl, hok, h, d, hd => by
    obtain ⟨es1, m, sel, h1, hm, ho, hf, _, he⟩ := syncOver_effect (hl l (by simp)) X maxDocs hok
    simp only [runLongSyncs, h1] at h
    rcases runLongSyncs_docs maxDocs ls es1 es' (fun l' h' => hl l' (by simp [h'])) he.ok h d hd with h' | ⟨l', h', k⟩
    · rcases syncEffect_docs hm hok he d h' with h' | ⟨r, hr, k⟩
      · exact .inl h'
      · exact .inr ⟨l, by simp, m, hm, ho, r, hr, hf r hr, k⟩
    · exact .inr ⟨l', by simp [h'], k⟩

theorem keysUpTo_mono {m : Mongo} {s t : Int} (h : KeysUpTo db m s) (hst : s ≤ t) : KeysUpTo db m t :=
  fun id w hw hne => Int.le_trans (h id w hw hne) hst

/-- After such syncs all documents say when they are valid. -/
theorem runLongSyncs_sound (X : Parser P) (maxDocs : Nat) : ∀ (ls : List LongSync) (es : ES P) (t : Int), (∀ l ∈ ls, l.Busy db) →
    (∀ l ∈ ls, ∃ t, (∀ m ∈ l.during, KeysUpTo db m t) ∧ ∀ w ∈ akeys (committedOptionsOf db l.start), w ≤ t) → SoundIndices t es →
    ∃ es' t', runLongSyncs X maxDocs db es ls = .ok es' ∧ SoundIndices t' es'
  | [], es, t, _, _, hs => ⟨es, t, rfl, hs⟩
  | l :: ls, es, t, hl, hk, hs => by
    obtain ⟨t1, k1, k2⟩ := hk l (by simp)
    obtain ⟨es1, h1, h2, _⟩ := syncOver_each (hl l (by simp)) X maxDocs (t' := max t t1) hs (by omega)
      (fun m hm => keysUpTo_mono (k1 m hm) (by omega)) (fun w hw => by have := k2 w hw; omega)
    obtain ⟨es2, t2, h3, h4⟩ := runLongSyncs_sound X maxDocs ls es1 _ (fun l h => hl l (by simp [h])) (fun l h => hk l (by simp [h])) h2
    exact ⟨es2, t2, by simp only [runLongSyncs, h1, h3], h4⟩

theorem longSyncs_split : ∀ (bs : List BusySync) (pre : List ApiCall), ∀ l ∈ longSyncs U db pre bs,
    ∃ (p : List ApiCall) (b : BusySync) (q : List ApiCall),
      pre ++ bs.flatMap BusySync.calls = (p ++ b.before ++ b.meanwhile) ++ q ∧ l = b.long U db p
  | [], _, l, hl => nomatch hl
  | b :: bs, pre, l, hl => by
    rw [longSyncs, List.mem_cons] at hl
    rcases hl with rfl | hl
    · exact ⟨pre, b, bs.flatMap BusySync.calls, by simp [BusySync.calls], rfl⟩
    · obtain ⟨p, b', q, h1, h2⟩ := longSyncs_split bs _ l hl
      exact ⟨p, b', q, by rw [← h1]; simp [BusySync.calls], h2⟩

end

/-- **C38** if others write and commit while the syncs run, with no condition on the records. -/
theorem C38_always_race (E : ParseEnv) (U : Unicode) (maxDocs : Nat) (db : PyStr) (bs : List BusySync)
    (ho : Orderly (bs.flatMap BusySync.calls)) (hv : ∀ b ∈ bs.head?, ∃ v, IsVersion (afterCalls U db b.before) db v)
    (hr : ∀ l ∈ longSyncs U db [] bs, ∀ sel, Scanned db l.during sel (l.cursor sel)) :
    ∃ es vs, runLongSyncs (realParser E) maxDocs db [] (longSyncs U db [] bs) = .ok es ∧ es.versions = some vs ∧ vs.Pairwise (· < ·) ∧
      (∀ v, v ∈ vs ↔ ∃ d ∈ found es .all, d.gte = v ∨ d.lt = some v) ∧
      ∀ v, (es.roundedVersion v = some none ∧ (∀ w ∈ vs, v < w) ∧ found es (.version v) = []) ∨
        ∃ w, es.roundedVersion v = some (some w) ∧ w ∈ vs ∧ w ≤ v ∧ (∀ w' ∈ vs, w' ≤ v → w' ≤ w) ∧
          (found es (.version w)).Perm (found es (.version v)) ∧
          ∀ (Q : QueryEnv) (q : EsQuery), (es.searchFor Q (.version w) q).Perm (es.searchFor Q (.version v) q) := by
  have hdb := longSyncs_dbOk (U := U) (db := db) bs [] (by rw [List.nil_append]; exact ho) (by simpa using hv)
  obtain ⟨es, t, h1, hs⟩ := runLongSyncs_sound (realParser E) maxDocs (longSyncs U db [] bs) [] 0 (fun l hl => ⟨hdb l hl, hr l hl⟩)
    (fun l hl => by
      obtain ⟨p, b, q, e, rfl⟩ := longSyncs_split bs [] l hl
      rw [List.nil_append] at e
      rw [e] at ho
      have hst := hdb _ hl _ List.mem_cons_self
      obtain ⟨w, hw⟩ := hst.isVersion
      obtain ⟨t, _, _, hk⟩ := statesOf_upTo (K := fun _ => plainClass) (U := U) (db := db) (b.meanwhile.map (fun c => [c])) (p ++ b.before)
        (fun c _ => fits_plain U c.stream) (by rw [map_flatten_single]; exact ho.left) ⟨w, hw⟩
      rw [← BusySync.during_eq] at hk
      exact ⟨t, fun m hm => (hk m hm).1, (hk _ List.mem_cons_self).2⟩) (soundIndices_nil 0)
  obtain ⟨vs, h⟩ := rounded_sound hs
  exact ⟨es, vs, h1, h⟩

/-- **C132** if others write and commit while the syncs run, whatever the records: each document that any search finds is right about the
version it carries. -/
theorem C132_truthful_race (E : ParseEnv) (hE : E.IgnoresOrder) (hS : E.ScalarHints) (U : Unicode) (hU : U.Sane) (maxDocs : Nat) (db : PyStr)
    (bs : List BusySync) (ho : Orderly (bs.flatMap BusySync.calls))
    (hopt : ∀ o ∈ (bs.flatMap BusySync.calls).filterMap ApiCall.options?, OptionsOk o)
    (hv : ∀ b ∈ bs.head?, ∃ v, IsVersion (afterCalls U db b.before) db v)
    (hr : ∀ l ∈ longSyncs U db [] bs, ∀ sel, Scanned db l.during sel (l.cursor sel)) :
    ∃ es, runLongSyncs (realParser E) maxDocs db [] (longSyncs U db [] bs) = .ok es ∧
      ∀ (at_ : SearchAt), ∀ d ∈ found es at_, Truthful U db (bs.flatMap BusySync.calls) d := by
  have hdb := longSyncs_dbOk (U := U) (db := db) bs [] (by rw [List.nil_append]; exact ho) (by simpa using hv)
  have hbusy : ∀ l ∈ longSyncs U db [] bs, l.Busy db := fun l hl => ⟨hdb l hl, hr l hl⟩
  obtain ⟨es, h1, _⟩ := runLongSyncs_ok (db := db) (realParser E) maxDocs _ [] hbusy latestOk_nil
  refine ⟨es, h1, fun at_ d hd => ?_⟩
  rcases runLongSyncs_docs maxDocs _ [] es hbusy latestOk_nil h1 d (mem_found_all hd) with hd | ⟨l, hl, m, ok, hmo, r, hrm, ⟨m', hm', hr'⟩, hd⟩
  · simp [ES.all] at hd
  have ok' := hdb l hl m' hm'
  have okS := hdb l hl l.start List.mem_cons_self
  have ehist : histOf (m.data db) r.id = histOf (m'.data db) r.id :=
    histOf_congr ((findRecord_of_mem ok.nodup hrm).trans (findRecord_of_mem ok'.nodup hr').symm)
  obtain ⟨pre, b, rest, e, rfl⟩ := longSyncs_split bs [] l hl
  rw [BusySync.during_eq] at hm'
  obtain ⟨p, q', e', rfl⟩ := statesOf_split _ _ m' hm'
  rw [map_flatten_single] at e'
  rw [List.nil_append, e', List.append_assoc] at e
  rw [e] at ho hopt ⊢
  generalize hq0 : q' ++ rest = q at ho hopt e
  generalize hfirst : pre ++ b.before = first at *
  have hstart : (b.long U db pre).start = afterCalls U db first := by rw [← hfirst]; rfl
  rw [hstart] at hmo okS
  have hopt1 : ∀ o ∈ (first ++ p).filterMap ApiCall.options?, OptionsOk o := fun o hm => hopt o (by
    rw [List.filterMap_append]; exact List.mem_append_left _ hm)
  have hopt0 : ∀ o ∈ first.filterMap ApiCall.options?, OptionsOk o := fun o hm => hopt1 o (by
    rw [List.filterMap_append]; exact List.mem_append_left _ hm)
  have hq : ∀ c ∈ first ++ p, Fits (fun _ => plainClass.named) U c.stream := fun c _ =>
    (fits_plain U c.stream).named (fun r => fieldNames_of_clean (C16_names_clean U hU r))
  have hl := (life hq ho.left (db := db)).toLifeInv
  have hist := hl.hist r.id
  rw [← ehist] at hist
  have hne : histOf (m.data db) r.id ≠ [] := by
    intro h0
    rw [dbDocs, recDocs_nil h0] at hd; cases hd
  have hp := ok.partitions (realParser E) hne
  obtain ⟨f1, f2, f3⟩ := hp.fields d hd
  have key : ∀ v, (v = d.gte ∨ d.lt = some v) → Returned U db (first ++ p) v := by
    intro v hv
    rcases hp.ends d hd v hv with h | h
    · rw [hist.versions] at h
      exact ingested_returned h
    · have h := (List.filter_sublist.map _).subset h
      rw [hmo, C79_indexed U db _ ho.left.left.clock hopt0] at h
      exact returned_more ((C79_versions U db _ ho.left.left.clock hopt0).2 v h)
  obtain ⟨a0, ha0, hne0⟩ := (hp.covered d.gte).1 ⟨d, hd, Int.le_refl _, fun e he => hp.range d hd e he⟩
  obtain ⟨o0, ho0⟩ := exists_optionsAsOf (effectiveOptions_ne_nil _ ok.options.nonempty) d.gte
  obtain ⟨b, hb, hba⟩ := hist.symm.asOf ha0
  obtain ⟨u, hu, _⟩ := id ha0
  obtain ⟨pd, hpp, _, hpr⟩ := rebuild_realParser hE hS (hist.left_mem hu).1 (hist.left_mem hu).2 o0
  have hafter : AllAfter d.gte q := by
    obtain ⟨w, hw⟩ := okS.isVersion
    obtain ⟨t, ht, _, hk⟩ := statesOf_upTo (K := fun _ => plainClass.named) (U := U) (db := db) [p] first (by simpa using hq)
      (by simpa using ho.left) ⟨w, hw⟩
    have hk1 := (hk (afterCalls U db (first ++ p)) (by simp [statesOf])).1
    have hk2 := (hk (afterCalls U db first) (by simp [statesOf])).2
    have hle : d.gte ≤ t := by
      rcases hp.ends d hd _ (.inl rfl) with h | h
      · rw [ehist] at h hne
        exact hk1 r.id d.gte (.inl h) hne
      · have h := (List.filter_sublist.map _).subset h
        rw [hmo] at h
        exact hk2 _ h
    intro x hx
    have hc := ho.clock
    rw [List.filterMap_append] at hc
    have := (List.pairwise_append.1 hc).2.2 t (List.mem_of_getLast? (by simpa using ht)) x hx
    omega
  refine ⟨⟨b, pd, ?_, fun h0 => hne0 (hba.nil_iff.1 h0), ?_, ?_⟩, ?_, fun n hn => ?_⟩
  · rw [f1, f2]
    exact (asOf_stable (U := U) (db := db) hafter r.id b).1 hb
  · rw [hp.start d hd a0 o0 ha0 ho0, hpp]
  · exact (VRsim_trans hpr.sim (remainsDict_congr knowsEmpty_sim rfl hba.symm.vr)).2.2
  · rw [f2]
    exact returned_more (key _ (.inl rfl))
  · rw [f3] at hn
    exact ⟨returned_more (key _ (.inr hn)), by rw [f2]; exact hp.range d hd n hn⟩

set_option maxRecDepth 100000 in
/-- The conditions hold for the syncs of `C74_refuted`, where `a` and `b` are committed while the second sync runs and `a` is missed (the other
conditions are shown at `C74_data`): the versions are 1, 2 and 3, and the documents say what the records were at them. -/
example : ((exLostSyncs ++ [exLostLast]).flatMap BusySync.calls).filterMap ApiCall.options? = [] ∧
    (match runLongSyncs (realParser exEnv') 10 ['x'] [] (longSyncs asciiU ['x'] [] (exLostSyncs ++ [exLostLast])) with
      | .ok es => decide (es.versions = some [1, 2, 3] ∧ es.roundedVersion 7 = some (some 3) ∧
          (found es .all).map (fun d : Doc (Option ParsedData) => (d.id, d.version, d.next, d.parsed.map (fun p => aget ['x'] (rebuildData p.parsed)))) =
          [(['c'], 2, none, some (some (.int 2))), (['b'], 3, none, some (some (.int 1))), (['c'], 1, some 2, some (some (.int 1)))])
      | .error _ => false) = true := by
  refine ⟨by decide, by decide +kernel⟩

end Splitgill.Props
