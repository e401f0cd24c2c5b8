import Verif.Props.VersionsEach
import Verif.Props.StableAll
import Verif.Proof.Reads
import Verif.Proof.SyncRace3
/-!
# C132: each document that a search finds is right about the version it carries
-/

namespace Splitgill

/-- What a document of a search says is so: at the version it carries, which a call returned, the record had this data, as far as it can be rebuilt
from the document (C47); and if it is said to have been replaced, a call returned the version at which it was, which is later. Data is
compared with `==`, and NaN is taken to be equal to NaN. -/
structure Truthful (U : Unicode) (db : PyStr) (calls : List ApiCall) (d : Doc (Option ParsedData)) : Prop where
  data : ∃ a p, AsOf (ingested U db calls d.id).committed d.version a ∧ a ≠ [] ∧ d.parsed = some p ∧
    simEq (.dict (rebuildData p.parsed)) (.dict (remainsDict a)) = true
  returned : Returned U db calls d.version
  next : ∀ n, d.next = some n → Returned U db calls n ∧ d.version < n

end Splitgill

namespace Splitgill.Props
open Splitgill

section
variable {P : Type} {X : Parser P} {db : PyStr}

/-- The documents after a sync were there before or are documents of records of the database. -/
theorem sync_docs {m : Mongo} (hm : DbOk db m) (maxDocs : Nat) {es es' : ES P} (hok : LatestOk es)
    (h : sync X maxDocs db false m es = .ok es') : LatestOk es' ∧ ∀ d ∈ es'.all, d ∈ es.all ∨ ∃ r ∈ m.data db, d ∈ dbDocs X db m r := by
  obtain ⟨es1, sel, h1, h2, h3, h4, h5, _⟩ := sync_effect hm X maxDocs hok
  rw [h] at h1; cases h1
  refine ⟨h2, fun d hd => ?_⟩
  rcases (mem_all h2).1 hd with ⟨id, hd⟩ | hd
  · by_cases hid : id ∈ ((m.data db).filter sel).map MongoRecord.id
    · obtain ⟨r, hr, rfl⟩ := List.mem_map.1 hid
      obtain ⟨hr, hsel⟩ := List.mem_filter.1 hr
      rw [h4 r hr hsel] at hd
      cases ha : latestAct es.version (dbDocs X db m r) with
      | put x =>
        rw [ha] at hd
        cases hd
        exact .inr ⟨r, hr, (latestAct_put ha).1⟩
      | remove => rw [ha] at hd; cases hd
      | leave => rw [ha] at hd; exact .inl ((mem_all hok).2 (.inl ⟨_, hd⟩))
    · rw [h5 id hid] at hd
      exact .inl ((mem_all hok).2 (.inl ⟨_, hd⟩))
  · rcases List.mem_append.1 (h3.mem_iff.1 hd) with hd | hd
    · exact .inl ((mem_all hok).2 (.inr hd))
    · obtain ⟨r, hr, hd⟩ := List.mem_flatMap.1 hd
      exact .inr ⟨r, (List.mem_filter.1 hr).1, (toArchive_mem (hm.good X r.id) hd).1⟩

theorem runSyncs_docs (maxDocs : Nat) : ∀ (ms : List Mongo) (es es' : ES P), (∀ m ∈ ms, DbOk db m) → LatestOk es →
    runSyncs X maxDocs db es ms = .ok es' → ∀ d ∈ es'.all, d ∈ es.all ∨ ∃ m ∈ ms, ∃ r ∈ m.data db, d ∈ dbDocs X db m r
  | [], es, es', _, _, h, d, hd => by cases h; exact .inl hd
  | m :: ms, es, es', hms, hok, h, d, hd => by
    obtain ⟨es1, _, h1, _⟩ := sync_effect (hms m (by simp)) X maxDocs hok
    simp only [runSyncs, h1] at h
    obtain ⟨g1, g2⟩ := sync_docs (hms m (by simp)) maxDocs hok h1
    rcases runSyncs_docs maxDocs ms es1 es' (fun m' h' => hms m' (by simp [h'])) g1 h d hd with h' | ⟨m', h', k⟩
    · rcases g2 d h' with h' | k
      · exact .inl h'
      · exact .inr ⟨m, by simp, k⟩
    · exact .inr ⟨m', by simp [h'], k⟩

theorem statesOf_split {U : Unicode} : ∀ (parts : List (List ApiCall)) (first : List ApiCall), ∀ m ∈ statesOf U db first parts,
    ∃ p q, first ++ parts.flatten = (first ++ p) ++ q ∧ m = afterCalls U db (first ++ p)
  | [], first, m, hm => ⟨[], [], by simp, by rw [statesOf, List.mem_singleton] at hm; simp [hm]⟩
  | part :: parts, first, m, hm => by
    rw [statesOf, List.mem_cons] at hm
    rcases hm with rfl | hm
    · exact ⟨[], part ++ parts.flatten, by simp, by simp⟩
    · obtain ⟨p, q, h1, h2⟩ := statesOf_split parts (first ++ part) m hm
      exact ⟨part ++ p, q, by rw [List.flatten_cons, ← List.append_assoc, h1]; simp, by rw [h2, List.append_assoc]⟩

end

theorem returned_more {U : Unicode} {db : PyStr} {calls more : List ApiCall} {v : Int} (h : Returned U db calls v) :
    Returned U db (calls ++ more) v := by
  obtain ⟨b, c, a, rfl, h⟩ := h
  exact ⟨b, c, a ++ more, by simp, h⟩

/-- **C132** after any calls and syncs between them, whatever the records: each document that any search finds is right about the version
it carries. -/
theorem C132_truthful (E : ParseEnv) (hE : E.IgnoresOrder) (hS : E.ScalarHints) (U : Unicode) (hU : U.Sane) (maxDocs : Nat) (db : PyStr)
    (first : List ApiCall) (parts : List (List ApiCall)) (ho : Orderly (first ++ parts.flatten))
    (hopt : ∀ o ∈ (first ++ parts.flatten).filterMap ApiCall.options?, OptionsOk o)
    (hv : ∃ v, IsVersion (afterCalls U db first) db v) :
    ∃ es, runSyncs (realParser E) maxDocs db [] (statesOf U db first parts) = .ok es ∧
      ∀ (at_ : SearchAt), ∀ d ∈ found es at_, Truthful U db (first ++ parts.flatten) d := by
  have hms := life_dbOks parts first ho hv
  obtain ⟨es, h1, _⟩ := runSyncs_ok (realParser E) maxDocs _ [] hms latestOk_nil
  refine ⟨es, h1, fun at_ d hd => ?_⟩
  rcases runSyncs_docs maxDocs _ [] es hms latestOk_nil h1 d (mem_found_all hd) with hd | ⟨m, hm, r, hr, hd⟩
  · simp [ES.all] at hd
  have ok := hms m hm
  obtain ⟨p, q, e, rfl⟩ := statesOf_split parts first m hm
  rw [e] at ho hopt ⊢
  have hopt1 : ∀ o ∈ (first ++ p).filterMap ApiCall.options?, OptionsOk o := fun o hm => hopt o (by
    rw [List.filterMap_append]; exact List.mem_append_left _ hm)
  have hq : ∀ c ∈ first ++ p, Fits (fun _ => plainClass.named) U c.stream := fun c _ =>
    (fits_plain U c.stream).named (fun r => fieldNames_of_clean (C16_names_clean U hU r))
  have hl := (life hq ho.left (db := db)).toLifeInv
  have hist := hl.hist r.id
  have hne : histOf ((afterCalls U db (first ++ p)).data db) r.id ≠ [] := by
    intro h0
    rw [dbDocs, recDocs_nil h0] at hd; cases hd
  have hp := ok.partitions (realParser E) hne
  obtain ⟨f1, f2, f3⟩ := hp.fields d hd
  have key : ∀ v, (v = d.gte ∨ d.lt = some v) → Returned U db (first ++ p) v := by
    intro v hv
    rcases hp.ends d hd v hv with h | h
    · rw [hist.versions] at h
      exact ingested_returned h
    · have h := (List.filter_sublist.map _).subset h
      rw [C79_indexed U db _ ho.left.clock hopt1] at h
      exact (C79_versions U db _ ho.left.clock hopt1).2 v h
  obtain ⟨a0, ha0, hne0⟩ := (hp.covered d.gte).1 ⟨d, hd, Int.le_refl _, fun e he => hp.range d hd e he⟩
  obtain ⟨o0, ho0⟩ := exists_optionsAsOf (effectiveOptions_ne_nil _ ok.options.nonempty) d.gte
  obtain ⟨b, hb, hba⟩ := hist.symm.asOf ha0
  obtain ⟨u, hu, _⟩ := id ha0
  obtain ⟨pd, hpp, _, hpr⟩ := rebuild_realParser hE hS (hist.left_mem hu).1 (hist.left_mem hu).2 o0
  have hafter : AllAfter d.gte q := by
    obtain ⟨w, hw⟩ := ok.isVersion
    obtain ⟨t, ht, _, hk⟩ := statesOf_upTo (K := fun _ => plainClass.named) (U := U) (db := db) [] (first ++ p) (by simpa using hq)
      (by simpa using ho.left) ⟨w, hw⟩
    have hk := (hk (afterCalls U db (first ++ p)) (by simp [statesOf])).1
    have hle : d.gte ≤ t := by
      refine hk r.id d.gte ?_ hne
      rcases hp.ends d hd _ (.inl rfl) with h | h
      · exact .inl h
      · exact .inr ((List.filter_sublist.map _).subset h)
    intro x hx
    have hc := ho.clock
    rw [List.filterMap_append] at hc
    have := (List.pairwise_append.1 hc).2.2 t (List.mem_of_getLast? (by simpa using ht)) x hx
    omega
  refine ⟨⟨b, pd, ?_, fun h0 => hne0 (hba.nil_iff.1 h0), ?_, ?_⟩, ?_, fun n hn => ?_⟩
  · rw [f1, f2]
    exact (asOf_stable (U := U) (db := db) hafter r.id b).1 hb
  · rw [hp.start d hd a0 o0 ha0 ho0, hpp]
  · exact (VRsim_trans hpr.sim (remainsDict_congr knowsEmpty_sim rfl hba.symm.vr)).2.2
  · rw [f2]
    exact returned_more (key _ (.inl rfl))
  · rw [f3] at hn
    exact ⟨returned_more (key _ (.inr hn)), by rw [f2]; exact hp.range d hd n hn⟩

set_option maxRecDepth 100000 in
/-- The conditions hold for a record that is changed and then deleted between two syncs: a document of version 1 stays (C31), which is right about
version 1 but has no end; the other two have the versions that the calls returned, and the data of these. -/
example : Orderly (exUpdateDelete ++ [[.ingest none [exRec ['a'] 2] true 2, .ingest none [exDel ['a']] true 3]].flatten) ∧
    (exUpdateDelete ++ [[ApiCall.ingest none [exRec ['a'] 2] true 2, .ingest none [exDel ['a']] true 3]].flatten).filterMap ApiCall.options? = [] ∧
    (∃ v, IsVersion (afterCalls asciiU ['x'] exUpdateDelete) ['x'] v) ∧
    (match runSyncs (realParser exEnv') 10 ['x'] []
        (statesOf asciiU ['x'] exUpdateDelete [[.ingest none [exRec ['a'] 2] true 2, .ingest none [exDel ['a']] true 3]]) with
      | .ok es => decide ((found es .all).map (fun d : Doc (Option ParsedData) => (d.version, d.next, d.parsed.map (fun p => aget ['x'] (rebuildData p.parsed)))) =
          [(1, none, some (some (.int 1))), (1, some 2, some (some (.int 1))), (2, some 3, some (some (.int 2)))])
      | .error _ => false) = true := by
  refine ⟨⟨by decide +kernel, ?_⟩, by decide, ?_, by decide +kernel⟩
  · intro c hc
    simp only [exUpdateDelete, List.flatten_cons, List.flatten_nil, List.append_nil, List.cons_append, List.nil_append,
      List.mem_cons, List.not_mem_nil, or_false] at hc
    rcases hc with rfl | rfl | rfl <;> unfold NoSpan <;> decide
  · exact ⟨1, .inl ⟨((afterCalls asciiU ['x'] exUpdateDelete).data ['x']).head (by decide +kernel), by decide +kernel, by decide +kernel⟩⟩

end Splitgill.Props
