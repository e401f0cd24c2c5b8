import Verif.Proof.Levels4
import Verif.Props.Crash
/-!
# C118: how deep data can be nested
-/

namespace Splitgill.Props
open Splitgill

/-! ## C118 -/

/-- MongoDB stores a new record if its document, which is one level more than its data, is within the limit. **C118 in full**: if all data that
is given is within that, no call is refused. -/
def C118_full (limit : Nat) : Prop :=
  ∀ (U : Unicode) (db : PyStr) (calls : List (ApiCall × Nat)) (c : ApiCall) (sent : Nat), Orderly (calls.map Prod.fst ++ [c]) →
    (∀ x ∈ calls.map Prod.fst ++ [c], ∀ r ∈ x.stream, NestedWithin (limit - 1) (prepareRecordData U r)) →
    (c.runLevels U db limit sent (afterLevels U db limit Mongo.empty calls)).1 ≠ .error .refused

/-- **C118**: a new record is refused if and only if its data has more than `limit - 1` levels. -/
theorem C118_new (U : Unicode) (db : PyStr) (limit sent : Nat) (m : Mongo) (mf : Option PyStr) (doCommit : Bool) (clock : Int) (r : Record)
    (hl : 1 ≤ limit) (hnew : ∀ d ∈ m.data db, d.id ≠ r.id) :
    ((ApiCall.ingest mf [r] doCommit clock).runLevels U db limit sent m).1 = .error .refused ↔
      r.data ≠ [] ∧ ¬ NestedWithin (limit - 1) (prepareRecordData U r) := by
  have hnone : lookupExisting (m.data db) r.id = none := by
    cases h : lookupExisting (m.data db) r.id with
    | none => rfl
    | some d => exact absurd (lookupExisting_id h) (hnew d (lookupExisting_sub h))
  by_cases hd : r.data = []
  · have h0 : opFor U mf none r = .ok none := by
      simp only [opFor, Record.isDelete, hd, List.isEmpty_nil, if_true]
    have hch : chunkOps U mf (m.data db) [r] = .ok [] := by
      show collectOps _ [r] = _
      simp only [collectOps, hnone, h0, bind, Except.bind, Option.toList, List.append_nil]
    have hs : ingestSized U mf 200 (m.data db) [r] = .ok { coll := m.data db } := by
      have h2 : partition [r] 200 = [[r]] := rfl
      rw [ingestSized, h2, ingestLoop]
      simp only [hch]
      rfl
    refine ⟨fun h => ?_, fun h => absurd hd h.1⟩
    simp only [ApiCall.runLevels, hs, writeLevels] at h
    split at h
    · split at h <;> cases h
    · cases h
  · have h1 : opFor U mf (lookupExisting (m.data db) r.id) r = .ok (some (.insert r.id (prepareRecordData U r))) := by
      rw [hnone]
      have hdel : r.isDelete = false := by rw [Record.isDelete, Bool.eq_false_iff, ne_eq, List.isEmpty_iff]; exact hd
      simp only [opFor, hdel, Bool.false_eq_true, if_false]
    rw [refused_one h1, Bool.eq_false_iff, ne_eq, levelsOk_insert hnew, nestedWithin_iff (prepareRecordData_wf U r)]
    constructor
    · exact fun h => ⟨hd, fun g => h (by omega)⟩
    · exact fun h g => h.2 (by omega)

/-- **C118**: a committed record can be deleted if and only if its data has no more than `limit - 5` levels: the diff holds it at
`document → diffs → version → operation → ops → dn`. -/
theorem C118_delete (U : Unicode) (db : PyStr) (limit sent : Nat) (m : Mongo) (mf : Option PyStr) (doCommit : Bool) (clock : Int)
    (hn : ((m.data db).map MongoRecord.id).Nodup) (d : MongoRecord) (hd : d ∈ m.data db) (hl : bsonLevels d.toBson ≤ limit)
    (hw : (Value.dict d.data).wf = true) (hv : d.version ≠ none) (hne : d.data ≠ []) :
    ((ApiCall.ingest mf [⟨d.id, []⟩] doCommit clock).runLevels U db limit sent m).1 = .error .refused ↔ ¬ NestedWithin (limit - 5) d.data := by
  obtain ⟨v, hv⟩ := Option.ne_none_iff_exists'.1 hv
  have h1 : opFor U mf (lookupExisting (m.data db) d.id) ⟨d.id, []⟩ = .ok (some (.setDiff d.id [] v [⟨[], { dn := some d.data }⟩])) := by
    rw [lookupExisting_eq hn, findRecord_of_mem hn hd]
    exact opFor_delete hv hne d.id
  rw [refused_one (r := ⟨d.id, []⟩) h1, Bool.eq_false_iff, ne_eq, levelsOk_delete hn hd hl, nestedWithin_iff hw]
  have := levels_dict_pos d.data
  omega

/-- **C118**: all that is stored is within the limit. -/
theorem C118_stored (U : Unicode) (db : PyStr) (limit : Nat) (calls : List (ApiCall × Nat)) :
    ∀ r ∈ (afterLevels U db limit Mongo.empty calls).data db, bsonLevels r.toBson ≤ limit := by
  suffices h : ∀ (calls : List (ApiCall × Nat)) (m : Mongo), LevelsWithin limit (m.data db) → LevelsWithin limit ((afterLevels U db limit m calls).data db) from
    h calls Mongo.empty (fun _ hm => nomatch hm)
  intro calls
  induction calls with
  | nil => exact fun _ h => h
  | cons c calls ih =>
    intro m h
    rw [afterLevels, List.foldl_cons]
    exact ih _ (h.run c.1)

/-! ### What a refused call leaves -/

theorem levels_steps (U : Unicode) (db : PyStr) (limit : Nat) : ∀ (calls : List (ApiCall × Nat)) (m : Mongo),
    ∃ steps, List.Forall₂ DoneOrStopped (calls.map Prod.fst) steps ∧ afterLevels U db limit m calls = runSteps U db m steps
  | [], _ => ⟨[], .nil, rfl⟩
  | c :: calls, m => by
    obtain ⟨st, h2, h3, _⟩ := runLevels_spec U db limit c.2 m c.1
    obtain ⟨steps, h4, h5⟩ := levels_steps U db limit calls (c.1.runLevels U db limit c.2 m).2
    refine ⟨st :: steps, .cons h2 h4, ?_⟩
    rw [afterLevels, List.foldl_cons]
    rw [afterLevels] at h5
    rw [h5, h3]
    rfl

theorem doneOrStopped_orderly : ∀ {calls : List ApiCall} {steps : List Step}, List.Forall₂ DoneOrStopped calls steps → OrderlySteps (calls.map .call) →
    OrderlySteps steps := by
  intro calls steps h ho
  refine ⟨ho.clock.sublist ?_, ?_⟩
  · clear ho
    induction h with
    | nil => exact .slnil
    | cons h _ ih =>
      rename_i c st cs ss _
      rw [List.map_cons, List.filterMap_cons, List.filterMap_cons]
      rcases h with rfl | ⟨mf, rs, dc, cl, n, rfl, rfl⟩ | ⟨rfl, n, rfl⟩
      · cases (Step.call c).clock? with
        | none => exact ih
        | some t => exact ih.cons_cons _
      · simp only [Step.clock?]
        cases (ApiCall.ingest mf rs dc cl).clock? with
        | none => exact ih
        | some t => exact ih.cons _
      · exact ih
  · have hs := ho.noSpan
    clear ho
    induction h with
    | nil => exact fun _ h => nomatch h
    | cons h _ ih =>
      intro st hst
      rcases List.mem_cons.1 hst with rfl | hst
      · rcases h with rfl | ⟨mf, rs, dc, cl, n, rfl, rfl⟩ | ⟨rfl, n, rfl⟩
        · exact hs _ List.mem_cons_self
        · exact hs (.call (.ingest mf rs dc cl)) List.mem_cons_self
        · exact hs (.call .rollbackRecords) List.mem_cons_self
      · exact ih (fun c hc => hs c (List.mem_cons_of_mem _ hc)) st hst

/-- **C118**: a call that is refused is one that was stopped at some write: calls on a new database leave MongoDB as if each had returned, or,
some ingests and rollbacks, had been stopped. So the histories of records are as in C75, and a later sync as in C76. -/
theorem C118_steps (U : Unicode) (db : PyStr) (limit : Nat) (calls : List (ApiCall × Nat)) (ho : OrderlySteps (calls.map (fun c => .call c.1))) :
    ∃ steps, List.Forall₂ DoneOrStopped (calls.map Prod.fst) steps ∧ OrderlySteps steps ∧
      afterLevels U db limit Mongo.empty calls = afterSteps U db steps := by
  obtain ⟨steps, h1, h2⟩ := levels_steps U db limit calls Mongo.empty
  refine ⟨steps, h1, doneOrStopped_orderly h1 ?_, h2⟩
  rw [List.map_map]
  exact ho

theorem doneOrStopped_stream {c : ApiCall} {st : Step} (h : DoneOrStopped c st) : ∀ r ∈ st.stream, r ∈ c.stream := by
  rcases h with rfl | ⟨mf, rs, dc, cl, n, rfl, rfl⟩ | ⟨rfl, n, rfl⟩
  · exact fun _ h => h
  · exact fun _ h => h
  · exact fun _ h => nomatch h

theorem steps_fit {U : Unicode} {n : Nat} : ∀ {calls : List ApiCall} {steps : List Step}, List.Forall₂ DoneOrStopped calls steps →
    (∀ x ∈ calls, ∀ r ∈ x.stream, NestedWithin n (prepareRecordData U r)) → ∀ st ∈ steps, Fits (fun _ => nestedClass n) U st.stream
  | [], _, .nil, _ => fun _ h => nomatch h
  | c :: calls, st :: steps, .cons h1 h2, hd => fun x hx => by
    rcases List.mem_cons.1 hx with rfl | hx
    · exact fun r hr => ⟨prepareRecordData_wf U r, hd c List.mem_cons_self r (doneOrStopped_stream h1 r hr)⟩
    · exact steps_fit h2 (fun y hy => hd y (List.mem_cons_of_mem _ hy)) x hx

/-- **C118**: what is uncommitted can always be rolled back, also after calls that were refused, if all data that is given is such that MongoDB
stores it as a new record. -/
theorem C118_rollback (U : Unicode) (db : PyStr) (limit : Nat) (calls : List (ApiCall × Nat)) (sent : Nat)
    (ho : OrderlySteps (calls.map (fun c => .call c.1)))
    (hd : ∀ x ∈ calls.map Prod.fst, ∀ r ∈ x.stream, NestedWithin (limit - 1) (prepareRecordData U r)) (hl : 1 ≤ limit) :
    (ApiCall.rollbackRecords.runLevels U db limit sent (afterLevels U db limit Mongo.empty calls)).1 ≠ .error .refused := by
  obtain ⟨n, rfl⟩ : ∃ n, limit = n + 1 := ⟨limit - 1, by omega⟩
  have hst : LevelsWithin (n + 1) _ := C118_stored U db (n + 1) calls
  obtain ⟨steps, h1, h2, h3⟩ := C118_steps U db (n + 1) calls ho
  obtain ⟨s, _, hi⟩ := crash_life (K := fun _ => nestedClass n) (steps_fit h1 hd) h2
  rw [h3] at hst ⊢
  have hR := hi.rep.each
  simp only [ApiCall.runLevels]
  split
  · split
    · exact fun h => nomatch h
    · rename_i ops hops
      have hw := writeLevels_undoes (sent := sent) (lists := partition ops 200) hst (by
        rw [partition_flatten (by decide)]; exact rollbackOps_undoes hR hops)
      split
      · rename_i e
        rw [e] at hw
        cases hw
      · exact fun h => nomatch h
  · exact fun h => nomatch h

/-! ### Data that is never refused -/

/-- **C118 (partial).** If all data that is given has no more than `limit - 5` levels (95 for MongoDB), no call is refused: all is as without
the limit. Missing: data with up to `limit - 1` levels, which can be stored but not changed or deleted, see `C118_refuted`. -/
theorem C118_partial (U : Unicode) (db : PyStr) (n limit : Nat) (hl : n + 5 ≤ limit) (calls : List (ApiCall × Nat)) (c : ApiCall) (sent : Nat)
    (ho : Orderly (calls.map Prod.fst ++ [c])) (hd : ∀ x ∈ calls.map Prod.fst ++ [c], ∀ r ∈ x.stream, NestedWithin n (prepareRecordData U r)) :
    let m := afterCalls U db (calls.map Prod.fst)
    afterLevels U db limit Mongo.empty calls = m ∧ (c.runLevels U db limit sent m).1 ≠ .error .refused ∧
      (c.runLevels U db limit sent m).2 = (c.run U db m).2 ∧ ∀ ret, (c.runLevels U db limit sent m).1 = .ok ret ↔ (c.run U db m).1 = .ok ret := by
  have one : ∀ (cs : List ApiCall) (c : ApiCall) (sent : Nat), Orderly (cs ++ [c]) →
      (∀ x ∈ cs ++ [c], ∀ r ∈ x.stream, NestedWithin n (prepareRecordData U r)) →
      (c.runLevels U db limit sent (afterCalls U db cs)).1 ≠ .error .refused ∧
      (c.runLevels U db limit sent (afterCalls U db cs)).2 = (c.run U db (afterCalls U db cs)).2 ∧
      ∀ ret, (c.runLevels U db limit sent (afterCalls U db cs)).1 = .ok ret ↔ (c.run U db (afterCalls U db cs)).1 = .ok ret := by
    intro cs c sent ho hd
    have hq : ∀ x ∈ cs ++ [c], Fits (fun _ => nestedClass n) U x.stream := fun x hx r hr => ⟨prepareRecordData_wf U r, hd x hx r hr⟩
    have hc : c ∈ cs ++ [c] := List.mem_append_right _ (List.mem_singleton.2 rfl)
    obtain ⟨h1, h2⟩ := calls_nested (db := db) (fun x hx => hq x (List.mem_append_left _ hx)) ho.left
    have h3 := (call_nested hl sent h1 h2 (hq c hc) (ho.noSpan c hc)).1
    obtain ⟨st, _, h4, h5⟩ := runLevels_spec U db limit sent (afterCalls U db cs) c
    obtain ⟨rfl, h6⟩ := h5 h3
    exact ⟨h3, h4, h6⟩
  refine ⟨?_, one _ c sent ho hd⟩
  replace ho := ho.left
  replace hd : ∀ x ∈ calls.map Prod.fst, ∀ r ∈ x.stream, NestedWithin n (prepareRecordData U r) := fun x hx => hd x (List.mem_append_left _ hx)
  clear c sent
  induction calls using List.reverseRecOn with
  | nil => rfl
  | append_singleton calls c ih =>
    rw [List.map_append] at ho hd ⊢
    have e : afterLevels U db limit Mongo.empty (calls ++ [c]) = (c.1.runLevels U db limit c.2 (afterLevels U db limit Mongo.empty calls)).2 := by
      rw [afterLevels, List.foldl_append]
      rfl
    rw [e, ih ho.left (fun x hx => hd x (List.mem_append_left _ hx)), afterCalls_append]
    exact (one _ c.1 c.2 ho hd).2.1

/-! ### Data that can be stored and not deleted -/

/-- `k` lists, one in another. -/
def deepRaw : Nat → Raw
  | 0 => .bool true
  | k + 1 => .list [deepRaw k]

/-- A record with them. -/
def exNested (k : Nat) : Record := ⟨['r'], [(.str ['a'], deepRaw k)]⟩

theorem deepRaw_levels (U : Unicode) : ∀ k, bsonLevels (prepareData U (deepRaw k)) = k
  | 0 => rfl
  | k + 1 => by
    rw [deepRaw, prepareData, prepareList, prepareList, bsonLevels, bsonLevelsList, bsonLevelsList, deepRaw_levels U k, Nat.max_zero]

theorem exNested_prepared (k : Nat) : prepareRecordData asciiU (exNested k) = [(['a'], prepareData asciiU (deepRaw k)), (dataIdField, .str ['r'])] := by
  have h1 : prepareFieldName asciiU (.str ['a']) = ['a'] := by decide
  have h2 : prepareData asciiU (.str ['r']) = .str ['r'] := by decide
  show aset dataIdField (prepareData asciiU (.str ['r'])) (aofList [(prepareFieldName asciiU (.str ['a']), prepareData asciiU (deepRaw k))]) = _
  rw [h1, h2]
  rfl

theorem exNested_levels (k : Nat) : bsonLevels (.dict (prepareRecordData asciiU (exNested k))) = k + 1 := by
  have h : bsonLevels (.str ['r']) = 0 := rfl
  rw [exNested_prepared, bsonLevels, bsonLevelsDict, bsonLevelsDict, bsonLevelsDict, deepRaw_levels, h, Nat.max_zero, Nat.max_zero]

/-- **C118 does not hold in full**, for any limit: a record with `limit - 1` levels is ingested and cannot be deleted. -/
theorem C118_refuted (limit : Nat) (hl : 2 ≤ limit) : ¬ C118_full limit := by
  obtain ⟨k, rfl⟩ : ∃ k, limit = k + 2 := ⟨limit - 2, by omega⟩
  intro h
  have hw := prepareRecordData_wf asciiU (exNested k)
  have hlev := exNested_levels k
  let c1 : ApiCall := .ingest none [exNested k] true 1
  let m := (c1.runLevels asciiU ['x'] (k + 2) 0 Mongo.empty).2
  have hdata : m.data ['x'] = [{ id := ['r'], version := some 1, data := prepareRecordData asciiU (exNested k) }] := by
    have h1 : opFor asciiU none (lookupExisting (Mongo.empty.data ['x']) ['r']) (exNested k) =
        .ok (some (.insert ['r'] (prepareRecordData asciiU (exNested k)))) := rfl
    obtain ⟨st, h2, h3⟩ := ingestSized_single (r := exNested k) h1
    have h4 : levelsOk (k + 2) (Mongo.empty.data ['x']) (.insert ['r'] (prepareRecordData asciiU (exNested k))) = true := by
      rw [levelsOk_insert (fun d hd => by cases hd), hlev]
    have h5 : writeLevels (k + 2) 0 (Mongo.empty.data ['x']) st.written =
        ([{ id := ['r'], version := none, data := prepareRecordData asciiU (exNested k) }], true) := by
      rw [h3]
      simp only [writeLevels, acceptedOps, h4, if_true, List.length_nil, List.length_cons]
      rfl
    show (c1.runLevels asciiU ['x'] (k + 2) 0 Mongo.empty).2.data ['x'] = _
    simp only [c1, ApiCall.runLevels, h2, h5, if_true]
    rfl
  have hok : NestedWithin (k + 2 - 1) (prepareRecordData asciiU (exNested k)) := (nestedWithin_iff hw).2 (by omega)
  refine h asciiU ['x'] [(c1, 0)] (.ingest none [⟨['r'], []⟩] true 2) 0 ⟨by simp [c1, ApiCall.clock?], ?_⟩ ?_ ?_
  · intro c hc
    simp only [List.map_cons, List.map_nil, List.cons_append, List.nil_append, List.mem_cons, List.not_mem_nil, or_false] at hc
    rcases hc with rfl | rfl <;> exact List.pairwise_singleton _ _
  · intro c hc r hr
    simp only [List.map_cons, List.map_nil, List.cons_append, List.nil_append, List.mem_cons, List.not_mem_nil, or_false] at hc
    rcases hc with rfl | rfl <;> (have hr := List.mem_singleton.1 hr; subst hr)
    · exact hok
    · exact (nestedWithin_iff (prepareRecordData_wf asciiU _)).2 (by show 1 ≤ _; omega)
  · have h0 := C118_delete asciiU ['x'] (k + 2) 0 m none true 2 (by rw [hdata]; exact List.nodup_singleton _)
      { id := ['r'], version := some 1, data := prepareRecordData asciiU (exNested k) } (by rw [hdata]; exact List.mem_singleton.2 rfl)
      (by rw [levels_version { id := ['r'], version := none, data := prepareRecordData asciiU (exNested k) }, insert_levels, hlev]) hw (by simp) (by
        rw [exNested_prepared]; exact List.cons_ne_nil _ _)
    refine h0.2 ?_
    rw [nestedWithin_iff hw]
    omega

/-! ### Cases -/

/-- Calls with data of three levels, some of it changed and deleted. -/
def exShallow : List (ApiCall × Nat) :=
  [(.ingest none [exNested 2, ⟨['s'], [(.str ['b'], .dict [(.str ['c'], .list [.int 1])])]⟩] true 1, 0),
   (.ingest none [⟨['s'], [(.str ['b'], .dict [(.str ['c'], .list [.int 2])])]⟩, ⟨['r'], []⟩] false 2, 0), (.rollbackRecords, 0),
   (.ingest none [⟨['r'], []⟩] true 3, 0)]

set_option maxRecDepth 100000 in
/-- They meet the hypotheses of `C118_partial` (with the last as the call) for three levels, and those of `C118_steps` and `C118_rollback`. -/
example : Orderly (exShallow.map Prod.fst) ∧ (∀ x ∈ exShallow.map Prod.fst, ∀ r ∈ x.stream, NestedWithin 3 (prepareRecordData asciiU r)) ∧
    OrderlySteps (exShallow.map (fun c => .call c.1)) := by
  have key : ∀ x ∈ exShallow.map Prod.fst, ∀ r ∈ x.stream, bsonLevels (.dict (prepareRecordData asciiU r)) ≤ 3 := by decide +kernel
  refine ⟨⟨by decide, fun c hc => ?_⟩, fun x hx r hr => (nestedWithin_iff (prepareRecordData_wf asciiU r)).2 (key x hx r hr), ⟨by decide, fun c hc => ?_⟩⟩ <;>
    (simp only [exShallow, List.map_cons, List.map_nil, List.mem_cons, List.not_mem_nil, or_false] at hc
     rcases hc with rfl | rfl | rfl | rfl <;> unfold NoSpan <;> decide)

/-- Whether a call is refused. -/
def callRefused (x : Except LevelErr (Option Int) × Mongo) : Bool := match x.1 with | .error .refused => true | _ => false

set_option maxRecDepth 100000 in
/-- The last call with limits of 8 and 7 levels. -/
example : callRefused ((ApiCall.ingest none [⟨['r'], []⟩] true 3).runLevels asciiU ['x'] 8 0 (afterLevels asciiU ['x'] 8 Mongo.empty (exShallow.take 3))) = false ∧
    callRefused ((ApiCall.ingest none [⟨['r'], []⟩] true 3).runLevels asciiU ['x'] 7 0 (afterLevels asciiU ['x'] 7 Mongo.empty (exShallow.take 3))) = true := by
  decide +kernel

set_option maxRecDepth 100000 in
/-- The hypotheses of `C118_delete` hold of the record then, and those of `C118_new` in a new database. -/
example : let m := afterLevels asciiU ['x'] 7 Mongo.empty (exShallow.take 3)
    ((m.data ['x']).map MongoRecord.id).Nodup ∧ (∀ d ∈ m.data ['x'], bsonLevels d.toBson ≤ 7 ∧ (Value.dict d.data).wf = true ∧ d.version.isSome = true ∧
      d.data.isEmpty = false) ∧ (m.data ['x']).length = 2 ∧ ∀ d ∈ Mongo.empty.data ['x'], d.id ≠ (exNested 3).id := by
  decide +kernel

set_option maxRecDepth 100000 in
/-- With a limit of eight a record of six levels cannot be deleted. The new record before it in the same call has been written, uncommitted. -/
example : let calls : List (ApiCall × Nat) := [(.ingest none [exNested 5] true 1, 0), (.ingest none [⟨['t'], [(.str ['x'], .int 1)]⟩, ⟨['r'], []⟩] true 2, 1)]
    callRefused (calls[1].1.runLevels asciiU ['x'] 8 1 (afterLevels asciiU ['x'] 8 Mongo.empty (calls.take 1))) = true ∧
    ((afterLevels asciiU ['x'] 8 Mongo.empty calls).data ['x']).map (fun r => (r.id, r.version, r.data.length)) =
      [(['r'], some 1, 2), (['t'], none, 2)] := by
  decide +kernel

end Splitgill.Props
