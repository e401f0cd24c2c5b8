import Verif.Proof.Bson3
import Verif.Props.Json
import Verif.Props.Crash
/-!
# C99: ints that do not fit into 64 bits
-/

namespace Splitgill.Props
open Splitgill

/-! ## C99 -/

/-- **C99**: after any calls, whether they return or raise, all that is stored can be stored: no int is outside 64 bits. -/
theorem C99_stored (U : Unicode) (db : PyStr) (calls : List (ApiCall × Nat)) : ∀ r ∈ (runStored U db Mongo.empty calls).data db, r.Storable := by
  suffices h : ∀ (calls : List (ApiCall × Nat)) (m : Mongo), CollLeaves Int64 (m.data db) → CollLeaves Int64 ((runStored U db m calls).data db) from
    h calls Mongo.empty (fun _ hm => nomatch hm)
  intro calls
  induction calls with
  | nil => exact fun _ h => h
  | cons c calls ih =>
    intro m h
    rw [runStored, List.foldl_cons]
    exact ih _ (store_spec U db c.2 h c.1).1

/-- The calls as steps, each of them done or, if it is an ingest, stopped. -/
theorem stored_steps (U : Unicode) (db : PyStr) : ∀ (calls : List (ApiCall × Nat)) (m : Mongo), CollLeaves Int64 (m.data db) →
    ∃ steps, List.Forall₂ StoredAs (calls.map Prod.fst) steps ∧ runStored U db m calls = runSteps U db m steps
  | [], _, _ => ⟨[], .nil, rfl⟩
  | c :: calls, m, h => by
    obtain ⟨h1, st, h2, h3, _⟩ := store_spec U db c.2 h c.1
    obtain ⟨steps, h4, h5⟩ := stored_steps U db calls _ h1
    refine ⟨st :: steps, .cons h2 h4, ?_⟩
    rw [runStored, List.foldl_cons]
    rw [runStored] at h5
    rw [h5, h3]
    rfl

theorem storedAs_orderly : ∀ {calls : List ApiCall} {steps : List Step}, List.Forall₂ StoredAs calls steps → OrderlySteps (calls.map .call) →
    OrderlySteps steps := by
  intro calls steps h ho
  refine ⟨ho.clock.sublist ?_, ?_⟩
  · clear ho
    induction h with
    | nil => exact .slnil
    | cons h _ ih =>
      rename_i c st cs ss _
      rw [List.map_cons, List.filterMap_cons, List.filterMap_cons]
      rcases h with rfl | ⟨mf, rs, dc, cl, n, rfl, rfl⟩
      · cases (Step.call c).clock? with
        | none => exact ih
        | some t => exact ih.cons_cons _
      · simp only [Step.clock?]
        cases (ApiCall.ingest mf rs dc cl).clock? with
        | none => exact ih
        | some t => exact ih.cons _
  · have hs := ho.noSpan
    clear ho
    induction h with
    | nil => exact fun _ h => nomatch h
    | cons h _ ih =>
      intro st hst
      rcases List.mem_cons.1 hst with rfl | hst
      · rcases h with rfl | ⟨mf, rs, dc, cl, n, rfl, rfl⟩
        · exact hs _ List.mem_cons_self
        · exact hs (.call (.ingest mf rs dc cl)) List.mem_cons_self
      · exact ih (fun c hc => hs c (List.mem_cons_of_mem _ hc)) st hst

/-- **C99**: an ingest that raises is one that was stopped at some write: calls on a new database leave MongoDB as if each had returned, or, some
ingests, had been stopped. So the histories of records are as in C75, and a later sync as in C76. -/
theorem C99_steps (U : Unicode) (db : PyStr) (calls : List (ApiCall × Nat)) (ho : OrderlySteps (calls.map (fun c => .call c.1))) :
    ∃ steps, List.Forall₂ StoredAs (calls.map Prod.fst) steps ∧ OrderlySteps steps ∧
      runStored U db Mongo.empty calls = afterSteps U db steps := by
  obtain ⟨steps, h1, h2⟩ := stored_steps U db calls Mongo.empty (fun _ hm => nomatch hm)
  refine ⟨steps, h1, storedAs_orderly h1 ?_, h2⟩
  rw [List.map_map]
  exact ho

/-- **C99**: if all ints in the records of an ingest fit, and for every other call, it does and returns what it does without the limit. -/
theorem C99_fits (U : Unicode) (db : PyStr) (calls : List (ApiCall × Nat)) (c : ApiCall) (sent : Nat)
    (hc : ∀ r ∈ c.stream, AllLeavesDict Int64 (prepareRecordData U r)) :
    let m := runStored U db Mongo.empty calls
    (c.store U db sent m).2 = (c.run U db m).2 ∧ ∀ ret, (c.store U db sent m).1 = .ok ret ↔ (c.run U db m).1 = .ok ret := by
  intro m
  have hm : CollLeaves Int64 (m.data db) := C99_stored U db calls
  obtain ⟨_, st, _, h3, h4⟩ := store_spec U db sent hm c
  have hne := store_fits (sent := sent) hm hc
  obtain ⟨h5, h6⟩ := h4 hne
  refine ⟨?_, h6⟩
  rw [h3, h5]
  rfl

/-- **C99**: a call raises an `OverflowError` only if it is an ingest with an int that does not fit. -/
theorem C99_raises (U : Unicode) (db : PyStr) (calls : List (ApiCall × Nat)) (c : ApiCall) (sent : Nat)
    (he : (c.store U db sent (runStored U db Mongo.empty calls)).1 = .error .overflow) :
    ∃ r ∈ c.stream, ¬ AllLeavesDict Int64 (prepareRecordData U r) := by
  by_contra hn
  have hc : ∀ r ∈ c.stream, AllLeavesDict Int64 (prepareRecordData U r) := by
    intro r hr
    by_contra h
    exact hn ⟨r, hr, h⟩
  exact store_fits (C99_stored U db calls) hc he

/-- **C99**: an ingest that has a new record (with an id that is not stored) with an int that does not fit does not return. -/
theorem C99_new (U : Unicode) (db : PyStr) (m : Mongo) (sent : Nat) (mf : Option PyStr) (rs : List Record) (doCommit : Bool) (clock : Int)
    (r : Record) (hr : r ∈ rs) (hone : ∀ x ∈ rs, x.id = r.id → x = r) (hnew : ∀ d ∈ m.data db, d.id ≠ r.id)
    (hint : ¬ AllLeavesDict Int64 (prepareRecordData U r)) :
    ∃ e, ((ApiCall.ingest mf rs doCommit clock).store U db sent m).1 = .error e := by
  cases hs : ingestSized U mf 200 (m.data db) rs with
  | error e => exact ⟨.api (.py e), by simp only [ApiCall.store, hs]⟩
  | ok s =>
    have hins : .insert r.id (prepareRecordData U r) ∈ s.written.flatten := by
      refine ingestLoop_insert (fun e => hint (by rw [e]; trivial)) hs ?_ ?_ ?_ ?_
      · rw [partition_flatten (by decide)]; exact hr
      · rw [partition_flatten (by decide)]; exact hone
      · simp only [ids, List.mem_map, not_exists, not_and]; exact hnew
      · simp
    cases hw : writeLists sent (m.data db) s.written with
    | mk c b =>
      have h1 := (writeLists_spec sent s.written (m.data db)).1
      rw [hw] at h1
      cases b with
      | false => exact ⟨.overflow, by simp only [ApiCall.store, hs, hw]⟩
      | true => exact absurd ((MongoOp.encodable_iff _).1 (h1.1 rfl _ hins)) hint

/-- **C99**: all documents that a sync makes from what is stored can be written as JSON: no request raises, if dates read from strings and versions
fit into 64 bits. -/
theorem C99_sync (F : FloatText) (E : ParseEnv) (hE : LeavesOk E IntFits) (U : Unicode) (db : PyStr) (calls : List (ApiCall × Nat))
    (maxDocs : Nat) (allOptions : List (Int × ParsingOptions)) (after : Option Int) (arc : Nat × Nat) (records : List MongoRecord)
    (hr : ∀ r ∈ records, r ∈ (runStored U db Mongo.empty calls).data db) (ops : List (BulkOp (Option ParsedData))) (arc' : Nat × Nat)
    (hg : generateOps (realParser E) maxDocs allOptions after arc records = .ok (ops, arc'))
    (hv : ∀ ix docId doc, .index ix docId doc ∈ ops → ∀ v : Int, (v = doc.version ∨ v = doc.gte ∨ doc.lt = some v ∨ doc.next = some v) →
      -2 ^ 63 ≤ v ∧ v < 2 ^ 64) :
    ∃ body, bulkBody F db (ops.filterMap BulkOp.written) = .ok body := by
  rw [C94_raises]
  intro ix docId doc hm
  obtain ⟨op, h1, h2⟩ := List.mem_filterMap.1 hm
  cases op with
  | delete ix id => cases h2
  | index ix' docId' d =>
    cases hp : d.parsed with
    | none => simp only [BulkOp.written, Doc.written, hp, Option.map_none] at h2; cases h2
    | some p =>
      simp only [BulkOp.written, Doc.written, hp, Option.map_some, Option.some.injEq] at h2
      obtain ⟨r, hrm, items, hi, v, data, w, o, hd, _, he⟩ := generateOps_parsed hg h1
      have hdata : AllLeavesDict IntFits data := by
        refine AllLeavesDict.mono (p := Int64) (fun x h i e => ?_) ?_
        · have := h i e
          omega
        · obtain ⟨x, hx, e⟩ := List.mem_filterMap.1 hd
          have hl := iter_leaves (C99_stored U db calls r (hr r hrm)) hi x hx
          cases hx1 : x.1 with
          | none => rw [hx1] at e; cases e
          | some w => rw [hx1] at e; cases e; exact hl
      have hver := hv ix' docId' d h1
      have hint : ∀ v : Int, (-2 ^ 63 ≤ v ∧ v < 2 ^ 64) → IntFits (.int v) := fun v h i e => by cases e; exact h
      cases h2
      refine toDict_leaves hE.str (hint _ (hver _ (.inl rfl))) (hint _ (hver _ (.inr (.inl rfl)))) (fun v h => hint _ (hver _ (.inr (.inr (.inl h)))))
        (fun v h => hint _ (hver _ (.inr (.inr (.inr h))))) ?_
      rw [hp] at he
      simp only [realParser] at he
      split at he
      · rename_i y hy
        cases he
        exact canonDict_leaves _ (parse_leaves hE hdata hy)
      · cases he

/-! ### Cases -/

/-- A record with an int that does not fit. -/
def exBig : Record := ⟨['b'], [(.str ['n'], .int (2 ^ 63))]⟩
/-- A record with the greatest int that fits, in a list. -/
def exMax : Record := ⟨['a'], [(.str ['n'], .list [.int (2 ^ 63 - 1), .int (-2 ^ 63)])]⟩
/-- A record with a float that equals the int of `exBig`. -/
def exBigFloat : Record := ⟨['b'], [(.str ['n'], .float (.fin (2 ^ 63)))]⟩
/-- The second ingest raises, when one of its operations has been written. -/
def exBigCalls : List (ApiCall × Nat) :=
  [(.ingest none [⟨['c'], [(.str ['x'], .bool true)]⟩] true 1, 0), (.ingest none [exMax, exBig] true 2, 1), (.commit 3, 0)]

set_option maxRecDepth 100000 in
/-- What is stored after this: the record that fits, which the later commit commits. -/
example : ((runStored asciiU ['x'] Mongo.empty exBigCalls).data ['x']).map (fun r => (r.id, r.version)) = [(['c'], some 1), (['a'], some 3)] := by
  decide +kernel

set_option maxRecDepth 100000 in
/-- The calls meet the hypothesis of `C99_steps`. -/
example : OrderlySteps (exBigCalls.map (fun c => .call c.1)) :=
  ⟨by decide, fun c hc => by
    simp only [exBigCalls, List.map_cons, List.map_nil, List.mem_cons, List.not_mem_nil, or_false] at hc
    rcases hc with rfl | rfl | rfl <;> unfold NoSpan <;> decide⟩

set_option maxRecDepth 100000 in
/-- The hypotheses of `C99_new` hold for the second ingest, and those of `C99_fits` for the first. -/
example : (¬ AllLeavesDict Int64 (prepareRecordData asciiU exBig)) ∧ (∀ x ∈ [exMax, exBig], x.id = exBig.id → x = exBig) ∧
    AllLeavesDict Int64 (prepareRecordData asciiU exMax) := by
  rw [← encodableDict_iff, ← encodableDict_iff]
  refine ⟨by decide +kernel, fun x hx e => ?_, by decide +kernel⟩
  rcases List.mem_cons.1 hx with rfl | hx
  · exact absurd e (by decide)
  · exact List.mem_singleton.1 hx

set_option maxRecDepth 100000 in
/-- It raises. -/
example : (match ((ApiCall.ingest none [exMax, exBig] true 2).store asciiU ['x'] 1 Mongo.empty).1 with | .error .overflow => true | _ => false) = true := by
  decide +kernel

set_option maxRecDepth 100000 in
/-- For a record that is stored it need not raise (so `C99_new` is about new records): an int that equals the stored float is no change. -/
example : (match ((ApiCall.ingest none [exBig] true 2).store asciiU ['x'] 0
      (runStored asciiU ['x'] Mongo.empty [(.ingest none [exBigFloat] true 1, 0)])).1 with | .ok none => true | _ => false) = true ∧
    (match ((ApiCall.ingest none [exBig] true 2).store asciiU ['x'] 0
      (runStored asciiU ['x'] Mongo.empty [(.ingest none [exMax] true 1, 0)])).1 with | .error .overflow => true | _ => false) = true := by
  decide +kernel

/-- The operations of a first sync after these calls. -/
def exBigOps : List (BulkOp (Option ParsedData)) :=
  match generateOps (realParser exEnv') 10 (committedOptionsOf ['x'] (runStored asciiU ['x'] Mongo.empty exBigCalls)) none (0, 0)
    ((runStored asciiU ['x'] Mongo.empty exBigCalls).data ['x']) with
  | .ok x => x.1
  | .error _ => []

set_option maxRecDepth 100000 in
/-- The sync writes, with versions that fit. -/
example : (exBigOps.filterMap BulkOp.written).length = 2 ∧ exBigOps.all (fun op => match op with
    | .index _ _ doc => decide (doc.version = 1 ∨ doc.version = 3) && decide (doc.gte = 1 ∨ doc.gte = 3) && doc.lt.isNone && doc.next.isNone
    | .delete _ _ => true) = true := by
  decide +kernel

/-- Dates that fit. -/
example : LeavesOk exEnv' IntFits := by
  refine ⟨?_, ?_, ?_, ?_, ?_⟩
  · intro i e; cases e
  · intro b i e; cases e
  · intro s i e; cases e
  · intro s f i h j e
    cases e
    simp only [exEnv', exEnv] at h
    split at h
    · split at h
      · cases h; omega
      · split at h <;> cases h
        omega
    · cases h
  · intro s f _ i e; cases e

end Splitgill.Props
