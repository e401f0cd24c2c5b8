import Verif.Proof.Overlap
import Verif.Props.Repeat
/-!
# C126: syncs at the same time, of data at different moments

`es` are the indices after any syncs. Then two calls of `sync()` start from `es`. One reads the database as it is in `m1`, the other
later, as it is in `m2`. `written` are the operations of both in the order in which they reach the indices (`Overlap`).
-/

namespace Splitgill.Props
open Splitgill

/-- C126 in full: when both have ended and another sync has run, searches find what they would find had only the later one run. -/
def C126_full : Prop :=
  ∀ (P : Type) (X : Parser P) (maxDocs : Nat) (db : PyStr) (ms : List Mongo) (m1 m2 : Mongo) (t : Int) (es : ES P)
    (early late written : List (BulkOp P)),
    (∀ m ∈ ms, DbOk db m) → runSyncs X maxDocs db [] ms = .ok es → DbOk db m1 → DbOk db m2 → Later X db t m1 m2 →
    (∀ id, NoPendingOf db id m1 ∧ NoPendingOf db id m2) → Overlap X maxDocs db m1 m2 es early late written →
    ∃ es1 es2, sync X maxDocs db false m2 (es.applyOps written) = .ok es1 ∧ sync X maxDocs db false m2 es = .ok es2 ∧
      ∀ id v d, d ∈ foundFor es1 (.version v) id ↔ d ∈ foundFor es2 (.version v) id

/-- `a` at 1. -/
def exOverlap1 : List ApiCall := [.ingest none [exRec ['a'] 1, exRec ['b'] 5] true 1]
/-- `a` changed at 2. -/
def exOverlap2 : List ApiCall := exOverlap1 ++ [.ingest none [exRec ['a'] 2] true 2]

/-- The operations of a sync into empty indices. -/
def exOpsOf (calls : List ApiCall) : List (BulkOp (Dict × ParsingOptions)) :=
  match syncOps exParser 10 ['x'] false (exDbOf calls) [] with | .ok (_, ops) => ops | .error _ => []

theorem exOpsOf_ops {calls : List ApiCall} (h : (match syncOps exParser 10 ['x'] false (exDbOf calls) [] with | .ok _ => true | .error _ => false) = true) :
    ∃ es0, syncOps exParser 10 ['x'] false (exDbOf calls) [] = .ok (es0, exOpsOf calls) := by
  unfold exOpsOf
  cases hs : syncOps exParser 10 ['x'] false (exDbOf calls) [] with
  | error e => rw [hs] at h; cases h
  | ok x => exact ⟨x.1, rfl⟩

/-- The operations of the later sync reach the indices first. -/
theorem exOverlap_late : Overlap exParser 10 ['x'] (exDbOf exOverlap1) (exDbOf exOverlap2) [] (exOpsOf exOverlap1) (exOpsOf exOverlap2)
    (exOpsOf exOverlap2 ++ exOpsOf exOverlap1) :=
  ⟨exOpsOf_ops (by decide), exOpsOf_ops (by decide), List.perm_append_comm⟩

/-- The operations of the earlier sync reach the indices first. -/
theorem exOverlap_early : Overlap exParser 10 ['x'] (exDbOf exOverlap1) (exDbOf exOverlap2) [] (exOpsOf exOverlap1) (exOpsOf exOverlap2)
    (exOpsOf exOverlap1 ++ exOpsOf exOverlap2) :=
  ⟨exOpsOf_ops (by decide), exOpsOf_ops (by decide), .refl _⟩

theorem exOverlap_noPending (calls : List ApiCall) (h : ((exDbOf calls).data ['x']).all (fun r => r.version.isSome) = true) (id : PyStr) :
    NoPendingOf ['x'] id (exDbOf calls) := fun r hr _ e => by
  have := List.all_eq_true.1 h r hr
  rw [e] at this; cases this

set_option maxRecDepth 100000 in
/-- **C126 does not hold in full**: if the operations of the earlier sync come last, they put the old version of a record back into the latest
index, with no end, and since the archives have the newer version's start, the next sync finds that there is nothing to do. Nothing
keeps two syncs from running at once. -/
theorem C126_refuted : ¬ C126_full := by
  intro h
  obtain ⟨es1, es2, h1, h2, h3⟩ := h _ exParser 10 ['x'] [] (exDbOf exOverlap1) (exDbOf exOverlap2) 1 [] _ _ _ (fun _ h => nomatch h) rfl
    (dbOk_of_check (by decide)) (dbOk_of_check (by decide)) (later_of_check _ (by decide))
    (fun id => ⟨exOverlap_noPending _ (by decide) id, exOverlap_noPending _ (by decide) id⟩) exOverlap_late
  have e1 : (match sync exParser 10 ['x'] false (exDbOf exOverlap2) (ES.applyOps [] (exOpsOf exOverlap2 ++ exOpsOf exOverlap1)) with
    | .ok es => (foundFor es (.version 2) ['a']).map Doc.gte | .error _ => []) = [1] := by decide
  have e2 : (match sync exParser 10 ['x'] false (exDbOf exOverlap2) [] with
    | .ok es => (foundFor es (.version 2) ['a']).map Doc.gte | .error _ => []) = [2] := by decide
  rw [h1] at e1
  rw [h2] at e2
  obtain ⟨d, hd⟩ := List.exists_mem_of_ne_nil (foundFor es1 (.version 2) ['a']) (fun e => by dsimp only at e1; rw [e] at e1; cases e1)
  have k1 : d.gte ∈ [(1 : Int)] := e1 ▸ List.mem_map_of_mem hd
  have k2 : d.gte ∈ [(2 : Int)] := e2 ▸ List.mem_map_of_mem ((h3 ['a'] 2 d).1 hd)
  rw [List.mem_singleton] at k1 k2
  omega

/-- **C126**, for the records whose document in the latest index is last written by the later sync: every search finds of them what it
would find had only the later one run. (What is missing are records where the earlier sync writes last.) -/
theorem C126_last_partial {P : Type} (X : Parser P) (maxDocs : Nat) (db : PyStr) (ms : List Mongo) (m1 m2 : Mongo) (t : Int) (es : ES P)
    (early late written : List (BulkOp P)) (hms : ∀ m ∈ ms, DbOk db m) (hes : runSyncs X maxDocs db [] ms = .ok es)
    (hm1 : DbOk db m1) (hm2 : DbOk db m2) (h : Overlap X maxDocs db m1 m2 es early late written) :
    ∃ es2, sync X maxDocs db false m2 es = .ok es2 ∧
      ∀ id, LaterFor X db id t m1 m2 → NoPendingOf db id m2 → LastOneOf id written late →
        ∀ at_ d, d ∈ foundFor (es.applyOps written) at_ id ↔ d ∈ foundFor es2 at_ id := by
  obtain ⟨s, hs⟩ := runSyncs_sound X maxDocs ms [] es 0 hms (soundIndices_nil 0) hes
  obtain ⟨_, h2⟩ := h.ofLate
  refine ⟨es.applyOps late, sync_of_ops h2, fun id hl hp hlast at_ d => ?_⟩
  exact h.found hm1 hm2 hs hl hp (((h.parts hm1 hm2 hs.ok).2.2 id).2 hlast) at_ d

/-- **C126**, for the records that are not touched between the two reads: whatever the order of the operations, every search finds of them
what it would find had only the later sync run. -/
theorem C126_unchanged_partial {P : Type} (X : Parser P) (maxDocs : Nat) (db : PyStr) (ms : List Mongo) (m1 m2 : Mongo) (t : Int) (es : ES P)
    (early late written : List (BulkOp P)) (hms : ∀ m ∈ ms, DbOk db m) (hes : runSyncs X maxDocs db [] ms = .ok es)
    (hm1 : DbOk db m1) (hm2 : DbOk db m2) (h : Overlap X maxDocs db m1 m2 es early late written) :
    ∃ es2, sync X maxDocs db false m2 es = .ok es2 ∧
      ∀ id, LaterFor X db id t m1 m2 → NoPendingOf db id m1 → NoPendingOf db id m2 →
        histOf (m1.data db) id = histOf (m2.data db) id → committedOptionsOf db m1 = committedOptionsOf db m2 →
        ∀ at_ d, d ∈ foundFor (es.applyOps written) at_ id ↔ d ∈ foundFor es2 at_ id := by
  obtain ⟨s, hs⟩ := runSyncs_sound X maxDocs ms [] es 0 hms (soundIndices_nil 0) hes
  obtain ⟨_, h1⟩ := h.ofEarly
  obtain ⟨_, h2⟩ := h.ofLate
  refine ⟨es.applyOps late, sync_of_ops h2, fun id hl hp1 hp2 hh ho at_ d => ?_⟩
  refine h.found hm1 hm2 hs hl hp2 ?_ at_ d
  have := latest_unchanged hm1 hm2 hs.ok (sync_of_ops h1) (sync_of_ops h2) (by unfold recDocs; rw [hh, ho]) hp1 hp2
  rcases ((h.parts hm1 hm2 hs.ok).2.2 id).1 with e | e
  · rw [e, this]
  · exact e

/-- **C126**, if the operations of the earlier sync all reach the indices before those of the later one: every search finds what it would
find had only the later one run, of every record that is new in the latest index or removed from it by the later sync. -/
theorem C126_order_partial {P : Type} (X : Parser P) (maxDocs : Nat) (db : PyStr) (ms : List Mongo) (m1 m2 : Mongo) (t : Int) (es : ES P)
    (early late a b : List (BulkOp P)) (hms : ∀ m ∈ ms, DbOk db m) (hes : runSyncs X maxDocs db [] ms = .ok es)
    (hm1 : DbOk db m1) (hm2 : DbOk db m2) (h : Overlap X maxDocs db m1 m2 es early late (a ++ b)) (hb : b.Perm late) :
    ∃ es2, sync X maxDocs db false m2 es = .ok es2 ∧
      ∀ id, LaterFor X db id t m1 m2 → NoPendingOf db id m2 → (∃ op ∈ late, op.latestId = some id) →
        ∀ at_ d, d ∈ foundFor (es.applyOps (a ++ b)) at_ id ↔ d ∈ foundFor es2 at_ id := by
  obtain ⟨es2, h1, h2⟩ := C126_last_partial X maxDocs db ms m1 m2 t es early late (a ++ b) hms hes hm1 hm2 h
  exact ⟨es2, h1, fun id hl hp ho => h2 id hl hp (lastOneOf_append hb ho)⟩

/-- **C126** for calls and the parser of the program: `parts` are calls with a sync after each, `more1` the calls until the earlier of the two
syncs reads, and `more2` those until the later one does. -/
theorem C126_calls_partial (E : ParseEnv) (hE : E.IgnoresOrder) (U : Unicode) (hU : U.Sane) (maxDocs : Nat) (db : PyStr) (first : List ApiCall)
    (parts : List (List ApiCall)) (more1 more2 : List ApiCall) (ho : Orderly (first ++ (parts ++ [more1, more2]).flatten))
    (hv : ∃ v, IsVersion (afterCalls U db first) db v) (es : ES (Option ParsedData))
    (hes : runSyncs (realParser E) maxDocs db [] (statesOf U db first parts) = .ok es) (early late written : List (BulkOp (Option ParsedData)))
    (h : Overlap (realParser E) maxDocs db (afterCalls U db (first ++ parts.flatten ++ more1))
      (afterCalls U db (first ++ parts.flatten ++ more1 ++ more2)) es early late written) :
    ∃ es2, runSyncs (realParser E) maxDocs db [] (statesOf U db first (parts ++ [more1 ++ more2])) = .ok es2 ∧
      ∀ id, NoPunsAmong U (((first ++ (parts ++ [more1, more2]).flatten).flatMap ApiCall.stream).filter (fun r => decide (r.id = id))) →
        NoPendingOf db id (afterCalls U db (first ++ parts.flatten ++ more1 ++ more2)) → LastOneOf id written late →
        ∀ at_ d, d ∈ foundFor (es.applyOps written) at_ id ↔ d ∈ foundFor es2 at_ id := by
  have e : first ++ (parts ++ [more1, more2]).flatten = first ++ parts.flatten ++ more1 ++ more2 := by simp
  rw [e] at ho ⊢
  have oks := life_dbOks (U := U) (db := db) (parts ++ [more1]) first (by simpa using ho.left) hv
  have ok1 : DbOk db (afterCalls U db (first ++ parts.flatten ++ more1)) := oks _ (by rw [statesOf_snoc]; simp)
  have ok2 : DbOk db (afterCalls U db (first ++ parts.flatten ++ more1 ++ more2)) :=
    life_dbOks (U := U) (db := db) ((parts ++ [more1]) ++ [more2]) first (by simpa using ho) hv _ (by rw [statesOf_snoc]; simp)
  obtain ⟨s, hs⟩ := runSyncs_sound (realParser E) maxDocs _ [] es 0 (fun m hm => oks m (by rw [statesOf_snoc]; simp [hm])) (soundIndices_nil 0) hes
  obtain ⟨_, h2⟩ := h.ofLate
  refine ⟨es.applyOps late, ?_, fun id hn hp hl at_ d => ?_⟩
  · rw [statesOf_snoc, ← List.append_assoc]
    exact runSyncs_snoc hes (sync_of_ops h2)
  · obtain ⟨t, _, hlater⟩ := calls_laterFor hE hU ho ok1.isVersion hn
    exact h.found ok1 ok2 hs hlater hp (((h.parts ok1 ok2 hs.ok).2.2 id).2 hl) at_ d

/-- `b` is not touched between the two reads, `a` is. -/
example : (∀ at_ d, d ∈ foundFor (ES.applyOps [] (exOpsOf exOverlap2 ++ exOpsOf exOverlap1)) at_ ['b'] ↔
      d ∈ foundFor (ES.applyOps [] (exOpsOf exOverlap2)) at_ ['b']) ∧
    (∀ at_ d, d ∈ foundFor (ES.applyOps [] (exOpsOf exOverlap1 ++ exOpsOf exOverlap2)) at_ ['a'] ↔
      d ∈ foundFor (ES.applyOps [] (exOpsOf exOverlap2)) at_ ['a']) ∧
    (foundFor (ES.applyOps [] (exOpsOf exOverlap2)) .all ['a']).map (fun d => (d.gte, d.lt)) = [(1, some 2), (2, none)] ∧
    (foundFor (ES.applyOps [] (exOpsOf exOverlap2)) .all ['b']).map (fun d => (d.gte, d.lt)) = [(1, none)] := by
  have ok1 : DbOk ['x'] (exDbOf exOverlap1) := dbOk_of_check (by decide)
  have ok2 : DbOk ['x'] (exDbOf exOverlap2) := dbOk_of_check (by decide)
  have hl : Later exParser ['x'] 1 (exDbOf exOverlap1) (exDbOf exOverlap2) := later_of_check _ (by decide)
  obtain ⟨_, hops⟩ := exOverlap_late.ofLate
  have hsync := sync_of_ops hops
  refine ⟨?_, ?_, by decide, by decide⟩
  · obtain ⟨es2, h1, h2⟩ := C126_unchanged_partial exParser 10 ['x'] [] _ _ 1 [] _ _ _ (fun _ h => nomatch h) rfl ok1 ok2 exOverlap_late
    rw [hsync] at h1; cases h1
    exact h2 _ (hl.one _) (exOverlap_noPending _ (by decide) _) (exOverlap_noPending _ (by decide) _) (by decide) (by decide)
  · obtain ⟨es2, h1, h2⟩ := C126_order_partial exParser 10 ['x'] [] _ _ 1 [] _ _ (exOpsOf exOverlap1) (exOpsOf exOverlap2) (fun _ h => nomatch h)
      rfl ok1 ok2 exOverlap_early (.refl _)
    rw [hsync] at h1; cases h1
    exact h2 _ (hl.one _) (exOverlap_noPending _ (by decide) _) (by
      have : (exOpsOf exOverlap2).any (fun op => decide (op.latestId = some ['a'])) = true := by decide
      obtain ⟨op, h1, h2⟩ := List.any_eq_true.1 this
      exact ⟨op, h1, of_decide_eq_true h2⟩)

end Splitgill.Props
