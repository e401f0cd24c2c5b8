import Verif.Proof.Schedule
import Verif.Proof.Filter3
import Verif.Props.Filter
import Verif.Props.Bulk
/-!
# C81: searches do not depend on how writes are scheduled
-/

namespace Splitgill.Props
open Splitgill

/-- **C81**: after any number of calls of `sync` and `resync_arcs`, whose operations are written in chunks by any number of workers, in
any schedule, there are the documents that there are when all operations are carried out in their order; and all methods that read return
the same. -/
theorem C81_schedules {P : Type} (X : Parser P) (maxDocs : Nat) (db : PyStr) (es es' : ES P) (cs : List (SyncCall × Mongo))
    (hok : LatestOk es) (hids : ∀ cm ∈ cs, ((cm.2.data db).map MongoRecord.id).Nodup) (h : Scheduled X maxDocs db es cs es') :
    ∃ e, runInOrder X maxDocs db es cs = .ok e ∧ SameDocs es' e ∧ ReadsSame es' e := by
  obtain ⟨e, h1, h2, h3, h4⟩ := h.same hids hok es (.refl es) hok
  exact ⟨e, h1, h2, h2.reads h3.indices h4.indices⟩

/-- **C81**: so two runs with different schedules, chunk sizes and workers cannot be told apart. -/
theorem C81_two_runs {P : Type} (X : Parser P) (maxDocs : Nat) (db : PyStr) (es es1 es2 : ES P) (cs : List (SyncCall × Mongo))
    (hok : LatestOk es) (hids : ∀ cm ∈ cs, ((cm.2.data db).map MongoRecord.id).Nodup)
    (h1 : Scheduled X maxDocs db es cs es1) (h2 : Scheduled X maxDocs db es cs es2) : SameDocs es1 es2 ∧ ReadsSame es1 es2 := by
  obtain ⟨e, g1, g2, g3, g4⟩ := h1.same hids hok es (.refl es) hok
  obtain ⟨e', k1, k2, k3, k4⟩ := h2.same hids hok es (.refl es) hok
  rw [g1] at k1; cases k1
  have := g2.trans k2.symm
  exact ⟨this, this.reads g3.indices k3.indices⟩

/-- The ids of the records are distinct in each state. -/
theorem statesOf_nodup (U : Unicode) (db : PyStr) : ∀ (parts : List (List ApiCall)) (first : List ApiCall), Orderly (first ++ parts.flatten) →
    ∀ m ∈ statesOf U db first parts, ((m.data db).map MongoRecord.id).Nodup
  | [], first, ho, m, hm => by
    simp only [statesOf, List.mem_singleton] at hm
    subst hm
    exact (life (K := fun _ => plainClass) (U := U) (db := db) (fun c _ => fits_plain U c.stream) ho.left).rep.nodup
  | part :: parts, first, ho, m, hm => by
    simp only [statesOf, List.mem_cons] at hm
    rcases hm with rfl | hm
    · exact (life (K := fun _ => plainClass) (U := U) (db := db) (fun c _ => fits_plain U c.stream) ho.left).rep.nodup
    · exact statesOf_nodup U db parts (first ++ part) (by simpa using ho) m hm

/-- **C81** for calls of the API with syncs between them, with the parser of the code: queries and listings of fields return the same too. -/
theorem C81_calls (E : ParseEnv) (U : Unicode) (maxDocs : Nat) (db : PyStr) (first : List ApiCall) (parts : List (List ApiCall))
    (ho : Orderly (first ++ parts.flatten)) (es' : ES (Option ParsedData))
    (h : Scheduled (realParser E) maxDocs db [] ((statesOf U db first parts).map (fun m => (.sync false, m))) es') :
    ∃ es, runSyncs (realParser E) maxDocs db [] (statesOf U db first parts) = .ok es ∧ SameDocs es' es ∧ ReadsSame es' es ∧
      QueriesSame es' es := by
  obtain ⟨e, h1, h2, h3, h4⟩ := h.same (fun cm hcm => by
    obtain ⟨m, hm, rfl⟩ := List.mem_map.1 hcm
    exact statesOf_nodup U db parts first ho m hm) latestOk_nil [] (.refl []) latestOk_nil
  rw [runInOrder_sync] at h1
  exact ⟨e, h1, h2, h2.reads h3.indices h4.indices, h2.queries h3.indices h4.indices⟩

/-- **C81** and C77: whatever the schedules, a query finds once each record whose data as of `v` has in the field what is asked for, and no
other, under the conditions of C77. -/
theorem C81_queries_partial (E : ParseEnv) (hE : E.IgnoresOrder) (hS : E.ScalarHints) (U : Unicode) (hU : U.Sane) (maxDocs : Nat)
    (db : PyStr) (first : List ApiCall) (parts : List (List ApiCall)) (ho : Orderly (first ++ parts.flatten))
    (hv : ∃ v, IsVersion (afterCalls U db first) db v) (he : EachPart (NoUpdateDelete db) U db first parts)
    (hp : ∀ m ∈ statesOf U db first parts, NoPending db m)
    (hk : ∀ x ∈ committedOptionsOf db (afterCalls U db (first ++ parts.flatten)), 0 ≤ x.2.keywordLength)
    (hn : NoPunsAmong U ((first ++ parts.flatten).flatMap ApiCall.stream)) (es : ES (Option ParsedData))
    (h : Scheduled (realParser E) maxDocs db [] ((statesOf U db first parts).map (fun m => (.sync false, m))) es) :
    ∀ (Q : QueryEnv) (field : PyStr) (k : Asked), k.Bounded → ∃ q, k.query Q field = .ok q ∧
      ∀ v, (foundIds (es.searchFor Q (.version v) q)).Nodup ∧ ∀ id, id ∈ foundIds (es.searchFor Q (.version v) q) ↔
        HoldsAsOf (ingested U db (first ++ parts.flatten)) (committedOptionsOf db (afterCalls U db (first ++ parts.flatten))) v id
          (fun a o => HasInField a field (k.holds Q E o)) := by
  intro Q field k hb
  obtain ⟨e, h1, _, _, h4⟩ := C81_calls E U maxDocs db first parts ho es h
  obtain ⟨e', g1, g2⟩ := C77_syncs_partial E hE hS U hU maxDocs db first parts ho hv he hp hk hn
  rw [h1] at g1; cases g1
  obtain ⟨q, hq, g3⟩ := g2 Q field k hb
  refine ⟨q, hq, fun v => ?_⟩
  have hperm : (foundIds (es.searchFor Q (.version v) q)).Perm (foundIds (e.searchFor Q (.version v) q)) := (h4.found Q (.version v) q).map _
  refine ⟨hperm.nodup_iff.2 (g3 v).1, fun id => ?_⟩
  rw [hperm.mem_iff]
  exact (g3 v).2 id

/-- Computes a run with schedules. -/
def runScheduled {P : Type} (X : Parser P) (maxDocs : Nat) (db : PyStr) (o : BulkOptions) : ES P → List (SyncCall × Mongo) → List (List BulkAction) →
    Option (ES P)
  | es, [], [] => some es
  | es, (c, m) :: rest, schedule :: schedules =>
    match c.ops X maxDocs db m es with
    | .error _ => none
    | .ok (es0, ops) =>
      match writeOps BulkOp.isDelete ops o schedule with
      | none => none
      | some s =>
        match s.main with
        | .returned _ _ =>
          if s.log.all (fun x => !x.2.isTimeout || (appliedOps x).isEmpty) then
            runScheduled X maxDocs db o (es0.applyOps s.written) rest schedules
          else none
        | _ => none
  | _, _, _ => none

theorem runScheduled_spec {P : Type} {X : Parser P} {maxDocs : Nat} {db : PyStr} {o : BulkOptions} (ho : 1 ≤ o.chunkSize) :
    ∀ {cs : List (SyncCall × Mongo)} {es es' : ES P} {schedules : List (List BulkAction)},
      runScheduled X maxDocs db o es cs schedules = some es' → Scheduled X maxDocs db es cs es'
  | [], es, es', [], h => by cases h; exact .nil _
  | [], es, es', _ :: _, h => by cases h
  | _ :: _, es, es', [], h => by cases h
  | (c, m) :: rest, es, es', schedule :: schedules, h => by
    unfold runScheduled at h
    split at h
    · cases h
    · rename_i es0 ops hops
      split at h
      · cases h
      · rename_i s hs
        split at h
        · rename_i i d hmain
          split at h
          · rename_i hall
            rw [List.all_eq_true] at hall
            refine .cons o schedule s i d hops ho hs hmain (fun x hx ht => ?_) (runScheduled_spec ho h)
            have := hall x hx
            rw [ht] at this
            simpa using this
          · cases h
        · cases h

/-- One request after the other, the first after a timeout, then the second before the first. -/
def exFirstSchedule : List BulkAction :=
  [.main, .get 1, .response 1 (.timeout [false, false]), .main, .response 1 (.items [false, false]), .main, .main, .get 0, .get 1, .main, .main, .main,
   .refreshed true]

/-- The indices after the syncs of the example of C77, with schedules. -/
def exScheduledES : Option (ES (Option ParsedData)) :=
  runScheduled (realParser exEnv') 10 ['x'] exBulk [] ((statesOf asciiU ['x'] exCalls1 exParts).map (fun m => (.sync false, m)))
    [exFirstSchedule, exOvertake]

set_option maxRecDepth 100000 in
/-- There is such a run, in which the archive has its documents in another order than when all is carried out in order. -/
example : (∃ es', Scheduled (realParser exEnv') 10 ['x'] [] ((statesOf asciiU ['x'] exCalls1 exParts).map (fun m => (.sync false, m))) es' ∧
      exScheduledES = some es') ∧
    (exScheduledES.map (fun es => (foundIds (found es .all))) ≠ some (foundIds (found exFilterES .all))) := by
  have hs : exScheduledES.isSome = true := by decide +kernel
  obtain ⟨es', h⟩ := Option.isSome_iff_exists.1 hs
  exact ⟨⟨es', runScheduled_spec (by decide) h, h⟩, by decide +kernel⟩

end Splitgill.Props
