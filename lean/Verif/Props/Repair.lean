import Verif.Props.FieldSteps
import Verif.Proof.BulkOps
import Verif.Props.Repeat
import Verif.Proof.Overlap
import Verif.Spec.Ever
/-!
# C128: what a repair of the indices achieves

`es` are any indices: syncs may have been stopped, archives lost, documents written twice. The steps may be calls, calls that are stopped at any of
their writes, and releases of the lock (`Verif.Model.Crash`).
-/

namespace Splitgill.Props
open Splitgill

/-- All that C103 and C101 say of indices, for histories `s` of records that were given as `rs`. -/
structure AnswersAll (E : ParseEnv) (U : Unicode) (rs : List Record) (s : Store) (opts : List (Int × ParsingOptions))
    (es : ES (Option ParsedData)) : Prop where
  queries : AnswersQueries E s opts es
  changes : ∀ ids : List PyStr, ids.Nodup → (∀ r ∈ rs, r.id ∈ ids) → E.NumbersExist →
    (∀ r ∈ rs, (Value.dict (prepareRecordData U r)).noNaN = true) → TellsChanges E s opts ids es
  contents : ∀ ids : List PyStr, ids.Nodup → (∀ r ∈ rs, r.id ∈ ids) →
    (∀ r ∈ rs, NestedNames '#' (.dict (prepareRecordData U r)) ∧ NestedNames '_' (.dict (prepareRecordData U r))) →
    ListsContents E s opts ids es
  listings : (∀ r ∈ rs, NestedNames '#' (.dict (prepareRecordData U r)) ∧ NestedNames '_' (.dict (prepareRecordData U r))) →
    (∀ x ∈ opts, E.HintsOk x.2) → ListingsAgree s es
  /-- From some version on, searching at a version is searching without one (see C129). -/
  newest : ∃ b, ∀ v, b ≤ v → found es (.version v) = found es .latest
  /-- See C130. -/
  allVersions : AllVersions es

theorem allVersions_of {P : Type} {X : Parser P} {es : ES P} {rs : List MongoRecord} {D : MongoRecord → List (Doc P)} (h : Indexed X es rs D) :
    AllVersions es where
  at_version d v := by
    rw [(h.found v).mem_iff, List.mem_filter, inRange_iff]
    rfl
  some_version d hd := by
    obtain ⟨r, hr, hd⟩ := h.mem_all.1 (show d ∈ es.all from hd)
    rw [(h.fields r hr d hd).2.1]
    exact h.covers_start hr hd
  apart d hd d' hd' e v hv hv' := by
    obtain ⟨r, hr, hd⟩ := h.mem_all.1 (show d ∈ es.all from hd)
    obtain ⟨r', hr', hd'⟩ := h.mem_all.1 (show d' ∈ es.all from hd')
    have : r = r' := List.inj_on_of_nodup_map h.ids hr hr' (by rw [← (h.fields r hr d hd).1, ← (h.fields r' hr' d' hd').1, e])
    subst this
    exact h.unique hr hd hd' hv hv'
  once := by
    have := h.nodup (fun _ => true)
    simp only [List.filter_true] at this
    exact h.perm.nodup_iff.2 this

theorem answersAll_of_life {E : ParseEnv} (hE : E.IgnoresOrder) (hS : E.ScalarHints) {db : PyStr} {m : Mongo} {s : Store}
    {hi : Option Int} {U : Unicode} {rs : List Record} {hn : NoPunsAmong U rs}
    (hl : LifeInv (fun id => (strictClass (placesOf U rs hn id)).named) db m s hi) (hm : DbOk db m) {es : ES (Option ParsedData)}
    (h2 : LatestOk es) (h3 : IndexesRecords (realParser E) db m ((m.data db).filter (fun r => r.version.isSome)) es)
    (hs : ∀ {id : PyStr} {vd : Int × Dict}, vd ∈ (s id).committed → ∃ r ∈ rs, r.id = id ∧ vd.2 = prepareRecordData U r) :
    AnswersAll E U rs s (committedOptionsOf db m) es := by
  have hall' : ∀ {ids : List PyStr}, (∀ r ∈ rs, r.id ∈ ids) → ∀ id, (s id).committed ≠ [] → id ∈ ids := fun hall id h => by
    obtain ⟨x, hx⟩ := List.exists_mem_of_ne_nil _ h
    obtain ⟨r, hr, rfl, _⟩ := hs hx
    exact hall r hr
  refine ⟨answers_of_life hE hS hl hm h2 h3,
    fun ids hids hall hN hnan => tells_of_life hE hS hl hm h2 h3 hN (fun id x hx => ?_) hids (hall' hall),
    fun ids hids hall hk => lists_of_life hE hS hl hm h2 h3 hids (hall' hall) (fun id v a ⟨w, hw, _⟩ => ?_) (fun id v a ⟨w, hw, _⟩ => ?_),
    fun hk hH Q v q => ?_, ?_, ?_⟩
  · obtain ⟨r, hr, _, e⟩ := hs hx
    rw [e]; exact hnan r hr
  · obtain ⟨r, hr, _, rfl⟩ := hs hw
    exact (hk r hr).1
  · obtain ⟨r, hr, _, rfl⟩ := hs hw
    exact (hk r hr).2
  · obtain ⟨f, e1, e2, e3⟩ := fieldsOf_found (Q := Q) (es := es) (v := v) q
    rw [e1, e2, e3]
    refine hl.fields_agree_found hE hS hm h2 h3 Q v f hH (fun id a ⟨w, hw, _⟩ => ?_)
    obtain ⟨r, hr, _, rfl⟩ := hs hw
    exact hk r hr
  · obtain ⟨D, hD, _⟩ := h3.indexed hm List.filter_sublist h2
    exact hD.found_latest
  · obtain ⟨D, hD, _⟩ := h3.indexed hm List.filter_sublist h2
    exact allVersions_of hD

/-- Indices with the same documents hold the same records. -/
theorem indexes_same {P : Type} {X : Parser P} {db : PyStr} {m : Mongo} {rs : List MongoRecord} {es es' : ES P}
    (h : IndexesRecords X db m rs es) (hok : LatestOk es') (hs : SameIndices es' es) : IndexesRecords X db m rs es' := by
  obtain ⟨docs, h1, h2, _, h4, h5⟩ := h
  exact ⟨docs, h1, h2, hok.nodup, fun key d => by rw [hs.latest, h4], hs.archived.trans h5⟩

theorem resyncArcs_latestOk {P : Type} {X : Parser P} {maxDocs : Nat} {db : PyStr} {m : Mongo} {es es' : ES P}
    (hids : ((m.data db).map MongoRecord.id).Nodup) (hok : LatestOk es) (h : resyncArcs X maxDocs db m es = .ok es') : LatestOk es' := by
  unfold resyncArcs at h
  dsimp only at h
  split at h
  · cases h
  · rename_i hg
    cases h
    exact hok.deleteArcs.applyOps (fun op hop =>
      ((generateOps_latest ((List.Sublist.map _ List.filter_sublist).nodup hids) hg).1 op (List.mem_filter.1 hop).1).1)

/-- Every document in the latest index is of a record that exists now and has no uncommitted changes. -/
def LatestExists {P : Type} (db : PyStr) (m : Mongo) (es : ES P) : Prop :=
  ∀ id, some id ∈ (es.docs .latest).map Prod.fst → ∃ r ∈ m.data db, r.id = id ∧ r.version ≠ none ∧ ¬ DeletedNow (histOf (m.data db) id)

/-- **C128**, as it should be: after any steps, whatever is in the indices, `sync(resync=True)` succeeds, and afterwards queries find what
histories say that the steps may give the records. -/
def C128_full : Prop :=
  ∀ (E : ParseEnv), E.IgnoresOrder → E.ScalarHints → ∀ (U : Unicode), U.Sane → ∀ (maxDocs : Nat) (db : PyStr) (steps : List Step),
    OrderlySteps steps → committedOptionsOf db (afterSteps U db steps) ≠ [] → hasData db (afterSteps U db steps) = true →
    NoPunsAmong U (steps.flatMap Step.stream) → ∀ es : ES (Option ParsedData), LatestOk es →
    ∃ es' s, sync (realParser E) maxDocs db true (afterSteps U db steps) es = .ok es' ∧ PossibleHistories U db steps s ∧
      AnswersQueries E s (committedOptionsOf db (afterSteps U db steps)) es'

/-- **C128** (what holds): if all documents in the latest index are of records that exist now and have no uncommitted changes. Then also the
versions, the counts of changes and the listings of fields are right. -/
theorem C128_resync_partial (E : ParseEnv) (hE : E.IgnoresOrder) (hS : E.ScalarHints) (U : Unicode) (hU : U.Sane) (maxDocs : Nat)
    (db : PyStr) (steps : List Step) (ho : OrderlySteps steps) (hv : committedOptionsOf db (afterSteps U db steps) ≠ [])
    (hd : hasData db (afterSteps U db steps) = true) (hn : NoPunsAmong U (steps.flatMap Step.stream))
    (es : ES (Option ParsedData)) (hok : LatestOk es) (hx : LatestExists db (afterSteps U db steps) es) :
    ∃ es' s, sync (realParser E) maxDocs db true (afterSteps U db steps) es = .ok es' ∧ PossibleHistories U db steps s ∧
      AnswersAll E U (steps.flatMap Step.stream) s (committedOptionsOf db (afterSteps U db steps)) es' := by
  obtain ⟨es0, hi, s, h1, hs, hl, hm, h2, h3⟩ := setup_first_steps E U hU maxDocs db steps ho hv hn
  obtain ⟨es', es0', k1, k2, k3⟩ := C32_existing_partial (realParser E) maxDocs db _ es hm hok hd hx
  rw [h1] at k2; cases k2
  obtain ⟨es0', j1, j2⟩ := first_sync hm (realParser E) maxDocs
  obtain ⟨es'', j3, j4, _⟩ := resync_effect hm (realParser E) maxDocs hd hok j2
  rw [k1] at j3; cases j3
  exact ⟨es', s, k1, hs, answersAll_of_life hE hS hl hm j4 (indexes_same h3 j4 k3) (possible_from hs)⟩

/-- **C128** for `resync_arcs()`: if the latest index is as after a first sync, then whatever is in the archives, afterwards everything is right. -/
theorem C128_arcs (E : ParseEnv) (hE : E.IgnoresOrder) (hS : E.ScalarHints) (U : Unicode) (hU : U.Sane) (maxDocs : Nat)
    (db : PyStr) (steps : List Step) (ho : OrderlySteps steps) (hv : committedOptionsOf db (afterSteps U db steps) ≠ [])
    (hn : NoPunsAmong U (steps.flatMap Step.stream)) :
    ∃ es0, sync (realParser E) maxDocs db false (afterSteps U db steps) [] = .ok es0 ∧
      ∀ es : ES (Option ParsedData), LatestOk es → (∀ x, x ∈ es.docs .latest ↔ x ∈ es0.docs .latest) →
        ∃ es' s, resyncArcs (realParser E) maxDocs db (afterSteps U db steps) es = .ok es' ∧ PossibleHistories U db steps s ∧
          AnswersAll E U (steps.flatMap Step.stream) s (committedOptionsOf db (afterSteps U db steps)) es' := by
  obtain ⟨es0, hi, s, h1, hs, hl, hm, h2, h3⟩ := setup_first_steps E U hU maxDocs db steps ho hv hn
  refine ⟨es0, h1, fun es hok hlat => ?_⟩
  obtain ⟨es', es0', k1, k2, k3, k4⟩ := C33_resync_arcs (realParser E) maxDocs db _ es hm
  rw [h1] at k2; cases k2
  have hok' : LatestOk es' := resyncArcs_latestOk hm.nodup hok k1
  exact ⟨es', s, k1, hs, answersAll_of_life hE hS hl hm hok' (indexes_same h3 hok' ⟨fun x => by rw [k3, hlat], k4⟩) (possible_from hs)⟩

/-- **C128** after syncs that failed (C87): whatever several syncs into empty indices have written, in whatever order, when one of them has returned
then after `resync_arcs()` everything is right. -/
theorem C128_attempts (E : ParseEnv) (hE : E.IgnoresOrder) (hS : E.ScalarHints) (U : Unicode) (hU : U.Sane) (maxDocs : Nat)
    (db : PyStr) (steps : List Step) (ho : OrderlySteps steps) (hv : committedOptionsOf db (afterSteps U db steps) ≠ [])
    (hn : NoPunsAmong U (steps.flatMap Step.stream)) (attempts : List (Attempt (Option ParsedData)))
    (hof : ∀ a ∈ attempts, a.Of (realParser E) maxDocs db (afterSteps U db steps) []) (hret : ∃ a ∈ attempts, a.Returns)
    (written : List (BulkOp (Option ParsedData))) (hw : written.Perm (attempts.flatMap (fun a => a.state.written))) :
    ∃ es' s, resyncArcs (realParser E) maxDocs db (afterSteps U db steps) (ES.applyOps [] written) = .ok es' ∧ PossibleHistories U db steps s ∧
      AnswersAll E U (steps.flatMap Step.stream) s (committedOptionsOf db (afterSteps U db steps)) es' := by
  have hids := (crash_dbOk ho hv).nodup
  obtain ⟨es0, h1, h2⟩ := C128_arcs E hE hS U hU maxDocs db steps ho hv hn
  obtain ⟨es1, h3, h4, _⟩ := C87_found_partial (realParser E) maxDocs db _ [] hids latestOk_nil attempts hof hret written hw
  rw [h1] at h3; cases h3
  refine h2 _ (latestOk_nil.applyOps fun op hop => ?_) (fun x => h4.mem_iff)
  obtain ⟨b, hb, h⟩ := List.mem_flatMap.1 (hw.mem_iff.1 hop)
  obtain ⟨es0, hops⟩ := (hof b hb).ops
  exact (syncOps_latest hids hops).1 op (written_sub (hof b hb).size (hof b hb).run h)

/-- **C128** after later syncs that failed: there were calls with a sync after each of `parts`, under the conditions of C70, and then, after `more`,
several syncs, of which one has returned. Whatever they have written, in whatever order, after `resync_arcs()` everything is right. -/
theorem C128_later_partial (E : ParseEnv) (hE : E.IgnoresOrder) (hS : E.ScalarHints) (U : Unicode) (hU : U.Sane) (maxDocs : Nat) (db : PyStr)
    (first : List ApiCall) (parts : List (List ApiCall)) (more : List ApiCall) (ho : Orderly (first ++ (parts ++ [more]).flatten))
    (hv : ∃ v, IsVersion (afterCalls U db first) db v) (he : EachPart (NoUpdateDelete db) U db first (parts ++ [more]))
    (hp : ∀ m ∈ statesOf U db first (parts ++ [more]), NoPending db m)
    (hn : NoPunsAmong U ((first ++ (parts ++ [more]).flatten).flatMap ApiCall.stream)) :
    ∃ es, runSyncs (realParser E) maxDocs db [] (statesOf U db first parts) = .ok es ∧
      ∀ (attempts : List (Attempt (Option ParsedData))),
        (∀ a ∈ attempts, a.Of (realParser E) maxDocs db (afterCalls U db (first ++ (parts ++ [more]).flatten)) es) →
        (∃ a ∈ attempts, a.Returns) →
        ∀ written : List (BulkOp (Option ParsedData)), written.Perm (attempts.flatMap (fun a => a.state.written)) →
          ∃ es', resyncArcs (realParser E) maxDocs db (afterCalls U db (first ++ (parts ++ [more]).flatten)) (es.applyOps written) = .ok es' ∧
            AnswersAll E U ((first ++ (parts ++ [more]).flatten).flatMap ApiCall.stream) (ingested U db (first ++ (parts ++ [more]).flatten))
              (committedOptionsOf db (afterCalls U db (first ++ (parts ++ [more]).flatten))) es' := by
  have hms := life_dbOks (U := U) (db := db) (parts ++ [more]) first ho hv
  have e : first ++ parts.flatten ++ more = first ++ (parts ++ [more]).flatten := by simp
  rw [statesOf_snoc, e] at hms
  have hm := hms (afterCalls U db (first ++ (parts ++ [more]).flatten)) (by simp)
  obtain ⟨es, h1, hok⟩ := runSyncs_ok (realParser E) maxDocs (statesOf U db first parts) [] (fun m h => hms m (by simp [h])) latestOk_nil
  obtain ⟨es2, es0, k1, k2, k3, _⟩ := C31_parsed_partial E hE maxDocs U db first (parts ++ [more]) ho hv he hp hn
  have hv' : ∃ v, IsVersion (afterCalls U db (first ++ (parts ++ [more]).flatten)) db v := hm.isVersion
  obtain ⟨es0', hi, j1, hl, _, j2, j3⟩ := setup_first E U hU maxDocs db _ ho hv' hn
  rw [k2] at j1; cases j1
  refine ⟨es, h1, fun attempts hof hret written hw => ?_⟩
  obtain ⟨es1, g1, g2, _⟩ := C87_found_partial (realParser E) maxDocs db _ es hm.nodup hok attempts hof hret written hw
  have g3 := runSyncs_snoc h1 g1
  rw [statesOf_snoc, e, g3] at k1; cases k1
  obtain ⟨es', es0', f1, f2, f3, f4⟩ := C33_resync_arcs (realParser E) maxDocs db _ (es.applyOps written) hm
  rw [k2] at f2; cases f2
  have hok' : LatestOk es' := resyncArcs_latestOk hm.nodup (hok.applyOps fun op hop => by
    obtain ⟨b, hb, h⟩ := List.mem_flatMap.1 (hw.mem_iff.1 hop)
    obtain ⟨es0, hops⟩ := (hof b hb).ops
    exact (syncOps_latest hm.nodup hops).1 op (written_sub (hof b hb).size (hof b hb).run h)) f1
  exact ⟨es', f1, answersAll_of_life hE hS hl hm hok' (indexes_same j3 hok' ⟨fun x => by rw [f3, g2.mem_iff, k3.latest], f4⟩)
    (ingested_from U db _)⟩

/-- The indices of `a` at 1. -/
def exRepairBefore : ES (Option ParsedData) := exIndexed (exDelete.take 1)

set_option maxRecDepth 100000 in
/-- **C128 does not hold in full**: a record that was deleted after the last sync stays in the latest index (C32), so it is found with data that it
does not have. -/
theorem C128_refuted : ¬ C128_full := by
  intro h
  obtain ⟨es, s, h1, hs, h2⟩ := h exEnv' exEnv'_order exEnv'_scalar asciiU asciiU_sane 10 ['x'] (exDelete.map .call)
    ⟨by decide +kernel, fun c hc => by
      simp only [exDelete, List.map_cons, List.map_nil, List.mem_cons, List.not_mem_nil, or_false] at hc
      rcases hc with rfl | rfl <;> unfold NoSpan <;> decide⟩ (by decide +kernel) (by decide +kernel)
    (noPuns_of_flat (by decide +kernel) (by decide +kernel)) exRepairBefore ⟨by decide +kernel, by decide +kernel, by decide +kernel⟩
  have hs : s = ingested asciiU ['x'] exDelete := stepsSpec_calls exDelete Mongo.empty (by decide +kernel) hs
  subst hs
  obtain ⟨q, hq, h3⟩ := h2.asked (by decide +kernel) exQuery ['x'] (.number (.int 1)) trivial
  have hf : (match sync (realParser exEnv') 10 ['x'] true (afterSteps asciiU ['x'] (exDelete.map .call)) exRepairBefore with
    | .ok es => (match (Asked.number (.int 1)).query exQuery ['x'] with
      | .ok q => decide (['a'] ∈ foundIds (es.searchFor exQuery (.version 2) q)) | .error _ => false) | .error _ => false) = true := by
    decide +kernel
  rw [h1] at hf
  dsimp only at hf
  rw [hq] at hf
  obtain ⟨_, a, o, ⟨w, hw, hle, hnew⟩, _, p, x, _, g2, g3, _⟩ := ((h3 2).2 ['a']).1 (of_decide_eq_true hf)
  have e : (ingested asciiU ['x'] exDelete ['a']).committed = [(2, []), (1, exData ['a'] 1)] := by decide +kernel
  rw [e] at hw hnew
  have : a = [] := by
    have := hnew 2 [] (by simp) (by decide)
    simp only [List.mem_cons, Prod.mk.injEq, List.not_mem_nil, or_false] at hw
    rcases hw with ⟨_, rfl⟩ | ⟨rfl, rfl⟩
    · rfl
    · omega
  subst this
  cases p with
  | nil => cases g2; cases g3
  | cons c p => cases c <;> simp [getAt, aget] at g2

set_option maxRecDepth 100000 in
/-- The conditions of `C128_resync_partial` hold for the steps of C76, with a commit that dies, and the indices of an older sync of
another database with an `a`: afterwards `a` is found with 1 at version 1 and with 2 at version 2. -/
example : OrderlySteps exStops ∧ committedOptionsOf ['x'] (afterSteps asciiU ['x'] exStops) ≠ [] ∧
    hasData ['x'] (afterSteps asciiU ['x'] exStops) = true ∧ NoPunsAmong asciiU (exStops.flatMap Step.stream) ∧ LatestOk exRepairBefore ∧
    exRepairBefore.docs .latest ≠ [] ∧ LatestExists ['x'] (afterSteps asciiU ['x'] exStops) exRepairBefore ∧
    (match sync (realParser exEnv') 10 ['x'] true (afterSteps asciiU ['x'] exStops) exRepairBefore with
      | .ok es => (match (Asked.number (.int 1)).query exQuery ['x'], (Asked.number (.int 2)).query exQuery ['x'] with
        | .ok q1, .ok q2 => decide (['a'] ∈ foundIds (es.searchFor exQuery (.version 1) q1) ∧
            ['a'] ∉ foundIds (es.searchFor exQuery (.version 2) q1) ∧ foundIds (es.searchFor exQuery (.version 2) q2) = [['a']])
        | _, _ => false)
      | .error _ => false) = true := by
  refine ⟨exStops_orderly, by decide +kernel, by decide +kernel, noPuns_of_flat (by decide +kernel) (by decide +kernel),
    ⟨by decide +kernel, by decide +kernel, by decide +kernel⟩, by decide +kernel, fun id hid => ?_, by decide +kernel⟩
  have : (exRepairBefore.docs .latest).map Prod.fst = [some ['a']] := by decide +kernel
  rw [this, List.mem_singleton] at hid
  cases hid
  refine ⟨((afterSteps asciiU ['x'] exStops).data ['x']).head (by decide +kernel), by decide +kernel, by decide +kernel, by decide +kernel, ?_⟩
  rintro ⟨v, hv⟩
  have : ((histOf ((afterSteps asciiU ['x'] exStops).data ['x']) ['a']).head?.map (fun x => x.2.isEmpty)) = some false := by decide +kernel
  rw [hv] at this
  cases this

set_option maxRecDepth 100000 in
/-- For `resync_arcs()`: the indices of a first sync of the same steps without their archives. They come back: two documents. -/
example : (match sync (realParser exEnv') 10 ['x'] false (afterSteps asciiU ['x'] exStops) [] with
      | .ok es0 => (match resyncArcs (realParser exEnv') 10 ['x'] (afterSteps asciiU ['x'] exStops) es0.deleteArcs with
        | .ok es => decide (es0.archived.length = 2 ∧ es0.deleteArcs.archived.length = 0 ∧ es.archived.length = 2 ∧
            (akeys es0.deleteArcs).Nodup ∧ (es0.deleteArcs.docs .latest).length = 3)
        | .error _ => false)
      | .error _ => false) = true := by
  decide +kernel

/-- Two records, both changed. -/
def exRepairSteps : List Step :=
  [.call (.ingest none [exRec ['a'] 1, exRec ['b'] 5] true 1), .call (.ingest none [exRec ['a'] 2, exRec ['b'] 6] true 2)]

/-- A sync of them into an empty index, written with a schedule. -/
def exRepairAttempt (schedule : List BulkAction) : Option (Attempt (Option ParsedData)) :=
  match syncOps (realParser exEnv') 10 ['x'] false (afterSteps asciiU ['x'] exRepairSteps) [] with
  | .error _ => none
  | .ok (_, ops) => (writeOps BulkOp.isDelete ops exBulk schedule).map (fun s => ⟨[], ops, exBulk, schedule, s⟩)

set_option maxRecDepth 100000 in
/-- For `C128_attempts`: one sync fails after it has written a chunk and another one returns, so the archives hold a document twice. After `resync_arcs()`
they hold two documents. -/
example : OrderlySteps exRepairSteps ∧ NoPunsAmong asciiU (exRepairSteps.flatMap Step.stream) ∧
    (match exRepairAttempt [.main, .main, .get 0, .response 0 (.items [false, false]), .mainRaises], exRepairAttempt exOvertake with
      | some a, some b =>
        (match b.state.main with | .returned _ _ => true | _ => false) &&
        (match resyncArcs (realParser exEnv') 10 ['x'] (afterSteps asciiU ['x'] exRepairSteps)
            (ES.applyOps [] (a.state.written ++ b.state.written)) with
          | .ok es => decide ((ES.archived (ES.applyOps [] (a.state.written ++ b.state.written))).length = 3 ∧ es.archived.length = 2)
          | .error _ => false)
      | _, _ => false) = true := by
  refine ⟨⟨by decide +kernel, fun c hc => ?_⟩, noPuns_of_flat (by decide +kernel) (by decide +kernel), by decide +kernel⟩
  simp only [exRepairSteps, List.mem_cons, List.not_mem_nil, or_false] at hc
  rcases hc with rfl | rfl <;> unfold NoSpan <;> decide

/-- The same two changes, as calls after a first sync. -/
def exRepairMore : List ApiCall := [.ingest none [exRec ['a'] 2, exRec ['b'] 6] true 2]

/-- A sync after them, written with a schedule. -/
def exRepairLater (schedule : List BulkAction) : Option (Attempt (Option ParsedData)) :=
  match syncOps (realParser exEnv') 10 ['x'] false (afterCalls asciiU ['x'] (exCalls1 ++ exRepairMore)) (exIndexed exCalls1) with
  | .error _ => none
  | .ok (_, ops) => (writeOps BulkOp.isDelete ops exBulk schedule).map (fun s => ⟨exIndexed exCalls1, ops, exBulk, schedule, s⟩)

set_option maxRecDepth 100000 in
/-- For `C128_later_partial`: the conditions on the calls hold; of two syncs after `more` one fails when it has written a chunk and one returns, and
the archives hold a document twice until `resync_arcs()`. -/
example : EachPart (NoUpdateDelete ['x']) asciiU ['x'] exCalls1 ([] ++ [exRepairMore]) ∧
    (∀ m ∈ statesOf asciiU ['x'] exCalls1 ([] ++ [exRepairMore]), NoPending ['x'] m) ∧
    NoPunsAmong asciiU ((exCalls1 ++ ([] ++ [exRepairMore]).flatten).flatMap ApiCall.stream) ∧
    (match exRepairLater [.main, .main, .get 0, .response 0 (.items [false, false]), .mainRaises], exRepairLater exOvertake with
      | some a, some b =>
        (match b.state.main with | .returned _ _ => true | _ => false) &&
        (match resyncArcs (realParser exEnv') 10 ['x'] (afterCalls asciiU ['x'] (exCalls1 ++ exRepairMore))
            ((exIndexed exCalls1).applyOps (a.state.written ++ b.state.written)) with
          | .ok es => decide ((ES.archived ((exIndexed exCalls1).applyOps (a.state.written ++ b.state.written))).length = 3 ∧
              es.archived.length = 2)
          | .error _ => false)
      | _, _ => false) = true := by
  refine ⟨⟨?_, trivial⟩, ?_, noPuns_of_flat (by decide +kernel) (by decide +kernel), by decide +kernel⟩
  · intro t ht
    have : (exCalls1.filterMap ApiCall.clock?).getLast? = some 1 := by decide
    rw [this] at ht; cases ht
    exact noUpdateDelete_of_check (dbOk_of_check (by decide)) (by decide)
  · have : ∀ m ∈ statesOf asciiU ['x'] exCalls1 ([] ++ [exRepairMore]), ∀ r ∈ m.data ['x'], r.version ≠ none := by decide
    exact this

end Splitgill.Props
