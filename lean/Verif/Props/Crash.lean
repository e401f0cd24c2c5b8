import Verif.Proof.Crash
import Verif.Proof.EndToEnd3
import Verif.Props.EndToEnd
import Mathlib.Data.List.Induction
/-!
# C75, C76: databases whose calls may be stopped half way

`Step`s are calls, calls that are stopped at any of their writes, and releases of the lock (`Verif.Model.Crash`); what each may
do to the histories of the records is `Step.Spec` in `Verif.Spec.Crash`.
-/

namespace Splitgill.Props
open Splitgill

/-! ## C75 -/

/-- **C75**: after any steps, the states of all records are histories that the steps may give them. -/
theorem C75_histories (U : Unicode) (db : PyStr) (steps : List Step) (h : OrderlySteps steps) :
    ∃ s, PossibleHistories U db steps s ∧ ∀ id, ∃ items, history ((afterSteps U db steps).data db) id = .ok items ∧
      SameStates items (s id).states := by
  obtain ⟨s, h1, h2⟩ := crash_life (K := fun _ => plainClass) (U := U) (db := db) (fun c _ => fits_plain U c.stream) h
  refine ⟨s, h1, fun id => ?_⟩
  obtain ⟨items, h3, h4⟩ := Rep.history h2.rep id
  exact ⟨items, h3, h4.imp (fun _ _ h => ⟨h.1, h.2.sim⟩)⟩

/-- What has been committed at some time stays so, whatever is stopped later; the versions of later commits are
greater than the time of the last commit before. -/
theorem C75_committed_stays (U : Unicode) (db : PyStr) (a b : List Step) (h : OrderlySteps (a ++ b)) (id : PyStr) :
    ∃ new, SameVersions (histOf ((afterSteps U db (a ++ b)).data db) id) (new ++ histOf ((afterSteps U db a).data db) id) ∧
      ∀ vd ∈ new, ∀ t, (a.filterMap Step.clock?).getLast? = some t → t < vd.1 := by
  obtain ⟨s, _, hs⟩ := crash_life (K := fun _ => plainClass) (U := U) (db := db) (fun c _ => fits_plain U c.stream) h.left
  obtain ⟨s', _, h1, h2⟩ := LifeInv.steps (U := U) b hs (fun c hc => by
    rw [lastStepClock_eq, Option.or_none]
    cases hb : (a.filterMap Step.clock?).getLast? with
    | none => rfl
    | some t =>
      have hcl := h.clock
      rw [List.filterMap_append, List.pairwise_append] at hcl
      simpa [gtAfter] using hcl.2.2 t (List.mem_of_getLast? hb) c hc) (fun c _ => fits_plain U c.stream) h.right
  rw [← afterSteps_append] at h1 h2
  obtain ⟨new, hn⟩ := h2.suffix id
  have e1 := h1.hist id
  have e2 := hs.hist id
  have hdesc := (h1.rep.rep id).desc
  rw [← hn] at e1 hdesc
  refine ⟨new, ?_, fun vd hvd t ht => ?_⟩
  · obtain ⟨l1, l2, hl1, hl2, e3⟩ : ∃ l1 l2, VersEq plainClass l1 new ∧ VersEq plainClass l2 (s id).committed ∧
        histOf ((afterSteps U db (a ++ b)).data db) id = l1 ++ l2 := by
      generalize histOf ((afterSteps U db (a ++ b)).data db) id = l at e1
      clear hn hdesc
      induction new generalizing l with
      | nil => exact ⟨[], l, .nil, e1, rfl⟩
      | cons x new ih =>
        cases e1 with
        | cons hx hr =>
          obtain ⟨l1, l2, g1, g2, g3⟩ := ih _ hr
          exact ⟨_ :: l1, l2, .cons hx g1, g2, by rw [g3]; rfl⟩
    rw [e3]
    have e4 : VersEq plainClass l2 (histOf ((afterSteps U db a).data db) id) := hl2.trans e2.symm
    have e5 : List.Forall₂ (fun (x y : Int × Dict) => x.1 = y.1 ∧ DEq plainClass x.2 y.2) (l1 ++ l2)
        (new ++ histOf ((afterSteps U db a).data db) id) := List.rel_append hl1 e4
    exact e5.imp (fun _ _ h => ⟨h.1, h.2.sim⟩)
  · rcases h2.new id vd (by rw [← hn]; exact List.mem_append_left _ hvd) with hold | hgt
    · rw [List.map_append, List.pairwise_append] at hdesc
      have := hdesc.2.2 vd.1 (List.mem_map_of_mem hvd) vd.1 (List.mem_map_of_mem hold)
      omega
    · rw [lastStepClock_eq, Option.or_none, ht] at hgt
      simpa [gtAfter] using hgt

/-- After any steps a call returns, or raises `AlreadyLocked`, the latter only if the lock is held. -/
theorem C75_calls_return (U : Unicode) (db : PyStr) (before : List Step) (c : ApiCall) (h : OrderlySteps (before ++ [.call c])) :
    (∃ ret, (c.run U db (afterSteps U db before)).1 = .ok ret) ∨
    ((c.run U db (afterSteps U db before)).1 = .error .alreadyLocked ∧ isLocked db (afterSteps U db before) = true) := by
  obtain ⟨s, _, hl⟩ := crash_life (K := fun _ => plainClass) (U := U) (db := db) (fun c _ => fits_plain U c.stream) h.left
  obtain ⟨ret, hr, _⟩ := hl.call (U := U) c (fun t ht => by
    rw [lastStepClock_eq, Option.or_none]
    cases hb : (before.filterMap Step.clock?).getLast? with
    | none => rfl
    | some t' =>
      have hcl := h.clock
      rw [List.filterMap_append, List.pairwise_append] at hcl
      have := hcl.2.2 t' (List.mem_of_getLast? hb) t (by simp [List.filterMap_cons, Step.clock?, ht])
      simpa [gtAfter] using this) (fits_plain U c.stream) (h.noSpan (.call c) (by simp))
  rcases hr with hr | ⟨hr, _, hk⟩
  · exact .inl ⟨ret, hr⟩
  · exact .inr ⟨hr, by simp [isLocked, hk]⟩

/-- The lock is held only if a process has died in a commit and nobody has released the lock since. -/
theorem C75_locked (U : Unicode) (db : PyStr) (steps : List Step) (h : OrderlySteps steps)
    (hk : isLocked db (afterSteps U db steps) = true) :
    ∃ before clock picks after, steps = before ++ .commitStops clock picks true :: after ∧ Step.release ∉ after := by
  induction steps using List.reverseRecOn with
  | nil => cases hk
  | append_singleton steps st ih =>
    obtain ⟨s, _, hl⟩ := crash_life (K := fun _ => plainClass) (U := U) (db := db) (fun c _ => fits_plain U c.stream) h.left
    have hrun : afterSteps U db (steps ++ [st]) = st.run U db (afterSteps U db steps) := by rw [afterSteps_append]; rfl
    rw [hrun] at hk
    have keep : st ≠ .release → isLocked db (afterSteps U db steps) = true →
        ∃ before clock picks after, steps ++ [st] = before ++ .commitStops clock picks true :: after ∧ Step.release ∉ after := by
      intro hne hk
      obtain ⟨b, c, p, a, e, hr⟩ := ih h.left hk
      exact ⟨b, c, p, a ++ [st], by rw [e]; simp, by simp [hr, Ne.symm hne]⟩
    cases st with
    | call c =>
      refine keep (by simp) ?_
      have hk' : db ∈ (c.run U db (afterSteps U db steps)).2.locks := of_decide_eq_true hk
      rw [call_locks] at hk'
      exact decide_eq_true hk'
    | ingestStops mf rs n =>
      refine keep (by simp) ?_
      simp only [Step.run] at hk
      split at hk <;> exact hk
    | rollbackStops n =>
      refine keep (by simp) ?_
      simp only [Step.run] at hk
      split at hk <;> exact hk
    | optionsStop d => exact keep (by simp) hk
    | release =>
      have hk' : db ∈ (afterSteps U db steps).locks.erase db := of_decide_eq_true hk
      rcases hl.locks with e | e <;> rw [e] at hk' <;> simp at hk'
    | commitStops clock picks died =>
      cases died with
      | true => exact ⟨steps, clock, picks, [], rfl, by simp⟩
      | false =>
        refine keep (by simp) ?_
        rcases hl.locks with e | e
        · have hnl : db ∉ (afterSteps U db steps).locks := by rw [e]; simp
          have hmid := (Mid.run hnl (picks.map (fun k => (clock, k))) (Mid.start db [clock] (afterSteps U db steps)) (by simp)).locks
          have hr : (Step.commitStops clock picks false).run U db (afterSteps U db steps) =
              if (commitRun db (afterSteps U db steps, .acquire) (picks.map (fun k => (clock, k)))).2.inside
                then Splitgill.release db (commitRun db (afterSteps U db steps, .acquire) (picks.map (fun k => (clock, k)))).1
                else (commitRun db (afterSteps U db steps, .acquire) (picks.map (fun k => (clock, k)))).1 := rfl
          rw [hr] at hk
          rw [e] at hmid
          split at hk
          · rename_i hh
            rw [if_pos hh] at hmid
            simp [isLocked, Splitgill.release, hmid] at hk
          · rename_i hh
            rw [if_neg hh] at hmid
            simp [isLocked, hmid] at hk
        · simp [isLocked, e]

/-! ## C76 -/

/-- **C76**, as it should be: after any steps of which one committed something, a sync succeeds. -/
def C76_full : Prop :=
  ∀ (P : Type) (X : Parser P) (U : Unicode) (maxDocs : Nat) (db : PyStr) (steps : List Step), OrderlySteps steps →
    (∃ v, IsVersion (afterSteps U db steps) db v) → ∃ es, sync X maxDocs db false (afterSteps U db steps) [] = .ok es

/-- The first commit stops between the data and the options; its process has died. -/
def exStopped : List Step :=
  [.call (.ingest none [exRec ['a'] 1, exRec ['b'] 1] false 0), .commitStops 1 (List.replicate 10 0) true]

theorem exStopped_orderly : OrderlySteps exStopped := by
  refine ⟨by decide, ?_⟩
  intro c hc
  simp only [exStopped, List.mem_cons, List.not_mem_nil, or_false] at hc
  rcases hc with rfl | rfl <;> unfold NoSpan <;> decide

set_option maxRecDepth 100000 in
/-- **C76 does not hold in full**: the data has a version, the options have none, and `min()` of no options raises. -/
theorem C76_refuted : ¬ C76_full := by
  intro h
  obtain ⟨es, h1⟩ := h _ exParser asciiU 10 ['x'] exStopped exStopped_orderly
    ⟨1, .inl ⟨((afterSteps asciiU ['x'] exStopped).data ['x']).head (by decide), by decide, by decide⟩⟩
  have e : (match sync exParser 10 ['x'] false (afterSteps asciiU ['x'] exStopped) [] with | .ok _ => true | .error _ => false) = false := by
    decide
  rw [h1] at e; cases e

/-- It stays so: after a release of the lock and `rollback_options()`, `commit()` has nothing to do and `sync()` still raises. -/
example : (commit ['x'] 2 (afterSteps asciiU ['x'] (exStopped ++ [.release, .call .rollbackOptions]))).1 = .ok none ∧
    (match sync exParser 10 ['x'] false (afterSteps asciiU ['x'] (exStopped ++ [.release, .call .rollbackOptions, .call (.commit 2)])) [] with
      | .ok _ => true | .error _ => false) = false := by
  constructor <;> decide

/-- **C76** (what holds) after one sync: if there are committed options, the sync succeeds, and afterwards `search(v)` finds for the
records that exist at `v` and have no uncommitted data what remains of their data as of `v` (C47), and nothing else; the histories are
ones that the steps may give. Missing: databases without committed options (`C76_refuted`), and as in C70. -/
theorem C76_first_sync_partial (E : ParseEnv) (hE : E.IgnoresOrder) (hS : E.ScalarHints) (U : Unicode) (hU : U.Sane) (maxDocs : Nat)
    (db : PyStr) (steps : List Step) (ho : OrderlySteps steps) (hv : committedOptionsOf db (afterSteps U db steps) ≠ []) :
    ∃ es s, sync (realParser E) maxDocs db false (afterSteps U db steps) [] = .ok es ∧ PossibleHistories U db steps s ∧ ∀ v id,
      (∀ a, AsOf (s id).committed v a → a ≠ [] → (s id).pending = none →
        ∃ d p, foundFor es (.version v) id = [d] ∧ d.parsed = some p ∧
          simEq (.dict (rebuildData p.parsed)) (.dict (remainsDict a)) = true ∧
          (NoPunsAmong U (steps.flatMap Step.stream) →
            strictEq (.dict (rebuildData p.parsed)) (.dict (remainsDict a)) = true)) ∧
      (¬ Alive (s id).committed v ∨ (s id).pending ≠ none → foundFor es (.version v) id = []) := by
  have hm := crash_dbOk ho hv
  obtain ⟨es, h1, h2, h3⟩ := C30_first_sync (realParser E) maxDocs db _ hm
  by_cases hn : NoPunsAmong U (steps.flatMap Step.stream)
  · obtain ⟨s, hs, hl⟩ := crash_life (U := U) (db := db)
      (fun c hc => fits_named_strict hU hn (l := c.stream) (fun r hr => List.mem_flatMap.2 ⟨c, hc, hr⟩)) ho
    exact ⟨es, s, h1, hs, fun v id => ⟨fun a ha hne hp => hl.finds_strict hE hS hm h2 h3 ha hne hp _, hl.finds_nothing hm h2 h3⟩⟩
  · obtain ⟨s, hs, hl⟩ := crash_life (U := U) (db := db) (fun c _ => fits_named_plain hU c.stream) ho
    refine ⟨es, s, h1, hs, fun v id => ⟨fun a ha hne hp => ?_, hl.finds_nothing hm h2 h3⟩⟩
    obtain ⟨d, p, g1, g2, g3, _⟩ := hl.finds_plain hE hS hm h2 h3 ha hne hp
    exact ⟨d, p, g1, g2, g3, fun h => absurd h hn⟩

/-- **C76** (what holds) after any steps and syncs between them, under the conditions of `C70_syncs_partial`. Missing: the
other cases, see there. -/
theorem C76_syncs_partial (E : ParseEnv) (hE : E.IgnoresOrder) (hS : E.ScalarHints) (U : Unicode) (hU : U.Sane) (maxDocs : Nat)
    (db : PyStr) (first : List Step) (parts : List (List Step)) (ho : OrderlySteps (first ++ parts.flatten))
    (hv : committedOptionsOf db (afterSteps U db first) ≠ []) (he : EachStepPart (NoUpdateDelete db) U db first parts)
    (hp : ∀ m ∈ stepStates U db first parts, NoPending db m)
    (hn : NoPunsAmong U ((first ++ parts.flatten).flatMap Step.stream)) :
    ∃ es s, runSyncs (realParser E) maxDocs db [] (stepStates U db first parts) = .ok es ∧
      PossibleHistories U db (first ++ parts.flatten) s ∧ ∀ v id,
      (∀ a, AsOf (s id).committed v a → a ≠ [] →
        ∃ d p, foundFor es (.version v) id = [d] ∧ d.parsed = some p ∧
          strictEq (.dict (rebuildData p.parsed)) (.dict (remainsDict a)) = true) ∧
      (¬ Alive (s id).committed v → foundFor es (.version v) id = []) := by
  have hR := (realParser_respects (E := E) hE (placesOf U _ hn)).named
  have hq : ∀ c ∈ first ++ parts.flatten, Fits (fun id => (strictClass (placesOf U _ hn id)).named) U c.stream := fun c hc =>
    fits_named_strict hU hn (fun r hr => List.mem_flatMap.2 ⟨c, hc, hr⟩)
  obtain ⟨ms, hms⟩ := stepStates_getLast U db parts first
  have ht := crash_timeline hR parts first hq ho hv he
  have hm := ht.dbOk _ (by rw [hms]; simp : afterSteps U db (first ++ parts.flatten) ∈ stepStates U db first parts)
  obtain ⟨s, hs, hl⟩ := crash_life hq ho (db := db)
  rw [hms] at ht hp
  have hpl := hp (afterSteps U db (first ++ parts.flatten)) (by simp)
  obtain ⟨es, es0, h1, _, _, h2, h3⟩ := C31_incremental_partial (realParser E) maxDocs db ms _ ht hp
  rw [← filter_noPending hpl] at h3
  rw [hms]
  refine ⟨es, s, h1, hs, fun v id => ⟨fun a ha hne => ?_, fun hna => hl.finds_nothing hm h2 h3 (.inl hna)⟩⟩
  obtain ⟨d, p, g1, g2, _, g4⟩ := hl.finds_strict hE hS hm h2 h3 ha hne (hl.noPending hpl id) True
  exact ⟨d, p, g1, g2, g4 trivial⟩

/-- **C35** for databases whose calls may be stopped. Missing: see `C35_refuted` and `C76_refuted`. -/
theorem C35_stopped_partial {P : Type} (X : Parser P) (hX : X.Respects) (maxDocs : Nat) (U : Unicode) (db : PyStr)
    (first : List Step) (parts : List (List Step)) (ho : OrderlySteps (first ++ parts.flatten))
    (hv : committedOptionsOf db (afterSteps U db first) ≠ [])
    (he : EachStepPart (fun t m => NoUpdateDelete db t m ∧ PendingOld db (some t) m) U db first parts)
    (hp : PendingOld db none (afterSteps U db first)) :
    ∃ es, runSyncs X maxDocs db [] (stepStates U db first parts) = .ok es ∧ LatestOk es ∧
      IndexesRecords X db (afterSteps U db (first ++ parts.flatten)) ((afterSteps U db (first ++ parts.flatten)).data db) es := by
  obtain ⟨ms, hms⟩ := stepStates_getLast U db parts first
  have ht := crash_timeline hX.plain parts first (fun c _ => fits_plain U c.stream) ho hv he
  have hs : ∃ l, stepStates U db first parts = afterSteps U db first :: l := by cases parts <;> exact ⟨_, rfl⟩
  obtain ⟨l, hl⟩ := hs
  have hlast : (afterSteps U db first :: l).getLast (by simp) = afterSteps U db (first ++ parts.flatten) := by
    have : (stepStates U db first parts).getLast (by rw [hl]; simp) = afterSteps U db (first ++ parts.flatten) := by
      simp only [hms, List.getLast_append_singleton]
    rw [← this]; simp only [hl]
  rw [hl] at ht ⊢
  have := C35_pending_partial X maxDocs db _ _ ht hp
  rwa [hlast] at this

/-- After any steps, releasing the lock and committing make the database whole again, if there are options or uncommitted data:
there are committed options and nothing is uncommitted. -/
theorem C76_recovery (U : Unicode) (db : PyStr) (steps : List Step) (clock : Int)
    (ho : OrderlySteps (steps ++ [.release, .call (.commit clock)]))
    (hx : (afterSteps U db steps).options ≠ [] ∨ PendingData (afterSteps U db steps) db) :
    let m := afterSteps U db (steps ++ [.release, .call (.commit clock)])
    isLocked db m = false ∧ committedOptionsOf db m ≠ [] ∧ NoPending db m ∧ ¬ PendingOptions m db := by
  intro m
  obtain ⟨s, _, hl⟩ := crash_life (K := fun _ => plainClass) (U := U) (db := db) (fun c _ => fits_plain U c.stream) ho.left
  have hfree : (Splitgill.release db (afterSteps U db steps)).locks = [] := by
    simp only [Splitgill.release]
    rcases hl.locks with e | e <;> rw [e] <;> simp
  have hm : m = (commit db clock (Splitgill.release db (afterSteps U db steps))).2 := by
    simp only [m, afterSteps_append]; rfl
  have hk : isLocked db m = false := by rw [hm, isLocked, commit_locks, hfree]; simp
  have hnl : db ∉ (Splitgill.release db (afterSteps U db steps)).locks := by rw [hfree]; simp
  rw [commit_eq hnl] at hm
  have honly : OnlyOptions db (Splitgill.release db (afterSteps U db steps)).options := hl.only
  obtain ⟨s', _, hl'⟩ := crash_life (K := fun _ => plainClass) (U := U) (db := db) (fun c _ => fits_plain U c.stream) ho
  refine ⟨hk, ?_⟩
  have hopt : (∃ d ∈ m.options, d.version ≠ none) → committedOptionsOf db m ≠ [] := fun h => (hl'.dbOk h).options.nonempty
  by_cases hp : (hasUncommittedData ((Splitgill.release db (afterSteps U db steps)).data db) ||
      hasUncommittedOptions (Splitgill.release db (afterSteps U db steps))) = true
  · rw [if_pos hp] at hm
    have hdata : m.data db = commitColl clock ((Splitgill.release db (afterSteps U db steps)).data db) := by
      rw [hm]; dsimp only; rw [setData_data]
    have hopts : m.options = commitOptions clock (withDefaults db (Splitgill.release db (afterSteps U db steps))) := by rw [hm]
    refine ⟨hopt ?_, ?_, ?_⟩
    · rw [hopts]
      have hne : withDefaults db (Splitgill.release db (afterSteps U db steps)) ≠ [] := by
        unfold withDefaults
        split
        · rename_i ho
          intro he
          simp [hasOptions, hasUncommittedOptions, he] at ho
        · simp
      obtain ⟨d, hd⟩ := List.exists_mem_of_ne_nil
        (commitOptions clock (withDefaults db (Splitgill.release db (afterSteps U db steps)))) (by simpa [commitOptions] using hne)
      exact ⟨d, hd, commitOptions_clean _ _ d hd⟩
    · intro r hr
      rw [hdata] at hr
      exact commitColl_clean _ _ r hr
    · rintro ⟨d, hd, _, hv⟩
      rw [hopts] at hd
      exact commitOptions_clean _ _ d hd hv
  · rw [if_neg hp] at hm
    simp only [Bool.or_eq_true, not_or] at hp
    have hd : ¬ PendingData (Splitgill.release db (afterSteps U db steps)) db := fun h => hp.1 (hasUncommittedData_iff.2 h)
    have ho' : ¬ ∃ d ∈ (Splitgill.release db (afterSteps U db steps)).options, d.version = none :=
      fun h => hp.2 (hasUncommittedOptions_iff.2 h)
    have hm : m = Splitgill.release db (afterSteps U db steps) := hm
    refine ⟨hopt ?_, ?_, ?_⟩
    · rw [hm]
      have hne : (afterSteps U db steps).options ≠ [] := by
        rcases hx with hx | hx
        · exact hx
        · exact absurd hx hd
      obtain ⟨d, hdm⟩ := List.exists_mem_of_ne_nil _ hne
      exact ⟨d, hdm, fun e => ho' ⟨d, hdm, e⟩⟩
    · rw [hm]
      intro r hr e
      exact hd ⟨r, hr, e⟩
    · rw [hm]
      rintro ⟨d, hdm, _, e⟩
      exact ho' ⟨d, hdm, e⟩

/-! ## Examples -/

/-- A commit of a change of `a` and a new record `c` that dies after the first of them; then an ingest that stops, a release, and
another commit. -/
def exStops : List Step :=
  [.call (.ingest none [exRec ['a'] 1, exRec ['b'] 1] true 1), .call (.ingest none [exRec ['a'] 2, exRec ['c'] 1] false 1),
    .commitStops 2 (List.replicate 5 0) true, .call (.commit 3), .ingestStops none [exRec ['b'] 2, exRec ['d'] 1] 1, .release,
    .call (.commit 4)]

theorem exStops_orderly : OrderlySteps exStops := by
  refine ⟨by decide, ?_⟩
  intro c hc
  simp only [exStops, List.mem_cons, List.not_mem_nil, or_false] at hc
  rcases hc with rfl | rfl | rfl | rfl | rfl | rfl | rfl <;> unfold NoSpan <;> decide

set_option maxRecDepth 100000 in
/-- `a` has been committed by the commit that died and `c` by the last one; the one in between raised; `d` is not there. -/
example : OrderlySteps exStops ∧ committedOptionsOf ['x'] (afterSteps asciiU ['x'] exStops) ≠ [] ∧
    isLocked ['x'] (afterSteps asciiU ['x'] (exStops.take 5)) = true ∧
    (commit ['x'] 3 (afterSteps asciiU ['x'] (exStops.take 3))).1 = .error .alreadyLocked ∧
    (histOf ((afterSteps asciiU ['x'] exStops).data ['x']) ['a']).map Prod.fst = [2, 1] ∧
    (histOf ((afterSteps asciiU ['x'] exStops).data ['x']) ['b']).map Prod.fst = [4, 1] ∧
    (histOf ((afterSteps asciiU ['x'] exStops).data ['x']) ['c']).map Prod.fst = [4] ∧
    (histOf ((afterSteps asciiU ['x'] exStops).data ['x']) ['d']).map Prod.fst = [] ∧
    exEnv'.IgnoresOrder ∧ exEnv'.ScalarHints ∧ asciiU.Sane ∧ NoPunsAmong asciiU (exStops.flatMap Step.stream) :=
  ⟨exStops_orderly, by decide +kernel, by decide +kernel, by decide +kernel, by decide +kernel, by decide +kernel, by decide +kernel,
    by decide +kernel, exEnv'_order, exEnv'_scalar, asciiU_sane, noPuns_of_flat (by decide +kernel) (by decide +kernel)⟩

set_option maxRecDepth 100000 in
/-- The same with a sync after the first call and one at the end: the conditions of `C76_syncs_partial` and `C35_stopped_partial`. -/
example : OrderlySteps (exStops.take 1 ++ [exStops.drop 1].flatten) ∧
    committedOptionsOf ['x'] (afterSteps asciiU ['x'] (exStops.take 1)) ≠ [] ∧
    EachStepPart (fun t m => NoUpdateDelete ['x'] t m ∧ PendingOld ['x'] (some t) m) asciiU ['x'] (exStops.take 1) [exStops.drop 1] ∧
    (∀ m ∈ stepStates asciiU ['x'] (exStops.take 1) [exStops.drop 1], NoPending ['x'] m) ∧
    (match runSyncs (realParser exEnv') 10 ['x'] [] (stepStates asciiU ['x'] (exStops.take 1) [exStops.drop 1]) with
      | .ok es => decide ((foundFor es (.version 2) ['a']).map (fun d => d.parsed.map (fun p => rebuildData p.parsed)) =
          [some [("_id".toList, .str ['a']), (['x'], .int 2)]] ∧ (foundFor es (.version 2) ['c']).length = 0 ∧
          (foundFor es (.version 4) ['c']).length = 1)
      | .error _ => false) = true := by
  have hp : ∀ m ∈ stepStates asciiU ['x'] (exStops.take 1) [exStops.drop 1], ∀ r ∈ m.data ['x'], r.version ≠ none := by decide +kernel
  refine ⟨exStops_orderly, by decide +kernel, ⟨?_, trivial⟩, hp, by decide +kernel⟩
  intro t ht
  have : ((exStops.take 1).filterMap Step.clock?).getLast? = some 1 := by decide
  rw [this] at ht; cases ht
  refine ⟨noUpdateDelete_of_check (dbOk_of_check (by decide +kernel)) (by decide +kernel), ?_⟩
  intro r hr hv
  exact absurd hv (hp (afterSteps asciiU ['x'] (exStops.take 1 ++ exStops.drop 1)) (by simp [stepStates]) r hr)

/-- The stopped first commit meets the conditions of `C76_recovery`, and after it the sync succeeds. -/
example : OrderlySteps (exStopped ++ [.release, .call (.commit 2)]) ∧ (afterSteps asciiU ['x'] exStopped).options ≠ [] ∧
    (match sync exParser 10 ['x'] false (afterSteps asciiU ['x'] (exStopped ++ [.release, .call (.commit 2)])) [] with
      | .ok es => decide ((foundFor es (.version 1) ['a']).length = 1) | .error _ => false) = true := by
  refine ⟨⟨by decide, ?_⟩, by decide +kernel, by decide +kernel⟩
  intro c hc
  simp only [exStopped, List.cons_append, List.nil_append, List.mem_cons, List.not_mem_nil, or_false] at hc
  rcases hc with rfl | rfl | rfl | rfl <;> unfold NoSpan <;> decide

end Splitgill.Props
