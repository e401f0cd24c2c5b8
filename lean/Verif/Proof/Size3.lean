import Verif.Proof.Size2
import Verif.Spec.Size
/-!
# Calls that are refused for the size of a document are calls that are stopped
-/

namespace Splitgill

/-- The uncommitted documents. -/
def pendCount (c : Coll) : Nat := (c.filter (fun d => d.version.isNone)).length

/-- The documents that `update_many` takes one after the other, so that it changes those with `p`. -/
def picksFor (p : MongoRecord → Bool) : Nat → Coll → List Nat
  | _, [] => []
  | k, d :: c => if d.version.isNone then (if p d then k :: picksFor p k c else picksFor p (k + 1) c) else picksFor p k c

theorem commitNth_append (v : Int) (j : Nat) (c : Coll) : ∀ ds : Coll, commitNth v (pendCount ds + j) (ds ++ c) = ds ++ commitNth v j c
  | [] => by rw [pendCount, List.filter_nil, List.length_nil, Nat.zero_add]; rfl
  | d :: ds => by
    have ih := commitNth_append v j c ds
    rw [List.cons_append, List.cons_append, commitNth.eq_def]
    cases hv : d.version with
    | some w =>
      have e : pendCount (d :: ds) = pendCount ds := by rw [pendCount, List.filter_cons_of_neg (by simp [hv]), ← pendCount]
      simp only [hv, Option.isNone_some, Bool.false_eq_true, if_false, e, ih]
    | none =>
      have e : pendCount (d :: ds) + j = (pendCount ds + j) + 1 := by
        rw [pendCount, List.filter_cons_of_pos (by simp [hv]), List.length_cons, ← pendCount]; omega
      simp only [hv, Option.isNone_none, if_true, e, ih]

theorem picksFor_spec (v : Int) (p : MongoRecord → Bool) : ∀ (c ds : Coll),
    (picksFor p (pendCount ds) c).foldl (fun c k => commitNth v k c) (ds ++ c) =
      ds ++ c.map (fun d => if d.version.isNone && p d then { d with version := some v } else d)
  | [], ds => by rw [picksFor]; rfl
  | d :: c, ds => by
    rw [picksFor, List.map_cons]
    cases hv : d.version with
    | some w =>
      have ih := picksFor_spec v p c (ds ++ [d])
      have e : pendCount (ds ++ [d]) = pendCount ds := by
        rw [pendCount, List.filter_append, List.filter_cons_of_neg (by simp [hv]), List.filter_nil, List.append_nil, ← pendCount]
      rw [e, List.append_assoc, List.append_assoc] at ih
      simp only [Option.isNone_some, Bool.false_eq_true, if_false, Bool.false_and]
      exact ih
    | none =>
      simp only [Option.isNone_none, if_true, Bool.true_and]
      by_cases hp : p d = true
      · rw [if_pos hp, if_pos hp, List.foldl_cons]
        have h1 := commitNth_append v 0 (d :: c) ds
        rw [Nat.add_zero] at h1
        have h2 : commitNth v 0 (d :: c) = { d with version := some v } :: c := by
          rw [commitNth]; simp only [hv, Option.isNone_none, if_true]
        rw [h1, h2]
        have ih := picksFor_spec v p c (ds ++ [{ d with version := some v }])
        have e : pendCount (ds ++ [{ d with version := some v }]) = pendCount ds := by
          rw [pendCount, List.filter_append, List.filter_cons_of_neg (by simp), List.filter_nil, List.append_nil, ← pendCount]
        rw [e, List.append_assoc, List.append_assoc] at ih
        exact ih
      · rw [if_neg hp, if_neg hp]
        have ih := picksFor_spec v p c (ds ++ [d])
        have e : pendCount (ds ++ [d]) = pendCount ds + 1 := by
          rw [pendCount, List.filter_append, List.filter_cons_of_pos (by simp [hv]), List.filter_nil, List.length_append, ← pendCount]; rfl
        rw [e, List.append_assoc, List.append_assoc] at ih
        exact ih

theorem commitNth_pending {v : Int} : ∀ {k : Nat} {c : Coll}, hasUncommittedData (commitNth v k c) = true → hasUncommittedData c = true
  | _, [], h => h
  | k, d :: c, h => by
    rw [commitNth.eq_def] at h
    simp only [hasUncommittedData, List.any_cons, Bool.or_eq_true] at h ⊢
    cases hv : d.version with
    | none => exact .inl rfl
    | some w =>
      simp only [hv, Option.isNone_some, Bool.false_eq_true, if_false, List.any_cons, Bool.false_or, false_or] at h ⊢
      exact commitNth_pending h

theorem commitRun_data {db : PyStr} {clock v : Int} {m : Mongo} : ∀ {picks : List Nat} {c : Coll},
    hasUncommittedData (picks.foldl (fun c k => commitNth v k c) c) = true →
    commitRun db (m.setData db c, .data v) (picks.map (fun k => (clock, k))) = (m.setData db (picks.foldl (fun c k => commitNth v k c) c), .data v)
  | [], c, _ => rfl
  | k :: picks, c, h => by
    have hc : hasUncommittedData c = true := by
      clear * - h
      rw [List.foldl_cons] at h
      have : ∀ (picks : List Nat) (c : Coll), hasUncommittedData (picks.foldl (fun c k => commitNth v k c) c) = true → hasUncommittedData c = true := by
        intro picks
        induction picks with
        | nil => exact fun _ h => h
        | cons k picks ih => exact fun c h => commitNth_pending (ih _ h)
      exact commitNth_pending (this picks _ h)
    rw [List.map_cons, commitRun_cons, commitStep]
    dsimp only
    rw [setData_data, if_pos hc, setData_setData]
    exact commitRun_data h

theorem commitRun_append (db : PyStr) (s : Mongo × Pc) (a b : List (Int × Nat)) : commitRun db s (a ++ b) = commitRun db (commitRun db s a) b := by
  rw [commitRun, commitRun, commitRun, List.foldl_append]

/-- A commit comes to the point where it commits data. -/
theorem commitRun_start {db : PyStr} {clock : Int} {m : Mongo} (hl : db ∉ m.locks) (hu : hasUncommittedData (m.data db) = true) :
    ∃ n, commitRun db (m, .acquire) ((List.replicate n 0).map (fun k => (clock, k))) =
      ({ m with options := withDefaults db m, locks := m.locks ++ [db] }, .data clock) := by
  have hd := defaults_eq (m := { m with locks := m.locks ++ [db] }) (db := db)
  have e0 : withDefaults db { m with locks := m.locks ++ [db] } = withDefaults db m := rfl
  rw [e0] at hd
  have hl' : acquire db m = (true, { m with locks := m.locks ++ [db] }) := by rw [acquire, if_neg hl]
  by_cases h1 : hasOptions m = true
  · have h1' : hasOptions { m with locks := m.locks ++ [db] } = true := h1
    refine ⟨4, ?_⟩
    simp only [h1', Bool.not_true, Bool.false_and, Bool.false_eq_true, if_false] at hd
    show commitRun db (m, .acquire) [(clock, 0), (clock, 0), (clock, 0), (clock, 0)] = _
    simp only [commitRun, List.foldl_cons, List.foldl_nil, commitStep, hl', hu, h1', if_true]
    rw [hd]
  · by_cases h2 : hasUncommittedOptions m = true
    · have h1' : hasOptions { m with locks := m.locks ++ [db] } = false := by simpa [hasOptions] using h1
      have h2' : hasUncommittedOptions { m with locks := m.locks ++ [db] } = true := h2
      refine ⟨5, ?_⟩
      simp only [h2', Bool.not_true, Bool.and_false, Bool.false_eq_true, if_false] at hd
      show commitRun db (m, .acquire) [(clock, 0), (clock, 0), (clock, 0), (clock, 0), (clock, 0)] = _
      simp only [commitRun, List.foldl_cons, List.foldl_nil, commitStep, hl', hu, h1', h2', if_true, Bool.false_eq_true, if_false]
      rw [hd]
    · have h1' : hasOptions { m with locks := m.locks ++ [db] } = false := by simpa [hasOptions] using h1
      have h2' : hasUncommittedOptions { m with locks := m.locks ++ [db] } = false := by simpa [hasUncommittedOptions] using h2
      refine ⟨8, ?_⟩
      simp only [h1', h2', Bool.not_false, Bool.and_self, if_true] at hd
      show commitRun db (m, .acquire) [(clock, 0), (clock, 0), (clock, 0), (clock, 0), (clock, 0), (clock, 0), (clock, 0), (clock, 0)] = _
      simp only [commitRun, List.foldl_cons, List.foldl_nil, commitStep, hl', hu, h1', h2', if_true, Bool.false_eq_true, if_false]
      rw [← hd, updateOptionsNoCommit]
      simp only [h2', Bool.false_eq_true, if_false]

/-- A commit that is refused is one that stops half way and releases the lock. -/
theorem commitSized_stops {U : Unicode} {db : PyStr} {limit : Nat} {before : MongoRecord → Bool} {clock : Int} {m : Mongo}
    (h : (commitSized db limit before clock m).1 = .error .refused) :
    ∃ picks, (commitSized db limit before clock m).2 = (Step.commitStops clock picks false).run U db m := by
  obtain ⟨hl, d, hd, hv, hs⟩ := commitSized_refused.1 h
  have hu : hasUncommittedData (m.data db) = true := List.any_eq_true.2 ⟨d, hd, by rw [hv]; rfl⟩
  obtain ⟨n, hn⟩ := commitRun_start (clock := clock) hl hu
  let p : MongoRecord → Bool := fun d => before d && fitsCommitted limit clock d
  have hp := picksFor_spec clock p (m.data db) []
  rw [List.nil_append, List.nil_append] at hp
  have hc : ((m.data db).map (fun d => if d.version.isNone && p d then { d with version := some clock } else d)) = commitSome limit clock before (m.data db) := by
    rw [commitSome]
    apply List.map_congr_left
    intro x _
    simp only [p, Bool.and_assoc]
  rw [hc] at hp
  have hstill : hasUncommittedData (commitSome limit clock before (m.data db)) = true := by
    refine List.any_eq_true.2 ⟨d, List.mem_map.2 ⟨d, hd, if_neg ?_⟩, by rw [hv]; rfl⟩
    rw [Bool.and_eq_true, fitsCommitted, decide_eq_true_eq]
    omega
  refine ⟨List.replicate n 0 ++ picksFor p (pendCount []) (m.data db), ?_⟩
  have e : ({ m with options := withDefaults db m, locks := m.locks ++ [db] } : Mongo) =
      ({ m with options := withDefaults db m, locks := m.locks ++ [db] } : Mongo).setData db (m.data db) := (setData_self _ db).symm
  have hrun := commitRun_data (db := db) (clock := clock) (v := clock) (m := { m with options := withDefaults db m, locks := m.locks ++ [db] })
    (picks := picksFor p (pendCount []) (m.data db)) (c := m.data db) (by rw [hp]; exact hstill)
  rw [Step.run, List.map_append, commitRun_append, hn, e, hrun, hp]
  simp only [Bool.not_false, Bool.true_and, Pc.inside, Pc.ended, if_true]
  rw [commitSized_eq hl] at h ⊢
  split at h
  · rename_i hu'
    rw [if_pos hu']
    split at h
    · cases h
    · rename_i ha
      rw [if_neg ha]
      simp only [release, Mongo.setData]
      rw [erase_append_self hl]
  · cases h

theorem runSized_steps {U : Unicode} {db : PyStr} {limit : Nat} {stop : Reached} {m : Mongo} (c : ApiCall) :
    ∃ steps, StepsOf c steps ∧ (c.runSized U db limit stop m).2 = runSteps U db m steps := by
  by_cases h : (c.runSized U db limit stop m).1 = .error .refused
  · cases c with
    | ingest mf rs dc clock =>
      simp only [ApiCall.runSized] at h ⊢
      cases hs : ingestSized U mf 200 (m.data db) rs with
      | error e => rw [hs] at h; cases h
      | ok s =>
        obtain ⟨h1, n, h2⟩ := writeSized_spec limit stop.sent s.written (m.data db)
        rw [hs] at h
        dsimp only at h ⊢
        cases hw : writeSized limit stop.sent (m.data db) s.written with
        | mk c b =>
          rw [hw] at h1 h2 h
          cases b with
          | false =>
            refine ⟨_, .ingest mf rs dc clock n, ?_⟩
            dsimp only at h2 ⊢
            simp only [runSteps, List.foldl_cons, List.foldl_nil, Step.run, Splitgill.ingestCrash, hs, bind, Except.bind]
            rw [← h2]
          | true =>
            have hc : c = s.coll := by rw [ingestSized_coll hs]; exact h1 rfl
            have e2 : Splitgill.ingest U mf (m.data db) rs = .ok c := by
              simp only [Splitgill.ingest, hs, bind, Except.bind, hc]
            dsimp only at h ⊢
            cases dc with
            | false => cases h
            | true =>
              rw [if_pos rfl] at h ⊢
              obtain ⟨picks, hp⟩ := commitSized_stops (U := U) h
              refine ⟨_, .ingestCommit mf rs clock picks, ?_⟩
              rw [hp]
              simp only [runSteps, List.foldl_cons, List.foldl_nil]
              congr 1
              simp only [Step.run, ApiCall.run, e2, Bool.false_eq_true, if_false]
    | commit clock =>
      obtain ⟨picks, hp⟩ := commitSized_stops (U := U) h
      exact ⟨_, .commit clock picks, hp⟩
    | updateOptions o dc clock =>
      simp only [ApiCall.runSized] at h ⊢
      split at h
      · cases h
      · rename_i hs
        rw [if_neg hs]
        split at h
        · rename_i hd
          subst hd
          rw [if_pos rfl]
          obtain ⟨picks, hp⟩ := commitSized_stops (U := U) h
          refine ⟨_, .optionsCommit o clock picks, ?_⟩
          rw [hp]
          simp only [runSteps, List.foldl_cons, List.foldl_nil]
          congr 1
          simp only [Step.run, ApiCall.run, updateOptions]
          rw [if_neg hs, if_neg (by simp)]
        · cases h
    | rollbackOptions => cases h
    | rollbackRecords =>
      simp only [ApiCall.runSized] at h ⊢
      split at h
      · rename_i hu
        rw [if_pos hu]
        cases ho : rollbackOps (m.data db) with
        | error e => rw [ho] at h; cases h
        | ok ops =>
          obtain ⟨_, n, h2⟩ := writeSized_spec limit stop.sent (partition ops 200) (m.data db)
          rw [ho] at h
          dsimp only at h ⊢
          cases hw : writeSized limit stop.sent (m.data db) (partition ops 200) with
          | mk c b =>
            rw [hw] at h2 h
            rw [partition_flatten (by decide)] at h2
            cases b with
            | false =>
              refine ⟨_, .rollback n, ?_⟩
              dsimp only at h2 ⊢
              simp only [runSteps, List.foldl_cons, List.foldl_nil, Step.run, Splitgill.rollbackCrash, ho, hu, if_true, bind, Except.bind]
              rw [← h2]
            | true => cases h
      · cases h
  · exact ⟨_, .done c, (runSized_done h).1⟩

end Splitgill
