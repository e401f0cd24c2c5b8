import Verif.Props.Truthful
import Verif.Props.StepsEach
/-!
# C38 and C132 when calls may be stopped half way
-/

namespace Splitgill.Props
open Splitgill

/-- **C38** after any calls, which may be stopped half way, and syncs between them, with no condition on the records. -/
theorem C38_always_steps (E : ParseEnv) (U : Unicode) (maxDocs : Nat) (db : PyStr) (first : List Step) (parts : List (List Step))
    (ho : OrderlySteps (first ++ parts.flatten)) (hv : committedOptionsOf db (afterSteps U db first) ≠ []) :
    ∃ es vs, runSyncs (realParser E) maxDocs db [] (stepStates U db first parts) = .ok es ∧ es.versions = some vs ∧ vs.Pairwise (· < ·) ∧
      (∀ v, v ∈ vs ↔ ∃ d ∈ found es .all, d.gte = v ∨ d.lt = some v) ∧
      ∀ v, (es.roundedVersion v = some none ∧ (∀ w ∈ vs, v < w) ∧ found es (.version v) = []) ∨
        ∃ w, es.roundedVersion v = some (some w) ∧ w ∈ vs ∧ w ≤ v ∧ (∀ w' ∈ vs, w' ≤ v → w' ≤ w) ∧
          (found es (.version w)).Perm (found es (.version v)) ∧
          ∀ (Q : QueryEnv) (q : EsQuery), (es.searchFor Q (.version w) q).Perm (es.searchFor Q (.version v) q) := by
  have hms := crash_dbOks parts first ho hv
  obtain ⟨es, h1, _⟩ := runSyncs_ok (realParser E) maxDocs _ [] hms latestOk_nil
  obtain ⟨t, hs⟩ := runSyncs_sound (realParser E) maxDocs _ [] es 0 hms (soundIndices_nil 0) h1
  obtain ⟨vs, h⟩ := rounded_sound hs
  exact ⟨es, vs, h1, h⟩

theorem stepStates_split {U : Unicode} {db : PyStr} : ∀ (parts : List (List Step)) (first : List Step), ∀ m ∈ stepStates U db first parts,
    ∃ p q, first ++ parts.flatten = (first ++ p) ++ q ∧ m = afterSteps U db (first ++ p)
  | [], first, m, hm => ⟨[], [], by simp, by rw [stepStates, List.mem_singleton] at hm; simp [hm]⟩
  | part :: parts, first, m, hm => by
    rw [stepStates, List.mem_cons] at hm
    rcases hm with rfl | hm
    · exact ⟨[], part ++ parts.flatten, by simp, by simp⟩
    · obtain ⟨p, q, h1, h2⟩ := stepStates_split parts (first ++ part) m hm
      exact ⟨part ++ p, q, by rw [List.flatten_cons, ← List.append_assoc, h1]; simp, by rw [h2, List.append_assoc]⟩

/-- **C132** after any calls, which may be stopped half way, and syncs between them, whatever the records: there are histories that these calls may have
made such that each document that any search finds has the data of its record as of the version it carries, and ends later if it does. -/
theorem C132_truthful_steps (E : ParseEnv) (hE : E.IgnoresOrder) (hS : E.ScalarHints) (U : Unicode) (hU : U.Sane) (maxDocs : Nat) (db : PyStr)
    (first : List Step) (parts : List (List Step)) (ho : OrderlySteps (first ++ parts.flatten))
    (hv : committedOptionsOf db (afterSteps U db first) ≠ []) :
    ∃ es s, runSyncs (realParser E) maxDocs db [] (stepStates U db first parts) = .ok es ∧
      PossibleHistories U db (first ++ parts.flatten) s ∧ ∀ (at_ : SearchAt), ∀ d ∈ found es at_,
        (∃ a p, AsOf (s d.id).committed d.version a ∧ a ≠ [] ∧ d.parsed = some p ∧
          simEq (.dict (rebuildData p.parsed)) (.dict (remainsDict a)) = true) ∧
        ∀ n, d.next = some n → d.version < n := by
  have hms := crash_dbOks parts first ho hv
  obtain ⟨es, h1, _⟩ := runSyncs_ok (realParser E) maxDocs _ [] hms latestOk_nil
  have hq : ∀ c ∈ first ++ parts.flatten, Fits (fun _ => plainClass.named) U c.stream := fun c _ =>
    (fits_plain U c.stream).named (fun r => fieldNames_of_clean (C16_names_clean U hU r))
  obtain ⟨s, hs, hl⟩ := crash_life hq ho (db := db)
  refine ⟨es, s, h1, hs, fun at_ d hd => ?_⟩
  rcases runSyncs_docs maxDocs _ [] es hms latestOk_nil h1 d (mem_found_all hd) with hd | ⟨m, hm, r, hr, hd⟩
  · simp [ES.all] at hd
  have ok := hms m hm
  obtain ⟨p, q, e, rfl⟩ := stepStates_split parts first m hm
  rw [e] at ho hq hl
  obtain ⟨t, _, s1, l1, s2, hi2, l2, hev⟩ := crash_evolves hq ho ok.options.nonempty
  have hist := l1.hist r.id
  have hne : histOf ((afterSteps U db (first ++ p)).data db) r.id ≠ [] := by
    intro h0
    rw [dbDocs, recDocs_nil h0] at hd; cases hd
  have hp := ok.partitions (realParser E) hne
  obtain ⟨f1, f2, f3⟩ := hp.fields d hd
  obtain ⟨a0, ha0, hne0⟩ := (hp.covered d.gte).1 ⟨d, hd, Int.le_refl _, fun e he => hp.range d hd e he⟩
  obtain ⟨o0, ho0⟩ := exists_optionsAsOf (effectiveOptions_ne_nil _ ok.options.nonempty) d.gte
  obtain ⟨b, hb, hba⟩ := hist.symm.asOf ha0
  obtain ⟨u, hu, _⟩ := id ha0
  obtain ⟨pd, hpp, _, hpr⟩ := rebuild_realParser hE hS (hist.left_mem hu).1 (hist.left_mem hu).2 o0
  have hle : d.gte ≤ t := by
    refine l1.keysUpTo r.id d.gte ?_ hne
    rcases hp.ends d hd _ (.inl rfl) with h | h
    · exact .inl h
    · exact .inr ((List.filter_sublist.map _).subset h)
  have hb2 : AsOf (s2 r.id).committed d.gte b := by
    obtain ⟨w, hw, hwl, hmax⟩ := hb
    refine ⟨w, (hev.suffix r.id).subset hw, hwl, fun w' y hy hy' => ?_⟩
    rcases hev.new r.id _ hy with h | h
    · exact hmax w' y h hy'
    · simp only [gtAfter, decide_eq_true_eq] at h
      omega
  obtain ⟨c, hc, hcb⟩ := (l2.hist r.id).asOf hb2
  obtain ⟨z, hz, hzc⟩ := (hl.hist r.id).symm.asOf hc
  have hza : DEq plainClass.named z a0 := hzc.trans (hcb.trans hba)
  refine ⟨⟨z, pd, by rw [f1, f2]; exact hz, fun h0 => hne0 (hza.nil_iff.1 h0), ?_, ?_⟩, fun n hn => ?_⟩
  · rw [hp.start d hd a0 o0 ha0 ho0, hpp]
  · exact (VRsim_trans hpr.sim (remainsDict_congr knowsEmpty_sim rfl hza.symm.vr)).2.2
  · rw [f3] at hn
    rw [f2]
    exact hp.range d hd n hn

set_option maxRecDepth 100000 in
/-- The steps of C129's example, for which the conditions hold (shown there): a commit is stopped after the first of two records. The documents have
the versions and data of what was committed, and `c`, which was not, is not found. -/
example : (match runSyncs (realParser exEnv') 10 ['x'] [] (stepStates asciiU ['x'] exHalf1 [exHalf2]) with
      | .ok es => decide ((found es .all).map (fun d : Doc (Option ParsedData) => (d.id, d.version, d.next)) =
          [(['a'], 2, none), (['b'], 1, none), (['a'], 1, some 2)] ∧ es.versions = some [1, 2] ∧ es.roundedVersion 5 = some (some 2))
      | .error _ => false) = true := by
  decide +kernel

end Splitgill.Props
